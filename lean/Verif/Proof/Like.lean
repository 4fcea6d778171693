import Verif.Spec.Like
import Verif.Proof.GenericLaws
import Verif.Proof.Release
import Verif.Props.Generic
import Verif.Proof.FloatFinite
import Verif.Proof.Typed

/-!
# Containers of implementations that read like a library type
-/

namespace Miniserde
variable {σ α β : Type} {E : Env}

/-- What `from_str` returns, given the decoding of the tree. -/
def resOf {γ : Type} (o : Option γ) : Res γ := match o with | some v => .ok v | none => .err

theorem parseAs_short {s : Bytes} {j : Json} (h : JText s j) (hn : j.ShortNums) (t : Ty) : parseAs E t s = some (resOf (decode E j t)) := by
  obtain ⟨⟨h', -, e⟩, -⟩ := fromStr_short E h hn t
  rw [parseAs, e]
  unfold resOf
  cases decode E j t <;> rfl

/-- In terms of decoding. -/
theorem like_decode {t : Ty} {f : α → Val} {I : Deser σ α} (hl : I.Like E t f) {s : Bytes} {j : Json} (h : JText s j) (hn : j.ShortNums) (w : σ) :
    ∃ r w', I.fromStr s w = some (r, w') ∧ r.map f = resOf (decode E j t) := by
  obtain ⟨r, w', e, p⟩ := hl.reads s j h hn w
  rw [parseAs_short h hn] at p
  exact ⟨r, w', e, (Option.some.inj p).symm⟩

theorem like_ok {t : Ty} {f : α → Val} {I : Deser σ α} (hl : I.Like E t f) {s : Bytes} {j : Json} (h : JText s j) (hn : j.ShortNums) {w w' : σ} {a : α}
    (e : I.fromStr s w = some (.ok a, w')) : decode E j t = some (f a) := by
  obtain ⟨r, w₁, e', p⟩ := like_decode hl h hn w
  rw [e] at e'
  cases e'
  cases hd : decode E j t with
  | none => rw [hd] at p; cases p
  | some v => rw [hd] at p; injection p with p; rw [p]

theorem like_fail {t : Ty} {f : α → Val} {I : Deser σ α} (hl : I.Like E t f) {s : Bytes} {j : Json} (h : JText s j) (hn : j.ShortNums) {w w' : σ} {r : Res α}
    (e : I.fromStr s w = some (r, w')) (hr : ∀ a, r ≠ .ok a) : decode E j t = none ∧ r = .err := by
  obtain ⟨r', w₁, e', p⟩ := like_decode hl h hn w
  rw [e] at e'
  cases e'
  cases hd : decode E j t with
  | none =>
    rw [hd] at p
    cases r with
    | ok a => exact absurd rfl (hr a)
    | err => exact ⟨rfl, rfl⟩
    | panic => cases p
  | some v =>
    rw [hd] at p
    cases r with
    | ok a => exact absurd rfl (hr a)
    | err => cases p
    | panic => cases p

/-- What is read element by element. -/
theorem readsAll_decode {t : Ty} {f : α → Val} {I : Deser σ α} (hl : I.Like E t f) {ss : List Bytes} {w w' : σ} {r : Res (List α)} (h : ReadsAll I ss w r w') :
    ∀ {js : List Json}, Each JText ss js → Json.ShortNumsL js → r.map (fun xs => xs.map f) = resOf (decodeAll E js t) := by
  induction h with
  | nil w =>
    intro js he _
    cases he
    rw [decodeAll]
    rfl
  | @cons s ss w w₁ w₂ a r h hs ih =>
    intro js he hn
    cases he with
    | cons hj hes =>
      rw [Json.ShortNumsL] at hn
      rw [decodeAll, like_ok hl hj hn.1 h]
      have := ih hes hn.2
      revert this
      generalize decodeAll E _ t = d
      intro this
      cases r <;> cases d <;> simp_all [resOf, Res.map]
  | err h =>
    intro js he hn
    cases he with
    | cons hj hes =>
      rw [Json.ShortNumsL] at hn
      rw [decodeAll, (like_fail hl hj hn.1 h (by simp)).1]
      rfl
  | panic h =>
    intro js he hn
    cases he with
    | cons hj hes =>
      rw [Json.ShortNumsL] at hn
      cases (like_fail hl hj hn.1 h (by simp)).2

theorem readsEntries_decode {t : Ty} {f : α → Val} {I : Deser σ α} (hl : I.Like E t f) {parse : Bytes → Option Bytes} {ms : List (Bytes × Bytes)} {w w' : σ}
    {r : Res (List (Bytes × α))} (h : ReadsEntries parse I ms w r w') :
    ∀ {js : List (Bytes × Json)}, Each (fun m j => m.1 = j.1 ∧ JText m.2 j.2) ms js → Json.ShortNumsM js →
      r.map (fun xs => xs.map fun e => (e.1, f e.2)) = resOf (decodeEntries E parse t js) := by
  induction h with
  | nil w =>
    intro js he _
    cases he
    rw [decodeEntries]
    rfl
  | badKey hk =>
    intro js he hn
    cases he with
    | @cons _ j _ _ hj hes =>
      obtain ⟨k, x⟩ := j
      obtain ⟨e, hj⟩ := hj
      dsimp only at e
      subst e
      rw [decodeEntries, hk]
      rfl
  | fail hk h hr =>
    intro js he hn
    cases he with
    | @cons _ j _ _ hj hes =>
      obtain ⟨k, x⟩ := j
      obtain ⟨e, hj⟩ := hj
      dsimp only at e
      subst e
      rw [Json.ShortNumsM] at hn
      obtain ⟨e1, rfl⟩ := like_fail hl hj hn.1 h hr
      rw [decodeEntries, hk, e1]
      rfl
  | @cons k s ms w w₁ w₂ x a r hk h hs ih =>
    intro js he hn
    cases he with
    | @cons _ j _ _ hj hes =>
      obtain ⟨k', y⟩ := j
      obtain ⟨e, hj⟩ := hj
      dsimp only at e
      subst e
      rw [Json.ShortNumsM] at hn
      rw [decodeEntries, hk, like_ok hl hj hn.1 h]
      have := ih hes hn.2
      revert this
      generalize decodeEntries E parse t _ = d
      intro this
      cases r <;> cases d <;> simp_all [resOf, Res.map]

/-- A scalar at a container that takes none. -/
theorem leaf_err_short {ω ι : Type} {τ : ι → Type} {I : (i : ι) → Deser σ (τ i)} {O : Own σ ω I} (hl : ∀ ev w, O.leaf ev w = (.err, w)) {j : Json}
    (hj : j.scalar = true) (hn : j.ShortNums) (w : ω) : drive O.proto .place j w = (.err, w) := by
  cases j with
  | null => exact hl _ _
  | bool b => exact hl _ _
  | str s => exact hl _ _
  | num l =>
    rcases leaf_err_drive hl hj w with h | h
    · exact h
    · exfalso
      simp only [drive] at h
      unfold driveNum at h
      rw [Json.ShortNums] at hn
      cases hv : numEvent l with
      | ok ev =>
        rw [hv] at h
        rcases numEvent_range hv with ⟨n, rfl, -⟩ | ⟨z, rfl, -⟩ | ⟨m, e, rfl, -⟩
        · cases (hl (.nonnegative n) w).symm.trans h
        · cases (hl (.negative z) w).symm.trans h
        · cases (hl (.float _) w).symm.trans h
      | err => rw [hv] at h; cases h
      | panic => have := De.numEvent_panic hv; omega
  | arr xs => cases hj
  | obj ms => cases hj

/-- Types that take no scalar. -/
def Ty.takesScalar : Ty → Bool
  | .vec _ | .arr _ _ | .tup _ _ | .hmap _ _ | .bmap _ _ | .strct _ => false
  | _ => true

theorem decode_scalar_none {t : Ty} (ht : t.takesScalar = false) {j : Json} (hj : j.scalar = true) : decode E j t = none := by
  cases t <;> cases ht <;> cases j <;> cases hj <;> unfold decode <;> simp only [decodeScalar] <;> split <;> try rfl
  all_goals
    rename_i ev hv
    rcases numEvent_range hv with ⟨n, rfl, -⟩ | ⟨z, rfl, -⟩ | ⟨m, e, rfl, -⟩ <;> rfl

/-- A text that is a scalar, or of the other kind, at a container. -/
theorem like_scalar {ω ι ρ : Type} {τ : ι → Type} {I : (i : ι) → Deser σ (τ i)} {O : Own σ (World ω ρ α) I} {J : Deser (ω × Cells ρ) α}
    (hJ : J = ⟨O.proto, .place, none⟩) (hl : ∀ ev w, O.leaf ev w = (.err, w)) {s : Bytes} {j : Json} (h : JText s j) (hj : j.scalar = true) (hn : j.ShortNums)
    {t : Ty} (ht : t.takesScalar = false) (f : α → Val) (w : ω × Cells ρ) :
    ∃ r w', J.fromStr s w = some (r, w') ∧ some (resOf (decode E j t)) = some (r.map f) := by
  subst hJ
  rw [fromStr_json _ h, decode_scalar_none ht hj]
  refine ⟨.err, _, congrArg (fun z => some (finalOf z)) (leaf_err_short hl hj hn _), rfl⟩

theorem like_seq {ω ι ρ : Type} {τ : ι → Type} {I : (i : ι) → Deser σ (τ i)} {O : Own σ (World ω ρ α) I} {J : Deser (ω × Cells ρ) α}
    (hJ : J = ⟨O.proto, .place, none⟩) (hl : ∀ w, O.seq w = (.err, w)) {s : Bytes} {js : List Json} (h : JText s (.arr js))
    {t : Ty} (ht : decode E (.arr js) t = none) (f : α → Val) (w : ω × Cells ρ) :
    ∃ r w', J.fromStr s w = some (r, w') ∧ some (resOf (decode E (.arr js) t)) = some (r.map f) := by
  subst hJ
  rw [fromStr_json _ h, ht]
  exact ⟨.err, _, congrArg (fun z => some (finalOf z)) (seq_err_drive hl js _), rfl⟩

theorem like_map {ω ι ρ : Type} {τ : ι → Type} {I : (i : ι) → Deser σ (τ i)} {O : Own σ (World ω ρ α) I} {J : Deser (ω × Cells ρ) α}
    (hJ : J = ⟨O.proto, .place, none⟩) (hl : ∀ w, O.map w = (.err, w)) {s : Bytes} {ms : List (Bytes × Json)} (h : JText s (.obj ms))
    {t : Ty} (ht : decode E (.obj ms) t = none) (f : α → Val) (w : ω × Cells ρ) :
    ∃ r w', J.fromStr s w = some (r, w') ∧ some (resOf (decode E (.obj ms) t)) = some (r.map f) := by
  subst hJ
  rw [fromStr_json _ h, ht]
  exact ⟨.err, _, congrArg (fun z => some (finalOf z)) (map_err_drive hl ms _), rfl⟩

theorem vec_like {t : Ty} {f : α → Val} {I : Deser σ α} (hl : I.Like E t f) : I.vec.Like E (.vec t) (fun xs => .seq (xs.map f)) where
  reads := by
    rintro s j h hn ⟨w, cs⟩
    rw [parseAs_short h hn]
    cases j with
    | arr js =>
      obtain ⟨ss, hs⟩ := JText.elements h
      obtain ⟨r, w', cs', he, hr⟩ := C72_vec I hl.delivers s js h ss hs w cs
      refine ⟨r, _, he, ?_⟩
      rw [Json.ShortNums] at hn
      have := readsAll_decode hl hr hs hn
      unfold decode
      simp only
      revert this
      generalize decodeAll E _ t = d
      intro this
      cases r <;> cases d <;> simp_all [resOf, Res.map]
    | obj ms => exact like_map rfl (fun _ => rfl) h (by unfold decode; rfl) _ _
    | _ => exact like_scalar rfl (fun _ _ => rfl) h rfl hn rfl _ _
  absent := rfl
  delivers := (vec_lawful hl.delivers).1
  overwrites := (vec_lawful hl.delivers).2

theorem each_take {γ δ : Type} {R : γ → δ → Prop} : ∀ {as : List γ} {bs : List δ} (n : Nat), Each R as bs → Each R (as.take n) (bs.take n)
  | _, _, 0, _ => by simp only [List.take_zero]; exact .nil
  | _, _, _ + 1, .nil => .nil
  | _, _, n + 1, .cons h hs => .cons h (each_take n hs)

theorem shortL_take : ∀ {js : List Json} (n : Nat), Json.ShortNumsL js → Json.ShortNumsL (js.take n)
  | _, 0, _ => by simp only [List.take_zero]; exact trivial
  | [], _ + 1, _ => trivial
  | _ :: _, n + 1, h => ⟨h.1, shortL_take n h.2⟩

theorem arr_like {t : Ty} {f : α → Val} {I : Deser σ α} (n : Nat) (hl : I.Like E t f) : (I.arr n).Like E (.arr t n) (fun xs => .seq (xs.map f)) where
  reads := by
    rintro s j h hn ⟨w, cs⟩
    rw [parseAs_short h hn]
    cases j with
    | arr js =>
      obtain ⟨ss, hs⟩ := JText.elements h
      obtain ⟨r, w', cs', he, r₀, hr, e⟩ := C72_arr n I hl.delivers s js h ss hs w cs
      refine ⟨r, _, he, ?_⟩
      rw [Json.ShortNums] at hn
      have key := readsAll_decode hl hr (each_take _ hs) (shortL_take _ hn)
      unfold decode
      simp only
      by_cases hlen : js.length = n
      · rw [List.take_of_length_le (by omega)] at key
        rw [if_pos hlen]
        cases hd : decodeAll E js t with
        | none =>
          rw [hd] at key
          cases r₀ with
          | ok l => cases key
          | err => subst e; rfl
          | panic => cases key
        | some vs =>
          rw [hd] at key
          cases r₀ with
          | ok l =>
            injection key with key
            have := decodeAll_length hd
            rw [← key, List.length_map] at this
            simp only at e
            rw [if_pos (by omega)] at e
            subst e
            rw [← key]
            rfl
          | err => cases key
          | panic => cases key
      · rw [if_neg hlen]
        cases r₀ with
        | ok l =>
          cases hd : decodeAll E (js.take (n + 1)) t with
          | none => rw [hd] at key; cases key
          | some vs =>
            rw [hd] at key
            injection key with key
            have := decodeAll_length hd
            rw [← key, List.length_map, List.length_take] at this
            simp only at e
            rw [if_neg (by omega)] at e
            subst e
            rfl
        | err => subst e; rfl
        | panic =>
          generalize decodeAll E _ t = d at key
          cases d <;> cases key
    | obj ms => exact like_map rfl (fun _ => rfl) h (by unfold decode; rfl) _ _
    | _ => exact like_scalar rfl (fun _ _ => rfl) h rfl hn rfl _ _
  absent := rfl
  delivers := (arr_lawful hl.delivers).1
  overwrites := (arr_lawful hl.delivers).2

theorem pair_like {t u : Ty} {f : α → Val} {g : β → Val} {I : Deser σ α} {J : Deser σ β} (hI : I.Like E t f) (hJ : J.Like E u g) :
    (I.pair J).Like E (.tup t u) (fun p => .seq [f p.1, g p.2]) where
  reads := by
    rintro s j h hn ⟨w, cs⟩
    rw [parseAs_short h hn]
    cases j with
    | arr js =>
      obtain ⟨ss, hs⟩ := JText.elements h
      obtain ⟨r, w', cs', he, hr⟩ := C72_pair I J hI.delivers hJ.delivers s js h ss hs w cs
      refine ⟨r, _, he, ?_⟩
      rw [Json.ShortNums] at hn
      unfold decode
      cases hr with
      | none => cases hs; rfl
      | failFst h1 hr =>
        cases hs with
        | @cons _ _ _ bs hj hs =>
          obtain ⟨e1, rfl⟩ := like_fail hI hj hn.1 h1 hr
          rcases bs with _ | ⟨_, _ | ⟨_, _⟩⟩
          · rfl
          · simp only [e1]; rfl
          · rfl
      | one h1 => cases hs with | cons hj hs => cases hs; rfl
      | failSnd h1 h2 hr =>
        cases hs with
        | cons hj hs =>
          cases hs with
          | @cons _ _ _ bs hj' hs =>
            obtain ⟨e1, rfl⟩ := like_fail hJ hj' hn.2.1 h2 hr
            rcases bs with _ | ⟨_, _⟩
            · simp only [like_ok hI hj hn.1 h1, e1]; rfl
            · rfl
      | two h1 h2 =>
        cases hs with
        | cons hj hs =>
          cases hs with
          | cons hj' hs =>
            cases hs
            simp only [like_ok hI hj hn.1 h1, like_ok hJ hj' hn.2.1 h2]
            rfl
      | more h1 h2 =>
        cases hs with
        | cons hj hs =>
          cases hs with
          | cons hj' hs => cases hs; rfl
    | obj ms => exact like_map rfl (fun _ => rfl) h (by unfold decode; rfl) _ _
    | _ => exact like_scalar rfl (fun _ _ => rfl) h rfl hn rfl _ _
  absent := rfl
  delivers := (pair_lawful hI.delivers hJ.delivers).1
  overwrites := (pair_lawful hI.delivers hJ.delivers).2

/-- How an `Option` is seen. -/
def optVal (f : α → Val) : Option α → Val
  | some a => .optSome (f a)
  | none => .optNone

theorem opt_like {t : Ty} {f : α → Val} {I : Deser σ α} (hl : I.Like E t f) : I.opt.Like E (.opt t) (optVal f) where
  reads := by
    intro s j h hn w
    rw [parseAs_short h hn]
    obtain ⟨r, w', he, hr⟩ := C72_opt I hl.delivers s ⟨j, h⟩ w
    refine ⟨r, w', he, ?_⟩
    unfold decode
    rcases hr with ⟨h', rfl, -⟩ | ⟨h', r₀, h0, rfl⟩
    · cases JText.unique h h'
      rfl
    · have hj : j.isNull = false := by
        cases j with
        | null => exact absurd h h'
        | _ => rfl
      simp only [hj]
      cases r₀ with
      | ok a => rw [like_ok hl h hn h0]; rfl
      | err => rw [(like_fail hl h hn h0 (by simp)).1]; rfl
      | panic => cases (like_fail hl h hn h0 (by simp)).2
  absent := rfl
  delivers := (opt_lawful I).1
  overwrites := (opt_lawful I).2

theorem box_like {t : Ty} {f : α → Val} {I : Deser σ α} (hl : I.Like E t f) : I.box.Like E (.box t) (fun a => .box (f a)) where
  reads := by
    rintro s j h hn ⟨w, cs⟩
    rw [parseAs_short h hn]
    obtain ⟨r, w', cs', he, hr⟩ := C72_box I hl.delivers s ⟨j, h⟩ w cs
    refine ⟨r, _, he, ?_⟩
    unfold decode
    cases r with
    | ok a => simp only [like_ok hl h hn hr]; rfl
    | err => simp only [(like_fail hl h hn hr (by simp)).1]; rfl
    | panic => cases (like_fail hl h hn hr (by simp)).2
  absent := rfl
  delivers := (box_lawful I).1
  overwrites := (box_lawful I).2

/-- How a map is seen. -/
def mapVal (f : α → Val) (m : List (Bytes × α)) : Val := .map (m.map fun e => (e.1, f e.2))

theorem hashInsert_map (f : α → Val) (k : Bytes) (a : α) : ∀ m : List (Bytes × α),
    (hashInsert k a m).map (fun e => (e.1, f e.2)) = hashInsert k (f a) (m.map fun e => (e.1, f e.2))
  | [] => rfl
  | (k', b) :: m => by
    simp only [hashInsert, List.map_cons]
    split
    · rfl
    · rw [List.map_cons, hashInsert_map f k a m]

theorem btreeInsert_map (lt : Bytes → Bytes → Bool) (f : α → Val) (k : Bytes) (a : α) : ∀ m : List (Bytes × α),
    (btreeInsert lt k a m).map (fun e => (e.1, f e.2)) = btreeInsert lt k (f a) (m.map fun e => (e.1, f e.2))
  | [] => rfl
  | (k', b) :: m => by
    simp only [btreeInsert, List.map_cons]
    split
    · rfl
    · split
      · rw [List.map_cons, btreeInsert_map lt f k a m]
      · rfl

theorem foldl_map {ins : Bytes → α → List (Bytes × α) → List (Bytes × α)} {ins' : Bytes → Val → List (Bytes × Val) → List (Bytes × Val)} {f : α → Val}
    (hi : ∀ k a m, (ins k a m).map (fun e => (e.1, f e.2)) = ins' k (f a) (m.map fun e => (e.1, f e.2))) : ∀ (es : List (Bytes × α)) (m : List (Bytes × α)),
    (es.foldl (fun m e => ins e.1 e.2 m) m).map (fun e => (e.1, f e.2)) =
      (es.map fun e => (e.1, f e.2)).foldl (fun m e => ins' e.1 e.2 m) (m.map fun e => (e.1, f e.2))
  | [], m => rfl
  | e :: es, m => by
    rw [List.foldl_cons, foldl_map hi es, List.map_cons, List.foldl_cons, hi]

theorem map_like {t T : Ty} {f : α → Val} {I : Deser σ α} (hl : I.Like E t f) (parse : Bytes → Option Bytes) (ins : Bytes → α → List (Bytes × α) → List (Bytes × α))
    (ins' : Bytes → Val → List (Bytes × Val) → List (Bytes × Val))
    (hi : ∀ k a m, (ins k a m).map (fun e => (e.1, f e.2)) = ins' k (f a) (m.map fun e => (e.1, f e.2)))
    (ht : T.takesScalar = false) (ha : ∀ js, decode E (.arr js) T = none)
    (ho : ∀ js, decode E (.obj js) T = (decodeEntries E parse t js).map fun kvs => .map (kvs.foldl (fun m kv => ins' kv.1 kv.2 m) [])) :
    (I.map ⟨parse, [], ins⟩).Like E T (mapVal f) where
  reads := by
    rintro s j h hn ⟨w, cs⟩
    rw [parseAs_short h hn]
    cases j with
    | obj js =>
      obtain ⟨ms, hs⟩ := JText.members h
      obtain ⟨r, w', cs', he, hr⟩ := C72_map ⟨parse, [], ins⟩ I hl.delivers s js h ms hs w cs
      refine ⟨_, _, he, ?_⟩
      rw [Json.ShortNums] at hn
      have key := readsEntries_decode hl hr hs hn
      rw [ho]
      generalize decodeEntries E parse t js = d at key
      cases r with
      | ok es =>
        cases d with
        | none => cases key
        | some kvs =>
          injection key with key
          rw [← key]
          show some (Res.ok _) = some (Res.ok (mapVal f _))
          rw [mapVal, foldl_map hi]
          rfl
      | err => cases d with | none => rfl | some _ => cases key
      | panic => cases d <;> cases key
    | arr js => exact like_seq rfl (fun _ => rfl) h (ha js) _ _
    | _ => exact like_scalar rfl (fun _ _ => rfl) h rfl hn ht _ _
  absent := by cases T <;> first | rfl | cases ht
  delivers := (map_lawful hl.delivers).1
  overwrites := (map_lawful hl.delivers).2

theorem hmap_like {t : Ty} {f : α → Val} {I : Deser σ α} (k : Nat) (hl : I.Like E t f) :
    (I.map ⟨E.keyParse k, [], hashInsert⟩).Like E (.hmap k t) (mapVal f) :=
  map_like hl _ _ hashInsert (fun _ _ _ => hashInsert_map f _ _ _) rfl (fun js => by unfold decode; rfl) (fun js => by unfold decode; rfl)

theorem bmap_like {t : Ty} {f : α → Val} {I : Deser σ α} (k : Nat) (hl : I.Like E t f) :
    (I.map ⟨E.keyParse k, [], btreeInsert (E.keyLt k)⟩).Like E (.bmap k t) (mapVal f) :=
  map_like hl _ _ (btreeInsert (E.keyLt k)) (fun _ _ _ => btreeInsert_map _ f _ _ _) rfl (fun js => by unfold decode; rfl) (fun js => by unfold decode; rfl)

/-! ## Structs -/

/-- `Ok(())` or `Err`. -/
def boolRes : Bool → Res Unit
  | true => .ok ()
  | false => .err

mutual

theorem skip_drive : ∀ {j : Json}, j.ShortNums → drive skip () j () = (boolRes (representable j), ())
  | .null, _ => rfl
  | .bool _, _ => rfl
  | .str _, _ => rfl
  | .num l, h => by
    rw [Json.ShortNums] at h
    simp only [drive, representable]
    unfold driveNum
    rcases hv : numEvent l with ev | _ | _
    · rcases numEvent_range hv with ⟨n, rfl, -⟩ | ⟨z, rfl, -⟩ | ⟨m, e, rfl, -⟩ <;> rfl
    · rfl
    · have := De.numEvent_panic hv; omega
  | .arr xs, h => by
    rw [Json.ShortNums] at h
    simp only [drive, representable]
    have e : skip.seq () () = (.ok (), ()) := rfl
    rw [e]
    simp only
    rw [skip_driveElems h]
  | .obj ms, h => by
    rw [Json.ShortNums] at h
    simp only [drive, representable]
    have e : skip.map () () = (.ok (), ()) := rfl
    rw [e]
    simp only
    rw [skip_driveMembers h]

theorem skip_driveElems : ∀ {xs : List Json}, Json.ShortNumsL xs → driveElems skip () xs () = (boolRes (representables xs), ())
  | [], _ => rfl
  | x :: xs, h => by
    rw [Json.ShortNumsL] at h
    simp only [driveElems, representables]
    have e : skip.element () () = (.ok (), ()) := rfl
    rw [e]
    simp only
    rw [skip_drive h.1]
    cases representable x
    · rfl
    · simp only [Bool.true_and, boolRes]
      exact skip_driveElems h.2

theorem skip_driveMembers : ∀ {ms : List (Bytes × Json)}, Json.ShortNumsM ms → driveMembers skip () ms () = (boolRes (representableMembers ms), ())
  | [], _ => rfl
  | (k, x) :: ms, h => by
    rw [Json.ShortNumsM] at h
    simp only [driveMembers, representableMembers]
    have e : skip.key () k () = (.ok (), ()) := rfl
    rw [e]
    simp only
    rw [skip_drive h.1]
    cases representable x
    · rfl
    · simp only [Bool.true_and, boolRes]
      exact skip_driveMembers h.2

end

theorem skip_fromStr {s : Bytes} {j : Json} (h : JText s j) (hn : j.ShortNums) : fromStrImpl skip s () () = some (boolRes (representable j), ()) := by
  have : fromStrImpl skip s () () = some (drive skip () j ()) := fromStrImpl_text h skip _ _ _ (by simp)
  rw [this, skip_drive hn]

variable {n : Nat} {τ : Fin n → Type}

theorem fieldIdx_ofFn {names : Fin n → Bytes} (ts : Fin n → Ty) {k : Bytes} {i : Fin n} (h : Named names k i) :
    fieldIdx (List.ofFn fun i => (names i, ts i)) k = some i.1 := by
  unfold fieldIdx
  rw [List.findIdx?_eq_some_iff_getElem]
  refine ⟨by simp, by simp [h.1], fun j hj => ?_⟩
  have := h.2 ⟨j, by omega⟩ hj
  simpa using this

theorem fieldIdx_ofFn_none {names : Fin n → Bytes} (ts : Fin n → Ty) {k : Bytes} (h : ∀ i, names i ≠ k) :
    fieldIdx (List.ofFn fun i => (names i, ts i)) k = none := by
  unfold fieldIdx
  rw [List.findIdx?_eq_none_iff]
  intro x hx
  obtain ⟨i, rfl⟩ := List.mem_ofFn.1 hx
  simpa using h i

theorem readsFields_decode {ts : Fin n → Ty} {f : (i : Fin n) → τ i → Val} {names : Fin n → Bytes} {I : (i : Fin n) → Deser σ (τ i)}
    (hl : ∀ i, (I i).Like E (ts i) (f i)) {c : (i : Fin n) → Option (τ i)} {ms : List (Bytes × Bytes)} {w w' : σ} {r : Res ((i : Fin n) → Option (τ i))}
    (h : ReadsFields names I c ms w r w') :
    ∀ {js : List (Bytes × Json)}, Each (fun m j => m.1 = j.1 ∧ JText m.2 j.2) ms js → Json.ShortNumsM js →
      (∃ ivs c', decodeFields E (List.ofFn fun i => (names i, ts i)) js = some ivs ∧ r = .ok c' ∧
        ∀ i, (c' i).map (f i) = (ivs.reverse.lookup i.1).or ((c i).map (f i))) ∨
      (decodeFields E (List.ofFn fun i => (names i, ts i)) js = none ∧ r = .err) := by
  induction h with
  | nil c w =>
    intro js he _
    cases he
    refine .inl ⟨[], c, by rw [decodeFields], rfl, fun i => by simp⟩
  | @field c k s ms w w₁ w₂ i x r hk h hs ih =>
    intro js he hn
    cases he with
    | @cons _ j _ _ hj hes =>
      obtain ⟨k', y⟩ := j
      obtain ⟨e, hj⟩ := hj
      dsimp only at e
      subst e
      rw [Json.ShortNumsM] at hn
      rw [decodeFields, fieldIdx_ofFn ts hk]
      have hg : (List.ofFn fun i => (names i, ts i))[i.1]? = some (names i, ts i) := by simp
      simp only [hg, like_ok (hl i) hj hn.1 h, Option.bind_some]
      rcases ih hes hn.2 with ⟨ivs, c', e1, rfl, e2⟩ | ⟨e1, rfl⟩
      · refine .inl ⟨_, c', by rw [e1]; rfl, rfl, fun i' => ?_⟩
        rw [e2 i', List.reverse_cons, List.lookup_append]
        cases ivs.reverse.lookup i'.1 with
        | some v => rfl
        | none =>
          simp only [Option.none_or, List.lookup]
          unfold assign
          by_cases hi : i' = i
          · subst hi; simp
          · have : (i'.1 == i.1) = false := by simpa using fun h => hi (Fin.ext h)
            simp [hi, this]
      · exact .inr ⟨by rw [e1]; rfl, rfl⟩
  | @fail c k s ms w w₁ i r hk h hr =>
    intro js he hn
    cases he with
    | @cons _ j _ _ hj hes =>
      obtain ⟨k', y⟩ := j
      obtain ⟨e, hj⟩ := hj
      dsimp only at e
      subst e
      rw [Json.ShortNumsM] at hn
      obtain ⟨e1, rfl⟩ := like_fail (hl i) hj hn.1 h hr
      rw [decodeFields, fieldIdx_ofFn ts hk]
      have hg : (List.ofFn fun i => (names i, ts i))[i.1]? = some (names i, ts i) := by simp
      simp only [hg, e1, Option.bind_none]
      exact .inr ⟨trivial, rfl⟩
  | @unknown c k s ms w w₂ r hk h hs ih =>
    intro js he hn
    cases he with
    | @cons _ j _ _ hj hes =>
      obtain ⟨k', y⟩ := j
      obtain ⟨e, hj⟩ := hj
      dsimp only at e
      subst e
      rw [Json.ShortNumsM] at hn
      rw [decodeFields, fieldIdx_ofFn_none ts hk]
      rw [skip_fromStr hj hn.1] at h
      simp only at h ⊢
      cases hr : representable y with
      | true => exact ih hes hn.2
      | false => rw [hr] at h; cases h
  | @unknownFail c k s ms w r hk h hr =>
    intro js he hn
    cases he with
    | @cons _ j _ _ hj hes =>
      obtain ⟨k', y⟩ := j
      obtain ⟨e, hj⟩ := hj
      dsimp only at e
      subst e
      rw [Json.ShortNumsM] at hn
      rw [decodeFields, fieldIdx_ofFn_none ts hk]
      rw [skip_fromStr hj hn.1] at h
      simp only at h ⊢
      cases hr' : representable y with
      | true => rw [hr'] at h; cases h; exact absurd rfl hr
      | false => rw [hr'] at h; cases h; exact .inr ⟨rfl, rfl⟩

/-- How a struct is seen. -/
def structVal (f : (i : Fin n) → τ i → Val) (v : (i : Fin n) → τ i) : Val := .strct (List.ofFn fun i => f i (v i))

theorem struct_like {ts : Fin n → Ty} {f : (i : Fin n) → τ i → Val} {names : Fin n → Bytes} {I : (i : Fin n) → Deser σ (τ i)}
    (hl : ∀ i, (I i).Like E (ts i) (f i)) (k : Nat) (hk : E.fields k = List.ofFn fun i => (names i, ts i)) :
    (Deser.struct names I).Like E (.strct k) (structVal f) where
  reads := by
    rintro s j h hn ⟨w, cs⟩
    rw [parseAs_short h hn]
    cases j with
    | obj js =>
      obtain ⟨ms, hs⟩ := JText.members h
      obtain ⟨r, w', cs', he, r₀, hr, e⟩ := C72_struct names I (fun i => (hl i).delivers) (fun i => (hl i).overwrites) s js h ms hs w cs
      refine ⟨r, _, he, ?_⟩
      rw [Json.ShortNums] at hn
      have hv : ∀ ivs i, fieldValue ivs i.1 (ts i) = (ivs.reverse.lookup i.1).or (((I i).default).map (f i)) := by
        intro ivs i
        rw [(hl i).absent]
        unfold fieldValue Ty.absent
        cases ivs.reverse.lookup i.1 <;> cases ts i <;> rfl
      unfold decode
      simp only [hk]
      rcases readsFields_decode hl hr hs hn with ⟨ivs, c', e1, rfl, e2⟩ | ⟨e1, rfl⟩
      · rw [e1]
        simp only [Option.bind_some]
        rcases e with ⟨v, hc, rfl⟩ | ⟨⟨i, hc⟩, rfl⟩
        · have : fieldValues ivs 0 (List.ofFn fun i => (names i, ts i)) = some (List.ofFn fun i => f i (v i)) := by
            rw [fieldValues_spec]
            refine ⟨by simp, fun i nm t hi => ?_⟩
            obtain ⟨hlt, hi⟩ := List.getElem?_eq_some_iff.1 hi
            rw [List.getElem_ofFn] at hi
            injection hi with h1 h2
            rw [List.length_ofFn] at hlt
            refine ⟨f ⟨i, hlt⟩ (v ⟨i, hlt⟩), by simp [hlt], ?_⟩
            rw [Nat.zero_add, ← h2]
            have := hv ivs ⟨i, hlt⟩
            rw [this, ← e2, hc]
            rfl
          rw [this]
          rfl
        · cases hf : fieldValues ivs 0 (List.ofFn fun i => (names i, ts i)) with
          | none => rfl
          | some vs =>
            rw [fieldValues_spec] at hf
            obtain ⟨u, -, h2⟩ := hf.2 i.1 (names i) (ts i) (by simp)
            rw [Nat.zero_add, hv, ← e2, hc] at h2
            cases h2
      · rw [e1]
        simp only at e
        subst e
        rfl
    | arr js => exact like_seq rfl (fun _ => rfl) h (by unfold decode; rfl) _ _
    | _ => exact like_scalar rfl (fun _ _ => rfl) h rfl hn rfl _ _
  absent := rfl
  delivers := (struct_lawful (fun i => (hl i).delivers) fun i => (hl i).overwrites).1
  overwrites := (struct_lawful (fun i => (hl i).delivers) fun i => (hl i).overwrites).2

/-- The state being part of a bigger one makes no difference. -/
theorem inside_like {ρ : Type} {t : Ty} {f : α → Val} {I : Deser σ α} (p : Part ρ σ) (hl : I.Like E t f) : (I.inside p).Like E t f where
  reads := by
    intro s j h hn w
    obtain ⟨r, w', e1, e2⟩ := hl.reads s j h hn (p.get w)
    exact ⟨r, p.put w' w, by rw [(C72_inside p I).1 s ⟨j, h⟩ w, e1]; rfl, e2⟩
  absent := hl.absent
  delivers := (C72_inside p I).2.1 hl.delivers
  overwrites := (C72_inside p I).2.2 hl.overwrites

end Miniserde
