import Verif.Proof.TypeSound
import Verif.Proof.Heap
import Verif.Spec.Client

/-!
# Builders called by arbitrary programs: types of the contents
-/

namespace Miniserde
variable {E : Env}

theorem Content.none (t : Ty) : Content E t none := fun _ h => nomatch h
theorem Content.some {t : Ty} {v : Val} (h : HasTy E t v) : Content E t (some v) := fun _ e => by cases e; exact h

/-- The type of a field of a builder whose place can be handed out. -/
def Core.fieldTy (E : Env) : Core → Nat → Option Ty
  | .vec t _ _, 0 => some t
  | .arr t _ _ _ _, 0 => some t
  | .tup a _ _ _, 0 => some a
  | .tup _ b _ _, 1 => some b
  | .map _ t _ _ _, 0 => some t
  | .strct i _, f => (E.fields i)[f]?.map Prod.snd
  | _, _ => none

/-- What a map of this kind in a type should be. -/
inductive KindOk : Ty → MapKind → Ty → Prop
  | hash (k : Nat) (t : Ty) : KindOk (.hmap k t) (.hash k) t
  | btree (k : Nat) (t : Ty) : KindOk (.bmap k t) (.btree k) t
  | object : KindOk .object .object .value
  | value : KindOk .value .object .value

/-- A builder of a `T`, with well-typed content. -/
inductive CoreOk (E : Env) : Ty → Bool → Core → Prop
  | vec {T t done el} (hT : T = .vec t ∨ (T = .array ∨ T = .value) ∧ t = .value) (hd : ∀ v ∈ done, HasTy E t v) (he : Content E t el) :
      CoreOk E T false (.vec t done el)
  | arr {t n slots len el} (hl : slots.length = n) (hlen : len ≤ n)
      (hs : ∀ j c, slots[j]? = some c → Content E t c ∧ (c.isSome = true ↔ j < len)) (he : Content E t el) :
      CoreOk E (.arr t n) false (.arr t n slots len el)
  | tup {a b x y} (hx : Content E a x) (hy : Content E b y) : CoreOk E (.tup a b) false (.tup a b x y)
  | map {T kind t m key val} (hk : KindOk T kind t) (hm : HasTy E T (.map m)) (hkey : ∀ k, key = some k → ∃ s, ValidUtf8 s ∧ kind.parse E s = some k)
      (hv : Content E t val) : CoreOk E T true (.map kind t m key val)
  | strct {i fs} (hl : fs.length = (E.fields i).length)
      (h : ∀ (j : Nat) (f : Bytes × Ty) (c : Option Val), (E.fields i)[j]? = some f → fs[j]? = some c → Content E f.2 c) :
      CoreOk E (.strct i) true (.strct i fs)

theorem kind_insert (hE : E.Lawful) {T t : Ty} {kind : MapKind} (hk : KindOk T kind t) {m : List (Bytes × Val)} (hm : HasTy E T (.map m))
    {s k : Bytes} (hs : ValidUtf8 s) (hp : kind.parse E s = some k) {v : Val} (hv : HasTy E t v) :
    HasTy E T (.map (kind.insert E k v m)) := by
  have obj : ∀ {T : Ty}, T = .object ∨ T = .value → HasTy E T (.map m) → kind = .object → HasTy E .value v → s = k →
      HasTy E T (.map (btreeInsert bytesLt k v m)) := by
    intro T hT hm hk hv e
    subst e
    cases hm with
    | object ht hku hs' h =>
      refine .object hT ?_ (by rw [bytesLt_eq_strLt]; exact btreeInsert_sorted strLt_linear s v m hs') ?_
      · intro x hx
        rcases (btreeInsert_mem' hx).1 with e | ⟨y, hy, e⟩
        · rw [e]; exact hs
        · rw [← e]; exact hku y hy
      · intro x hx
        rcases (btreeInsert_mem' hx).2 with e | ⟨y, hy, e⟩
        · rw [e]; exact hv
        · rw [← e]; exact h y hy
    | hmap => rcases hT with e | e <;> cases e
    | bmap => rcases hT with e | e <;> cases e
  cases hk with
  | hash i t =>
    cases hm with
    | object ht => rcases ht with e | e <;> cases e
    | hmap hn hu h =>
      refine .hmap (hashInsert_nodup k v m hn) ?_ ?_
      · intro x hx
        rcases hashInsert_mem hx with rfl | hx
        · exact hE.keyShow i s k hs hp
        · exact hu x hx
      · intro x hx
        rcases hashInsert_mem hx with rfl | hx
        · exact hv
        · exact h x hx
  | btree i t =>
    cases hm with
    | object ht => rcases ht with e | e <;> cases e
    | bmap hs' hu h =>
      refine .bmap (btreeInsert_sorted (hE.keyLt i) k v m hs') ?_ ?_
      · intro x hx
        rcases (btreeInsert_mem' hx).1 with e | ⟨y, hy, e⟩
        · rw [e]; exact hE.keyShow i s k hs hp
        · rw [← e]; exact hu y hy
      · intro x hx
        rcases (btreeInsert_mem' hx).2 with e | ⟨y, hy, e⟩
        · rw [e]; exact hv
        · rw [← e]; exact h y hy
  | object => exact obj (.inl rfl) hm rfl hv (Option.some.inj hp)
  | value => exact obj (.inr rfl) hm rfl hv (Option.some.inj hp)

theorem kind_empty {T t : Ty} {kind : MapKind} (hk : KindOk T kind t) : HasTy E T (.map []) := by
  cases hk with
  | hash => exact .hmap (by simp) (by simp) (by simp)
  | btree => exact .bmap List.Pairwise.nil (by simp) (by simp)
  | object => exact .object (.inl rfl) (by simp) List.Pairwise.nil (by simp)
  | value => exact .object (.inr rfl) (by simp) List.Pairwise.nil (by simp)

theorem default_content (t : Ty) : Content E t t.default := by
  cases t <;> first | exact Content.none _ | exact Content.some (.none _)

/-- The builders of `seq()`/`map()`. -/
theorem core_open {t : Ty} {isMap : Bool} {core : Core} (h : t.core E isMap = some core) : CoreOk E t isMap core := by
  have nm : ∀ kind t T, KindOk T kind t → CoreOk E T true (.map kind t [] none none) := fun kind t T hk =>
    .map hk (kind_empty hk) (fun _ h => nomatch h) (Content.none _)
  cases t <;> cases isMap <;> simp only [Ty.core, Option.some.injEq, reduceCtorEq] at h <;> subst h
  · exact .vec (.inr ⟨.inr rfl, rfl⟩) (by simp) (Content.none _)
  · exact nm _ _ _ .value
  · exact .vec (.inr ⟨.inl rfl, rfl⟩) (by simp) (Content.none _)
  · exact nm _ _ _ .object
  · exact .tup (Content.none _) (Content.none _)
  · exact .vec (.inl rfl) (by simp) (Content.none _)
  · refine .arr (by simp) (Nat.zero_le _) ?_ (Content.none _)
    intro j c hj
    rw [List.getElem?_replicate] at hj
    split at hj <;> cases hj
    exact ⟨Content.none _, by simp⟩
  · exact nm _ _ _ (.hash _ _)
  · exact nm _ _ _ (.btree _ _)
  · refine .strct (by simp) ?_
    intro j f c hf hc
    rw [List.getElem?_map, hf] at hc
    cases hc
    exact default_content _

theorem shiftVec_typed {t : Ty} {done : List Val} {el : Option Val} (hd : ∀ v ∈ done, HasTy E t v) (he : Content E t el) :
    ∀ v ∈ shiftVec done el, HasTy E t v := by
  cases el with
  | none => exact hd
  | some e =>
    intro v hv
    rcases List.mem_append.1 hv with h | h
    · exact hd v h
    · cases List.mem_singleton.1 h; exact he _ rfl

theorem shiftMap_typed (hE : E.Lawful) {T t : Ty} {kind : MapKind} (hk : KindOk T kind t) {m : List (Bytes × Val)} (hm : HasTy E T (.map m))
    {key : Option Bytes} (hkey : ∀ k, key = some k → ∃ s, ValidUtf8 s ∧ kind.parse E s = some k) {val : Option Val} (hv : Content E t val) :
    HasTy E T (.map (shiftMap E kind m key val)) := by
  rcases key with _ | k <;> rcases val with _ | v <;> try exact hm
  obtain ⟨s, h1, h2⟩ := hkey k rfl
  exact kind_insert hE hk hm h1 h2 (hv _ rfl)

/-- `shift` of the array builder. -/
theorem shiftArr_typed {t : Ty} {n len : Nat} {slots : List (Option Val)} {el : Option Val} (hl : slots.length = n) (hlen : len ≤ n)
    (hs : ∀ j c, slots[j]? = some c → Content E t c ∧ (c.isSome = true ↔ j < len)) (he : Content E t el) :
    ∃ r slots' len', shiftArr t n slots len el = some (r, .arr t n slots' len' none) ∧ r ≠ .panic ∧ slots'.length = n ∧ len' ≤ n ∧
      ∀ j c, slots'[j]? = some c → Content E t c ∧ (c.isSome = true ↔ j < len') := by
  cases el with
  | none => exact ⟨_, _, _, rfl, by simp, hl, hlen, hs⟩
  | some e =>
    simp only [shiftArr]
    by_cases h : len < n
    · have h1 : ∃ c, slots[len]? = some c := ⟨_, List.getElem?_eq_getElem (by omega)⟩
      obtain ⟨c, hc⟩ := h1
      have : c = none := by
        have := (hs len c hc).2
        cases c with
        | none => rfl
        | some v => simp at this
      subst this
      rw [hc]
      refine ⟨_, _, _, rfl, by simp, by simp [hl], by omega, ?_⟩
      intro j c hj
      rw [List.getElem?_set] at hj
      split at hj
      · rename_i e1
        split at hj <;> cases hj
        exact ⟨Content.some (he _ rfl), by simp; omega⟩
      · have := hs j c hj
        refine ⟨this.1, ?_⟩
        rw [this.2]; omega
    · rw [List.getElem?_eq_none (by omega)]
      exact ⟨_, _, _, rfl, by simp, hl, hlen, hs⟩

/-- `element` / `key`. -/
theorem core_child (hE : E.Lawful) {T : Ty} {isMap : Bool} {core : Core} (h : CoreOk E T isMap core) (k : Option Bytes) (hk : k.isSome = isMap)
    (hu : ∀ s, k = some s → ValidUtf8 s) :
    ∃ r core', core.child E k = some (r, core') ∧ CoreOk E T isMap core' ∧ r ≠ .panic ∧
      ∀ f t, r = .ok (some (f, t)) → core'.fieldTy E f = some t := by
  cases h with
  | @vec _ t done el hT hd he =>
    cases k <;> simp at hk
    exact ⟨_, _, rfl, .vec hT (shiftVec_typed hd he) (Content.none _), by simp, fun f t e => by cases e; rfl⟩
  | @arr t n slots len el hl hlen hs he =>
    cases k <;> simp at hk
    obtain ⟨r, slots', len', e, hr, h1, h2, h3⟩ := shiftArr_typed hl hlen hs he
    simp only [Core.child, e]
    cases r with
    | ok u => exact ⟨_, _, rfl, .arr h1 h2 h3 (Content.none _), by simp, fun f t e => by cases e; rfl⟩
    | err => exact ⟨_, _, rfl, .arr h1 h2 h3 (Content.none _), by simp, fun f t e => nomatch e⟩
    | panic => exact absurd rfl hr
  | @tup a b x y hx hy =>
    cases k <;> simp at hk
    rcases x with _ | x
    · exact ⟨_, _, rfl, .tup hx hy, by simp, fun f t e => by cases e; rfl⟩
    · rcases y with _ | y
      · exact ⟨_, _, rfl, .tup hx hy, by simp, fun f t e => by cases e; rfl⟩
      · exact ⟨_, _, rfl, .tup hx hy, by simp, fun f t e => nomatch e⟩
  | @map _ kind t m key val hkd hm hkey hv =>
    cases k with
    | none => simp at hk
    | some s =>
      simp only [Core.child]
      cases hp : kind.parse E s with
      | some k' =>
        exact ⟨_, _, rfl, .map hkd (shiftMap_typed hE hkd hm hkey hv) (fun a e => by cases e; exact ⟨s, hu s rfl, hp⟩) (Content.none _), by simp,
          fun f t e => by cases e; rfl⟩
      | none =>
        exact ⟨_, _, rfl, .map hkd (shiftMap_typed hE hkd hm hkey hv) (fun a e => nomatch e) (Content.none _), by simp, fun f t e => nomatch e⟩
  | @strct i fs hl h =>
    cases k with
    | none => simp at hk
    | some s =>
      simp only [Core.child]
      cases hf : (E.fields i).findIdx? (fun f => f.1 == s) with
      | none => exact ⟨_, _, rfl, .strct hl h, by simp, fun f t e => nomatch e⟩
      | some j =>
        have hj := (List.findIdx?_eq_some_iff_getElem.1 hf).1
        simp only [List.getElem?_eq_getElem hj]
        exact ⟨_, _, rfl, .strct hl h, by simp, fun f t e => by cases e; simp [Core.fieldTy, List.getElem?_eq_getElem hj]⟩

theorem allInit_some : ∀ {slots : List (Option Val)}, (∀ (j : Nat) (c : Option Val), slots[j]? = some c → c.isSome = true) →
    ∃ vs, allInit slots = some vs ∧ slots = vs.map some
  | [], _ => ⟨[], rfl, rfl⟩
  | none :: r, h => absurd (h 0 none rfl) (by simp)
  | some v :: r, h => by
    obtain ⟨vs, h1, h2⟩ := allInit_some (slots := r) fun j c hj => h (j + 1) c (by simpa using hj)
    exact ⟨v :: vs, by simp [allInit, h1], by simp [h2]⟩

theorem takeFields_spec : ∀ (fs : List (Option Val)),
    (takeFields fs).2.length = fs.length ∧ (∀ (j : Nat) (c : Option Val), (takeFields fs).2[j]? = some c → c = none ∨ fs[j]? = some c) ∧
    ∀ vs, (takeFields fs).1 = some vs → fs = vs.map some
  | [] => by simp [takeFields]
  | none :: r => by
    refine ⟨by simp [takeFields], ?_, by simp [takeFields]⟩
    intro j c hj
    exact .inr (by simpa [takeFields] using hj)
  | some v :: r => by
    obtain ⟨h1, h2, h3⟩ := takeFields_spec r
    refine ⟨by simp [takeFields, h1], ?_, ?_⟩
    · intro j c hj
      cases j with
      | zero => simp [takeFields] at hj; exact .inl hj.symm
      | succ j => simp [takeFields] at hj; simpa using h2 j c hj
    · intro vs hvs
      simp only [takeFields, Option.map_eq_some_iff] at hvs
      obtain ⟨us, h, rfl⟩ := hvs
      simp [h3 us h]

/-- `finish`. -/
theorem core_finish (hE : E.Lawful) {T : Ty} {isMap : Bool} {core : Core} (h : CoreOk E T isMap core) :
    ∃ r core', core.finish E = some (r, core') ∧ CoreOk E T isMap core' ∧ r ≠ .panic ∧ ∀ v, r = .ok v → HasTy E T v := by
  cases h with
  | @vec _ t done el hT hd he =>
    refine ⟨_, _, rfl, .vec hT (by simp) (Content.none _), by simp, ?_⟩
    intro v hv; cases hv
    rcases hT with rfl | ⟨hT, rfl⟩
    · exact .vec (shiftVec_typed hd he)
    · exact .array hT (shiftVec_typed hd he)
  | @arr t n slots len el hl hlen hs he =>
    obtain ⟨r, slots', len', e, hr, h1, h2, h3⟩ := shiftArr_typed hl hlen hs he
    simp only [Core.finish, e]
    cases r with
    | err => exact ⟨_, _, rfl, .arr h1 h2 h3 (Content.none _), by simp, fun v e => nomatch e⟩
    | panic => exact absurd rfl hr
    | ok u =>
      simp only
      split
      · exact ⟨_, _, rfl, .arr h1 h2 h3 (Content.none _), by simp, fun v e => nomatch e⟩
      · have : len' = n := by omega
        subst this
        obtain ⟨vs, hvs, hm⟩ := allInit_some (slots := slots') fun j c hj =>
          (h3 j c hj).2.2 (by have := (List.getElem?_eq_some_iff.1 hj).1; omega)
        rw [hvs]
        refine ⟨_, _, rfl, .arr (by simp) (Nat.zero_le _) ?_ (Content.none _), by simp, ?_⟩
        · intro j c hj
          rw [List.getElem?_replicate] at hj
          split at hj <;> cases hj
          exact ⟨Content.none _, by simp⟩
        · intro v hv; cases hv
          refine .arr (by simpa [hm] using h1) ?_
          intro v hv
          obtain ⟨j, hj, e⟩ := List.getElem_of_mem hv
          exact (h3 j (some v) (by rw [hm]; simp [hj, e])).1 v rfl
  | @tup a b x y hx hy =>
    rcases x with _ | x <;> rcases y with _ | y
    · exact ⟨_, _, rfl, .tup (Content.none _) (Content.none _), by simp, fun v e => nomatch e⟩
    · exact ⟨_, _, rfl, .tup (Content.none _) (Content.none _), by simp, fun v e => nomatch e⟩
    · exact ⟨_, _, rfl, .tup (Content.none _) (Content.none _), by simp, fun v e => nomatch e⟩
    · exact ⟨_, _, rfl, .tup (Content.none _) (Content.none _), by simp, fun v e => by cases e; exact .tup (hx _ rfl) (hy _ rfl)⟩
  | @map _ kind t m key val hkd hm hkey hv =>
    exact ⟨_, _, rfl, .map hkd (kind_empty hkd) (fun _ h => nomatch h) (Content.none _), by simp,
      fun v e => by cases e; exact shiftMap_typed hE hkd hm hkey hv⟩
  | @strct i fs hl h =>
    obtain ⟨h1, h2, h3⟩ := takeFields_spec fs
    have h4 : CoreOk E (.strct i) true (.strct i (takeFields fs).2) := by
      refine .strct (by rw [h1, hl]) ?_
      intro j f c hf hc
      rcases h2 j c hc with rfl | hc
      · exact Content.none _
      · exact h j f c hf hc
    simp only [Core.finish]
    cases hv : takeFields fs with
    | mk o fs' =>
      rw [hv] at h4 h3
      cases o with
      | none => exact ⟨_, _, rfl, h4, by simp, fun v e => nomatch e⟩
      | some vs =>
        refine ⟨_, _, rfl, h4, by simp, ?_⟩
        intro v e; cases e
        have := h3 vs rfl
        refine .strct (by rw [← hl, this]; simp) ?_
        intro j f v hf hv
        exact h j f (some v) hf (by rw [this]; simp [hv]) v rfl

theorem core_get {T : Ty} {isMap : Bool} {core : Core} (h : CoreOk E T isMap core) {f : Nat} {t : Ty} (hf : core.fieldTy E f = some t) :
    ∃ c, core.get f = some c ∧ Content E t c := by
  cases h with
  | vec hT hd he => cases f <;> cases hf; exact ⟨_, rfl, he⟩
  | arr hl hlen hs he => cases f <;> cases hf; exact ⟨_, rfl, he⟩
  | tup hx hy =>
    match f, hf with
    | 0, hf => cases hf; exact ⟨_, rfl, hx⟩
    | 1, hf => cases hf; exact ⟨_, rfl, hy⟩
  | map hk hm hkey hv => cases f <;> cases hf; exact ⟨_, rfl, hv⟩
  | @strct i fs hl h =>
    simp only [Core.fieldTy, Option.map_eq_some_iff] at hf
    obtain ⟨x, hx, rfl⟩ := hf
    have hlt : f < fs.length := by rw [hl]; exact (List.getElem?_eq_some_iff.1 hx).1
    refine ⟨fs[f], by simp [Core.get, List.getElem?_eq_getElem hlt], h f x _ hx (List.getElem?_eq_getElem hlt)⟩

theorem core_put {T : Ty} {isMap : Bool} {core : Core} (h : CoreOk E T isMap core) {f : Nat} {t : Ty} (hf : core.fieldTy E f = some t)
    {c : Option Val} (hc : Content E t c) : CoreOk E T isMap (core.put f c) ∧ (core.put f c).fieldTy E = core.fieldTy E := by
  have rr : ∀ c0 c1 : Core, (∀ f, c0.fieldTy E f = c1.fieldTy E f) → c0.fieldTy E = c1.fieldTy E := fun c0 c1 h => funext h
  cases h with
  | vec hT hd he => cases f <;> cases hf; exact ⟨.vec hT hd hc, rr _ _ fun f => by cases f <;> rfl⟩
  | arr hl hlen hs he => cases f <;> cases hf; exact ⟨.arr hl hlen hs hc, rr _ _ fun f => by cases f <;> rfl⟩
  | tup hx hy =>
    match f, hf with
    | 0, hf => cases hf; exact ⟨.tup hc hy, rr _ _ fun f => by match f with | 0 => rfl | 1 => rfl | _ + 2 => rfl⟩
    | 1, hf => cases hf; exact ⟨.tup hx hc, rr _ _ fun f => by match f with | 0 => rfl | 1 => rfl | _ + 2 => rfl⟩
  | map hk hm hkey hv => cases f <;> cases hf; exact ⟨.map hk hm hkey hc, rr _ _ fun f => by cases f <;> rfl⟩
  | @strct i fs hl h =>
    simp only [Core.fieldTy, Option.map_eq_some_iff] at hf
    obtain ⟨x, hx, rfl⟩ := hf
    refine ⟨.strct (by simp [hl]) ?_, rr _ _ fun f => rfl⟩
    intro j g d hg hd
    rw [List.getElem?_set] at hd
    split at hd
    · rename_i e; subst e
      split at hd <;> cases hd
      rw [hx] at hg; cases hg; exact hc
    · exact h j g d hg hd

theorem core_dropOk {T : Ty} {isMap : Bool} {core : Core} (h : CoreOk E T isMap core) : core.dropOk = true := by
  cases h with
  | @arr t n slots len el hl hlen hs he =>
    simp only [Core.dropOk, Bool.and_eq_true, List.all_eq_true]
    constructor
    · intro c hc
      obtain ⟨j, hj, e⟩ := List.getElem_of_mem hc
      simp only [List.length_take] at hj
      rw [List.getElem_take] at e
      exact (hs j c (by rw [← e]; exact List.getElem?_eq_getElem (by omega))).2.2 (by omega)
    · intro c hc
      obtain ⟨j, hj, e⟩ := List.getElem_of_mem hc
      simp only [List.length_drop] at hj
      rw [List.getElem_drop] at e
      have := (hs (len + j) c (by rw [← e]; exact List.getElem?_eq_getElem (by omega))).2
      cases c with
      | none => rfl
      | some v => simp at this
  | _ => rfl

theorem field_small (hE : E.Lawful) {T : Ty} {isMap : Bool} {core : Core} (h : CoreOk E T isMap core) (hT : T.Small) {f : Nat} {t : Ty}
    (hf : core.fieldTy E f = some t) : t.Small := by
  cases h with
  | vec hT' hd he =>
    cases f <;> cases hf
    rcases hT' with rfl | ⟨-, rfl⟩
    · exact hT
    · trivial
  | arr hl hlen hs he => cases f <;> cases hf; exact hT
  | tup hx hy =>
    match f, hf with
    | 0, hf => cases hf; exact hT.1
    | 1, hf => cases hf; exact hT.2
  | map hk hm hkey hv =>
    cases f <;> cases hf
    cases hk with
    | hash => exact hT
    | btree => exact hT
    | object => trivial
    | value => trivial
  | @strct i fs hl h =>
    simp only [Core.fieldTy, Option.map_eq_some_iff] at hf
    obtain ⟨x, hx, rfl⟩ := hf
    exact hE.small i x (List.mem_of_getElem? hx)

/-! ## Leaf calls -/

theorem asInt_range (signed : Bool) (bits : Nat) (z : Int) : lowest signed bits ≤ asInt signed bits z ∧ asInt signed bits z ≤ highest signed bits := by
  cases signed
  · simp only [lowest, highest, asInt, Bool.false_eq_true, if_false]
    have : (0 : Int) < 2 ^ bits := by positivity
    have h1 := Int.emod_nonneg z (ne_of_gt this)
    have h2 := Int.emod_lt_of_pos z this
    omega
  · simp only [lowest, highest, asInt, if_true]
    have : (0 : Int) < 2 ^ (bits - 1) := by positivity
    have h1 := Int.emod_nonneg (z + 2 ^ (bits - 1)) (show (2 * 2 ^ (bits - 1) : Int) ≠ 0 by omega)
    have h2 := Int.emod_lt_of_pos (z + 2 ^ (bits - 1)) (show (0 : Int) < 2 * 2 ^ (bits - 1) by omega)
    omega

theorem scalar_typed {t : Ty} (ht : t.Small) {ev : Event} (he : ev.Legal) {v : Val} (h : scalarLeaf E t ev = some v) : HasTy E t v := by
  cases t <;> cases ev <;> simp only [scalarLeaf, intLeaf, reduceCtorEq, Option.some.injEq] at h <;> try (subst h)
  case int.negative s b z =>
    split at h <;> cases h
    exact .int ht (asInt_range _ _ _)
  case int.nonnegative s b z =>
    split at h <;> cases h
    exact .int ht (asInt_range _ _ _)
  case enm.str i s =>
    simp only [Option.map_eq_some_iff] at h
    obtain ⟨j, h1, rfl⟩ := h
    exact .enm (List.findIdx?_eq_some_iff_getElem.1 h1).1
  case f32.float x =>
    refine .f32 ?_
    cases x with
    | nan => trivial
    | inf s => trivial
    | fin s m e => exact (cast_outcome binary32_ok _ _ _).valid
  case unit.null => exact .unit
  case bool.bool b => exact .bool b
  case string.str s => exact .string he
  case f32.negative n => exact .f32 (ofInt_outcome binary32_ok n).valid
  case f32.nonnegative n => exact .f32 (ofNat_outcome binary32_ok n).valid
  case f64.negative n => exact .f64 (ofInt_outcome binary64_ok n).valid
  case f64.nonnegative n => exact .f64 (ofNat_outcome binary64_ok n).valid
  case f64.float x => exact .f64 he
  case number.negative n => exact .numI (.inl rfl) he
  case number.nonnegative n => exact .numU (.inl rfl) he
  case number.float n => exact .numF (.inl rfl) he
  case value.null => exact .vNull
  case value.bool b => exact .vBool b
  case value.str s => exact .vStr he
  case value.negative n => exact .numI (.inr rfl) he
  case value.nonnegative n => exact .numU (.inr rfl) he
  case value.float n => exact .numF (.inr rfl) he

theorem someOpt_typed {t : Ty} {c : Option Val} (h : Content E t c) : Content E (.opt t) (someOpt c) := by
  cases c with
  | none => exact Content.some (.none t)
  | some v => exact Content.some (.some (h v rfl))

theorem leafOn_base {t : Ty} (hb : t.isBase = true) (ev : Event) (c : Option Val) :
    leafOn E t ev c = match scalarLeaf E t ev with | some v => (.ok (), some v) | none => (.err, c) := by
  cases t <;> first | rfl | cases hb

theorem leafOn_typed {ev : Event} (he : ev.Legal) : ∀ (t : Ty) (_ : t.Small) (c : Option Val) (_ : Content E t c),
    Content E t (leafOn E t ev c).2 ∧ (leafOn E t ev c).1 ≠ .panic ∧ ((leafOn E t ev c).1 = .ok () → (leafOn E t ev c).2.isSome = true) := by
  have base : ∀ (t : Ty), t.isBase = true → t.Small → ∀ (c : Option Val), Content E t c →
      Content E t (leafOn E t ev c).2 ∧ (leafOn E t ev c).1 ≠ .panic ∧ ((leafOn E t ev c).1 = .ok () → (leafOn E t ev c).2.isSome = true) := by
    intro t hb ht c hc
    rw [leafOn_base hb]
    cases hs : scalarLeaf E t ev with
    | none => exact ⟨hc, by simp, by simp⟩
    | some v => exact ⟨Content.some (scalar_typed ht he hs), by simp, by simp⟩
  intro t
  induction t with
  | opt t ih =>
    intro ht c hc
    obtain ⟨h1, h2, h3⟩ := ih ht none (Content.none _)
    by_cases hn : ev = .null
    · subst hn
      exact ⟨Content.some (.none t), by simp [leafOn], by simp [leafOn]⟩
    · have : leafOn E (.opt t) ev c = ((leafOn E t ev none).1, someOpt (leafOn E t ev none).2) := by
        cases ev <;> first | rfl | exact absurd rfl hn
      rw [this]
      refine ⟨someOpt_typed h1, h2, fun _ => ?_⟩
      cases (leafOn E t ev none).2 <;> rfl
  | box t ih =>
    intro ht c hc
    obtain ⟨h1, h2, h3⟩ := ih ht none (Content.none _)
    rw [leafOn]
    cases hl : leafOn E t ev none with
    | mk r c' =>
      rw [hl] at h1 h2 h3
      cases r with
      | err => exact ⟨hc, by simp, by simp⟩
      | panic => exact absurd rfl h2
      | ok u =>
        have := h3 rfl
        cases c' with
        | none => simp at this
        | some v => exact ⟨Content.some (.box (h1 v rfl)), by simp, by simp⟩
  | _ => exact base _ rfl

end Miniserde
