import Verif.Proof.Like

/-!
# C78: a hand-written type can stand in for a library type everywhere
-/

namespace Miniserde
variable {σ α β : Type} {E : Env}

/-- **C78.** If hand-written implementations read like library types, the library's containers of them read like the containers of those library types. -/
theorem C78_containers {t u : Ty} {f : α → Val} {g : β → Val} {I : Deser σ α} {J : Deser σ β} (hI : I.Like E t f) (hJ : J.Like E u g) (n k : Nat) :
    I.vec.Like E (.vec t) (fun xs => .seq (xs.map f)) ∧
    (I.arr n).Like E (.arr t n) (fun xs => .seq (xs.map f)) ∧
    (I.pair J).Like E (.tup t u) (fun p => .seq [f p.1, g p.2]) ∧
    I.opt.Like E (.opt t) (fun o => match o with | some a => .optSome (f a) | none => .optNone) ∧
    I.box.Like E (.box t) (fun a => .box (f a)) ∧
    (I.map ⟨E.keyParse k, [], hashInsert⟩).Like E (.hmap k t) (fun m => .map (m.map fun e => (e.1, f e.2))) ∧
    (I.map ⟨E.keyParse k, [], btreeInsert (E.keyLt k)⟩).Like E (.bmap k t) (fun m => .map (m.map fun e => (e.1, f e.2))) := by
  refine ⟨vec_like hI, arr_like n hI, pair_like hI hJ, ?_, box_like hI, hmap_like k hI, bmap_like k hI⟩
  have := opt_like hI
  have e : optVal f = fun o => match o with | some a => .optSome (f a) | none => .optNone := by funext o; cases o <;> rfl
  rwa [e] at this

/-- **C78.** The same for derived structs: `E.fields k` declares the fields `names i : ts i`, the struct with the hand-written types has the same names. -/
theorem C78_struct {n : Nat} {τ : Fin n → Type} {ts : Fin n → Ty} {f : (i : Fin n) → τ i → Val} (names : Fin n → Bytes) (I : (i : Fin n) → Deser σ (τ i))
    (hI : ∀ i, (I i).Like E (ts i) (f i)) (k : Nat) (hk : E.fields k = List.ofFn fun i => (names i, ts i)) :
    (Deser.struct names I).Like E (.strct k) (fun v => .strct (List.ofFn fun i => f i (v i))) :=
  struct_like hI k hk

/-- **C78.** And for implementations that share a bigger state with others. -/
theorem C78_inside {ρ : Type} {t : Ty} {f : α → Val} {I : Deser σ α} (p : Part ρ σ) (hI : I.Like E t f) : (I.inside p).Like E t f := inside_like p hI

/-! ## A hand-written type -/

/-- A hand-written `Deserialize` for a type that is read from scalars: `get` says what is made of a scalar. -/
def Deser.scalar (get : Event → Option α) : Deser Unit α where
  P := {
    V := Unit
    Q := Empty
    M := Empty
    null _ w := match get .null with | some a => (.ok (), ((), some a)) | none => (.err, w)
    boolean _ b w := match get (.bool b) with | some a => (.ok (), ((), some a)) | none => (.err, w)
    string _ s w := match get (.str s) with | some a => (.ok (), ((), some a)) | none => (.err, w)
    negative _ n w := match get (.negative n) with | some a => (.ok (), ((), some a)) | none => (.err, w)
    nonnegative _ n w := match get (.nonnegative n) with | some a => (.ok (), ((), some a)) | none => (.err, w)
    float _ x w := match get (.float x) with | some a => (.ok (), ((), some a)) | none => (.err, w)
    seq _ w := (.err, w)
    map _ w := (.err, w)
    element q _ := q.elim
    seqFinish q _ := q.elim
    key m _ _ := m.elim
    mapFinish m _ := m.elim
    dropSeq q _ := q.elim
    dropMap m _ := m.elim
  }
  begin := ()
  default := none

/-- The event of a scalar; `none` for arrays and objects and for numbers that are not delivered. -/
def Json.leafEvent : Json → Res Event
  | .null => .ok .null
  | .bool b => .ok (.bool b)
  | .str s => .ok (.str s)
  | .num l => numEvent l
  | _ => .err

theorem scalar_drive (get : Event → Option α) (j : Json) (w : Unit × Option α) :
    drive (Deser.scalar get).P () j w = match j.leafEvent with
      | .ok ev => (match get ev with | some a => (.ok (), ((), some a)) | none => (.err, w))
      | .err => (.err, w)
      | .panic => (.panic, w) := by
  cases j with
  | num l =>
    simp only [drive, Json.leafEvent]
    unfold driveNum
    rcases hv : numEvent l with ev | _ | _
    · rcases numEvent_range hv with ⟨n, rfl, -⟩ | ⟨z, rfl, -⟩ | ⟨m, e, rfl, -⟩ <;> rfl
    · rfl
    · rfl
  | _ => rfl

theorem scalar_run (get : Event → Option α) {s : Bytes} {j : Json} (h : JText s j) (w : Unit × Option α) :
    fromStrImpl (Deser.scalar get).P s (Deser.scalar get).begin w = some (match j.leafEvent with
      | .ok ev => (match get ev with | some a => (.ok (), ((), some a)) | none => (.err, w))
      | .err => (.err, w)
      | .panic => (.panic, w)) :=
  (fromStrImpl_text h (Deser.scalar get).P (Deser.scalar get).begin w _ (by simp)).trans (congrArg some (scalar_drive get j w))

/-- When such a type reads like the library type `t`: on scalars it makes of the event what `t` does, and `t` takes only scalars. -/
theorem C78_scalar {t : Ty} {f : α → Val} {get : Event → Option α} (ht : t.absent = none)
    (h : ∀ j, (match j.leafEvent with | .ok ev => (get ev).map f | _ => none) = decode E j t) : (Deser.scalar get).Like E t f where
  reads := by
    rintro s j hj hn ⟨⟩
    rw [parseAs_short hj hn, ← h j]
    unfold Deser.fromStr
    rw [scalar_run get hj]
    rcases hv : j.leafEvent with ev | _ | _
    · simp only
      cases get ev with
      | some a => exact ⟨.ok a, (), rfl, rfl⟩
      | none => exact ⟨.err, (), rfl, rfl⟩
    · exact ⟨.err, (), rfl, rfl⟩
    · cases j <;> try cases hv
      rw [Json.ShortNums] at hn
      have := De.numEvent_panic hv
      omega
  absent := ht.symm
  delivers := by
    rintro s ⟨⟩ ⟨⟩ o he
    obtain ⟨j, hj⟩ := fromStrImpl_ok (by simp) he
    have e := (scalar_run get hj ((), none)).symm.trans he
    generalize j.leafEvent = ev at e
    cases ev with
    | ok ev =>
      simp only at e
      cases hg : get ev with
      | some a => rw [hg] at e; cases e; simp
      | none => rw [hg] at e; cases e
    | err => cases e
    | panic => cases e
  overwrites := by
    rintro s ⟨j, hj⟩ ⟨⟩ o
    rw [scalar_run get hj, scalar_run get hj]
    generalize j.leafEvent = ev
    cases ev with
    | ok ev =>
      simp only
      cases get ev with
      | some a => exact ⟨.ok (), (), some a, some a, rfl, rfl, fun _ => rfl⟩
      | none => exact ⟨.err, (), o, none, rfl, rfl, fun h => by cases h⟩
    | err => exact ⟨.err, (), o, none, rfl, rfl, fun h => by cases h⟩
    | panic => exact ⟨.panic, (), o, none, rfl, rfl, fun h => by cases h⟩

/-- A hand-written byte type reads like `u8`. -/
def exByte : Deser Unit Nat := .scalar fun ev => match ev with | .nonnegative n => if n ≤ 255 then some n else none | _ => none

theorem exByte_like : exByte.Like E (.int false 8) (fun n : Nat => .int n) := by
  refine C78_scalar rfl fun j => ?_
  cases j with
  | num l =>
    unfold decode
    simp only [Json.leafEvent, decodeScalar]
    rcases hv : numEvent l with ev | _ | _
    · rcases numEvent_range hv with ⟨n, rfl, -⟩ | ⟨z, rfl, -⟩ | ⟨m, e, rfl, -⟩
      · simp only [decodeNum]
        by_cases h : n ≤ 255
        · rw [if_pos h, if_pos (by omega)]; rfl
        · rw [if_neg h, if_neg (by omega)]; rfl
      · simp [decodeNum]
      · rfl
    · rfl
    · rfl
  | _ => unfold decode; rfl

/-- So `Vec<Option<[MyByte; 3]>>` reads like `Vec<Option<[u8; 3]>>`. -/
example : exByte.vec.Like E (.vec (.int false 8)) (fun xs => .seq (xs.map fun (n : Nat) => .int n)) ∧ ∃ f, ((exByte.arr 3).opt.vec).Like E (.vec (.opt (.arr (.int false 8) 3))) f :=
  ⟨vec_like exByte_like, _, vec_like (opt_like (arr_like 3 exByte_like))⟩

/-- And a struct `{ a: MyByte, b: MyByte }`. -/
example (k : Nat) (hk : E.fields k = [(str! "a", .int false 8), (str! "b", .int false 8)]) :
    (Deser.struct (fun i : Fin 2 => if i = 0 then str! "a" else str! "b") fun _ => exByte).Like E (.strct k) (fun v => .strct [.int (v 0), .int (v 1)]) :=
  C78_struct (ts := fun _ => .int false 8) _ _ (fun _ => exByte_like) k hk

/-- A type that accepts 256 and more does not. -/
example : ¬ (Deser.scalar (fun ev => match ev with | .nonnegative n => some n | _ => none)).Like exEnv (.int false 8) (fun n : Nat => .int n) := by
  intro h
  have hj : JText (str! "256") (.num ⟨false, str! "256", none, none⟩) := ⟨[], _, [], rfl, by simp [Ws], .num ⟨false, str! "256", none, none⟩ ⟨by decide, by decide, by simp, by simp⟩, by simp [Ws]⟩
  obtain ⟨r, w', e1, e2⟩ := h.reads _ _ hj (by rw [Json.ShortNums]; decide) ()
  have e3 : (Deser.scalar (fun ev => match ev with | .nonnegative n => some n | _ => none)).fromStr (str! "256") () = some (.ok 256, ()) := by decide +kernel
  rw [e3] at e1
  cases e1
  rw [parseAs_short hj (by rw [Json.ShortNums]; decide)] at e2
  have e4 : decode exEnv (.num ⟨false, str! "256", none, none⟩) (.int false 8) = none := by
    unfold decode
    rfl
  rw [e4] at e2
  cases e2

end Miniserde
