import Verif.Proof.Refine
import Verif.Proof.Maps
import Verif.Proof.Sound
import Verif.Spec.Decode

/-!
# The pure run decodes the tree
-/

namespace Miniserde
variable (E : Env)

theorem bind_ok_iff {α β : Type} {r : Res α} {f : α → Res β} {v : β} : r.bind f = .ok v ↔ ∃ a, r = .ok a ∧ f a = .ok v :=
  Res.bind_eq_ok'

theorem map_eq_ok {α β : Type} {r : Res α} {f : α → β} {v : β} : r.map f = .ok v ↔ ∃ a, r = .ok a ∧ f a = v := by
  cases r <;> simp [Res.map, Res.bind]

mutual

theorem runIgnore_toPT : ∀ j : Json, runIgnore (toPT j) = .ok () ↔ representable j = true
  | .null => by simp [toPT, runIgnore, representable, Event.isLeaf]
  | .bool b => by simp [toPT, runIgnore, representable, Event.isLeaf]
  | .str s => by simp [toPT, runIgnore, representable, Event.isLeaf]
  | .num l => by
    rw [toPT, representable]
    cases h : numEvent l with
    | ok ev => simp [runIgnore, numEvent_isLeaf h, Res.isOk]
    | err => simp [runIgnore, failure, Res.isOk]
    | panic => simp [runIgnore, failure, Res.isOk]
  | .arr xs => by rw [toPT, runIgnore, representable]; exact runIgnore_toPTs xs
  | .obj ms => by rw [toPT, runIgnore, representable]; exact runIgnore_toPTms ms

theorem runIgnore_toPTs : ∀ xs : List Json, runIgnoreElems (toPTs xs) .closed = .ok () ↔ representables xs = true
  | [] => by simp [toPTs, runIgnoreElems, representables]
  | x :: xs => by
    rw [toPTs, runIgnoreElems, representables, Bool.and_eq_true, ← runIgnore_toPT x, ← runIgnore_toPTs xs, bind_ok_iff]
    constructor
    · rintro ⟨⟨⟩, h1, h2⟩; exact ⟨h1, h2⟩
    · rintro ⟨h1, h2⟩; exact ⟨(), h1, h2⟩

theorem runIgnore_toPTms : ∀ ms : List (Bytes × Json),
    runIgnoreMembers (toPTms ms) .closed = .ok () ↔ representableMembers ms = true
  | [] => by simp [toPTms, runIgnoreMembers, representableMembers]
  | (k, x) :: ms => by
    rw [toPTms, runIgnoreMembers, representableMembers, Bool.and_eq_true, ← runIgnore_toPT x, ← runIgnore_toPTms ms, bind_ok_iff]
    constructor
    · rintro ⟨⟨⟩, h1, h2⟩; exact ⟨h1, h2⟩
    · rintro ⟨h1, h2⟩; exact ⟨(), h1, h2⟩

end

theorem run_box (x : PT) (t : Ty) : run E x (.box t) = (run E x t).map .box := by
  cases x with
  | leaf ev =>
    simp only [run, leafVal]
    cases ev.isLeaf
    · rfl
    · simp only [if_true]; cases leafVal E t ev <;> rfl
  | bad b => simp only [run, failure_map]
  | seq xs e =>
    simp only [run, openCore]
    cases openCore E t false with
    | none => rfl
    | some c => simp only; cases runElems E xs e c <;> rfl
  | map ms e =>
    simp only [run, openCore]
    cases openCore E t true with
    | none => rfl
    | some c => simp only; cases runMembers E ms e c <;> rfl

theorem run_opt {x : PT} (t : Ty) (hx : x ≠ .leaf .null) : run E x (.opt t) = (run E x t).map .optSome := by
  cases x with
  | leaf ev =>
    have : leafVal E (.opt t) ev = (leafVal E t ev).map .optSome := by
      cases ev <;> first | rfl | exact absurd rfl hx
    simp only [run, this]
    cases ev.isLeaf
    · rfl
    · simp only [if_true]; cases leafVal E t ev <;> rfl
  | bad b => simp only [run, failure_map]
  | seq xs e =>
    simp only [run, openCore]
    cases openCore E t false with
    | none => rfl
    | some c => simp only; cases runElems E xs e c <;> rfl
  | map ms e =>
    simp only [run, openCore]
    cases openCore E t true with
    | none => rfl
    | some c => simp only; cases runMembers E ms e c <;> rfl

theorem toPT_null {j : Json} (h : j.isNull = false) : toPT j ≠ .leaf .null := by
  cases j with
  | num l =>
    rw [toPT]
    rcases numEvent_cases l with h | h | ⟨n, h⟩ | ⟨n, h⟩ | ⟨n, h⟩ <;> simp [h]
  | null => cases h
  | _ => simp [toPT]

/-- The hypothesis of the induction. -/
def Sub (x : Json) : Prop := ∀ t v, run E (toPT x) t = .ok v ↔ decode E x t = some v

theorem elems_vec {xs : List Json} (hx : ∀ x ∈ xs, Sub E x) (t : Ty) : ∀ {done : List Val} {el : Option Val} {v : Val},
    runElems E (toPTs xs) .closed (.vec t done el) = .ok v ↔
      ∃ vs, decodeAll E xs t = some vs ∧ v = .seq (shiftVec done el ++ vs) := by
  induction xs with
  | nil =>
    intro done el v
    simp only [toPTs, runElems, finishCore, Core.finish, Res.ok.injEq, decodeAll, Option.some.injEq, exists_eq_left', List.append_nil]
    exact eq_comm
  | cons x xs ih =>
    intro done el v
    simp only [toPTs, runElems, Core.child, Core.put]
    rw [bind_ok_iff]
    simp only [decodeAll, Option.bind_eq_some_iff, Option.map_eq_some_iff]
    constructor
    · rintro ⟨u, h1, h2⟩
      rw [ih (fun y hy => hx y (by simp [hy]))] at h2
      obtain ⟨vs, h3, rfl⟩ := h2
      exact ⟨u :: vs, ⟨u, (hx x (by simp) t u).1 h1, vs, h3, rfl⟩, by simp [shiftVec]⟩
    · rintro ⟨_, ⟨u, h1, vs, h3, rfl⟩, rfl⟩
      refine ⟨u, (hx x (by simp) t u).2 h1, ?_⟩
      rw [ih (fun y hy => hx y (by simp [hy]))]
      exact ⟨vs, h3, by simp [shiftVec]⟩

theorem elems_arr {xs : List Json} (hx : ∀ x ∈ xs, Sub E x) (t : Ty) (n : Nat) : ∀ {cur : List Val} {el : Option Val} {v : Val},
    cur.length ≤ n →
    (runElems E (toPTs xs) .closed (.arr t n (cur.map some ++ List.replicate (n - cur.length) none) cur.length el) = .ok v ↔
      ∃ vs, decodeAll E xs t = some vs ∧ (shiftVec cur el ++ vs).length = n ∧ v = .seq (shiftVec cur el ++ vs)) := by
  -- `shift` on this state
  have shift : ∀ (cur : List Val) (el : Option Val), cur.length ≤ n →
      shiftArr t n (cur.map some ++ List.replicate (n - cur.length) none) cur.length el =
        if (shiftVec cur el).length ≤ n then
          some (.ok (), .arr t n ((shiftVec cur el).map some ++ List.replicate (n - (shiftVec cur el).length) none)
            (shiftVec cur el).length none)
        else some (.err, .arr t n (cur.map some ++ List.replicate (n - cur.length) none) cur.length none) := by
    intro cur el hl
    cases el with
    | none => simp [shiftArr, shiftVec, hl]
    | some e =>
      by_cases hlt : cur.length < n
      · have h1 : (cur.map some ++ List.replicate (n - cur.length) (none : Option Val))[cur.length]? = some none := by
          rw [List.getElem?_append_right (by simp)]
          simp [List.getElem?_replicate]; omega
        have h2 : List.replicate (n - cur.length) (none : Option Val) = none :: List.replicate (n - (cur.length + 1)) none := by
          rw [← List.replicate_succ]; congr 1; omega
        have h3 : (cur.map some ++ List.replicate (n - cur.length) (none : Option Val)).set cur.length (some e) =
            (cur ++ [e]).map some ++ List.replicate (n - (cur.length + 1)) none := by
          rw [h2, List.set_append_right _ _ (by simp)]; simp
        have hsv : shiftVec cur (some e) = cur ++ [e] := rfl
        have hlt' : cur.length + 1 ≤ n := hlt
        rw [hsv]
        simp only [shiftArr, h1, h3]
        simp [hlt']
      · have h1 : (cur.map some ++ List.replicate (n - cur.length) (none : Option Val))[cur.length]? = none := by
          rw [List.getElem?_eq_none_iff]; simp; omega
        have hsv : shiftVec cur (some e) = cur ++ [e] := rfl
        rw [hsv]
        simp only [shiftArr, h1]
        rw [if_neg (by simp; omega)]
  induction xs with
  | nil =>
    intro cur el v hl
    simp only [toPTs, runElems, finishCore, Core.finish, shift cur el hl, decodeAll, Option.some.injEq, exists_eq_left',
      List.append_nil]
    by_cases h : (shiftVec cur el).length ≤ n
    · simp only [h, if_true]
      by_cases h' : (shiftVec cur el).length < n
      · simp only [h', if_true]
        constructor
        · nofun
        · rintro ⟨h1, -⟩; omega
      · have h0 : n - (shiftVec cur el).length = 0 := by omega
        simp only [h', if_false, h0, List.replicate_zero, List.append_nil, allInit_map, Res.ok.injEq]
        constructor
        · rintro rfl; exact ⟨by omega, rfl⟩
        · rintro ⟨-, rfl⟩; rfl
    · simp only [h, if_false]
      constructor
      · nofun
      · rintro ⟨h1, -⟩; omega
  | cons x xs ih =>
    intro cur el v hl
    simp only [toPTs, runElems, Core.child, shift cur el hl]
    simp only [decodeAll, Option.bind_eq_some_iff, Option.map_eq_some_iff]
    by_cases h : (shiftVec cur el).length ≤ n
    · simp only [h, if_true, Core.put]
      rw [bind_ok_iff]
      constructor
      · rintro ⟨u, h1, h2⟩
        rw [ih (fun y hy => hx y (by simp [hy])) h] at h2
        obtain ⟨vs, h3, h4, rfl⟩ := h2
        exact ⟨u :: vs, ⟨u, (hx x (by simp) t u).1 h1, vs, h3, rfl⟩, by simpa [shiftVec] using h4, by simp [shiftVec]⟩
      · rintro ⟨_, ⟨u, h1, vs, h3, rfl⟩, h4, rfl⟩
        refine ⟨u, (hx x (by simp) t u).2 h1, ?_⟩
        rw [ih (fun y hy => hx y (by simp [hy])) h]
        exact ⟨vs, h3, by simpa [shiftVec] using h4, by simp [shiftVec]⟩
    · simp only [h, if_false]
      constructor
      · nofun
      · rintro ⟨vs, -, h4, -⟩; simp at h4; omega

theorem elems_tup {xs : List Json} (hx : ∀ x ∈ xs, Sub E x) (a b : Ty) {v : Val} :
    runElems E (toPTs xs) .closed (.tup a b none none) = .ok v ↔
      ∃ x y vx vy, xs = [x, y] ∧ decode E x a = some vx ∧ decode E y b = some vy ∧ v = .seq [vx, vy] := by
  match xs, hx with
  | [], _ => simp [toPTs, runElems, finishCore, Core.finish]
  | [x], hx => simp [toPTs, runElems, finishCore, Core.finish, Core.child, Core.put, bind_ok_iff]
  | [x, y], hx =>
    have h1 := hx x (by simp) a
    have h2 := hx y (by simp) b
    simp only [toPTs, runElems, finishCore, Core.finish, Core.child, Core.put, bind_ok_iff, List.cons.injEq, and_true]
    constructor
    · rintro ⟨vx, e1, vy, e2, e3⟩
      cases e3
      exact ⟨x, y, vx, vy, ⟨rfl, rfl⟩, (h1 _).1 e1, (h2 _).1 e2, rfl⟩
    · rintro ⟨_, _, vx, vy, ⟨rfl, rfl⟩, e1, e2, rfl⟩
      exact ⟨vx, (h1 _).2 e1, vy, (h2 _).2 e2, rfl⟩
  | x :: y :: z :: xs, hx => simp [toPTs, runElems, Core.child, Core.put, bind_ok_iff]

theorem members_map {ms : List (Bytes × Json)} (hx : ∀ m ∈ ms, Sub E m.2) (kind : MapKind) (t : Ty) :
    ∀ {m : List (Bytes × Val)} {key : Option Bytes} {val : Option Val} {v : Val},
    runMembers E (toPTms ms) .closed (.map kind t m key val) = .ok v ↔
      ∃ kvs, decodeEntries E (kind.parse E) t ms = some kvs ∧
        v = .map (kvs.foldl (fun m kv => kind.insert E kv.1 kv.2 m) (shiftMap E kind m key val)) := by
  induction ms with
  | nil =>
    intro m key val v
    simp only [toPTms, runMembers, finishCore, Core.finish, Res.ok.injEq, decodeEntries, Option.some.injEq, exists_eq_left',
      List.foldl_nil]
    exact eq_comm
  | cons kx ms ih =>
    obtain ⟨k, x⟩ := kx
    intro m key val v
    simp only [toPTms, runMembers, Core.child]
    simp only [decodeEntries, Option.bind_eq_some_iff, Option.map_eq_some_iff]
    cases hk : kind.parse E k with
    | none => simp
    | some k' =>
      simp only [Core.put, Option.some.injEq, exists_eq_left']
      rw [bind_ok_iff]
      constructor
      · rintro ⟨u, h1, h2⟩
        rw [ih (fun y hy => hx y (by simp [hy]))] at h2
        obtain ⟨kvs, h3, rfl⟩ := h2
        exact ⟨(k', u) :: kvs, ⟨u, (hx (k, x) (by simp) t u).1 h1, kvs, h3, rfl⟩, by simp [shiftMap]⟩
      · rintro ⟨_, ⟨u, h1, kvs, h3, rfl⟩, rfl⟩
        refine ⟨u, (hx (k, x) (by simp) t u).2 h1, ?_⟩
        rw [ih (fun y hy => hx y (by simp [hy]))]
        exact ⟨kvs, h3, by simp [shiftMap]⟩

theorem members_strct {ms : List (Bytes × Json)} (hx : ∀ m ∈ ms, Sub E m.2) (i : Nat) :
    ∀ {fs : List (Option Val)} {v : Val},
    runMembers E (toPTms ms) .closed (.strct i fs) = .ok v ↔
      ∃ ivs, decodeFields E (E.fields i) ms = some ivs ∧
        ∃ vs, (takeFields (ivs.foldl (fun fs iv => fs.set iv.1 (some iv.2)) fs)).1 = some vs ∧ v = .strct vs := by
  induction ms with
  | nil =>
    intro fs v
    simp only [toPTms, runMembers, finishCore, Core.finish, decodeFields, Option.some.injEq, exists_eq_left', List.foldl_nil]
    rcases takeFields fs with ⟨_ | vs, fs'⟩
    · simp
    · simp [eq_comm]
  | cons kx ms ih =>
    obtain ⟨k, x⟩ := kx
    intro fs v
    simp only [toPTms, runMembers, Core.child, decodeFields, fieldIdx]
    cases hk : (E.fields i).findIdx? (fun f => f.1 == k) with
    | none =>
      simp only
      rw [bind_ok_iff]
      by_cases hr : representable x = true
      · simp only [hr, if_true]
        rw [← ih (fun y hy => hx y (by simp [hy]))]
        rw [← runIgnore_toPT] at hr
        constructor
        · rintro ⟨u, -, h⟩; exact h
        · intro h; exact ⟨(), hr, h⟩
      · simp only [hr]
        rw [← runIgnore_toPT] at hr
        constructor
        · rintro ⟨u, h, -⟩; exact absurd h hr
        · rintro ⟨_, h, -⟩; simp at h
    | some j =>
      have hj : j < (E.fields i).length := by
        rw [List.findIdx?_eq_some_iff_findIdx_eq] at hk; exact hk.1
      simp only [List.getElem?_eq_getElem hj, Core.put]
      rw [bind_ok_iff]
      simp only [Option.bind_eq_some_iff, Option.map_eq_some_iff]
      constructor
      · rintro ⟨u, h1, h2⟩
        rw [ih (fun y hy => hx y (by simp [hy]))] at h2
        obtain ⟨ivs, h3, h4⟩ := h2
        exact ⟨(j, u) :: ivs, ⟨u, (hx (k, x) (by simp) _ u).1 h1, ivs, h3, rfl⟩, h4⟩
      · rintro ⟨_, ⟨u, h1, ivs, h3, rfl⟩, h4⟩
        refine ⟨u, (hx (k, x) (by simp) _ u).2 h1, ?_⟩
        rw [ih (fun y hy => hx y (by simp [hy]))]
        exact ⟨ivs, h3, h4⟩

/-! ## Struct fields -/

/-- The fields of the builder when the members `ivs` are read. -/
def fieldSlots (ivs : List (Nat × Val)) (i : Nat) (fs : List (Bytes × Ty)) : List (Option Val) :=
  (fs.zipIdx i).map fun f => fieldValue ivs f.2 f.1.2

theorem fieldSlots_getElem? (ivs : List (Nat × Val)) (fs : List (Bytes × Ty)) (n : Nat) :
    (fieldSlots ivs 0 fs)[n]? = fs[n]?.map fun f => fieldValue ivs n f.2 := by
  simp only [fieldSlots, List.getElem?_map, List.getElem?_zipIdx, Option.map_map]
  congr 1
  funext f
  simp

theorem takeFields_slots (ivs : List (Nat × Val)) (fs : List (Bytes × Ty)) : ∀ i,
    (takeFields (fieldSlots ivs i fs)).1 = fieldValues ivs i fs := by
  induction fs with
  | nil => intro i; rfl
  | cons f fs ih =>
    intro i
    have h : fieldSlots ivs i (f :: fs) = fieldValue ivs i f.2 :: fieldSlots ivs (i + 1) fs := by
      simp [fieldSlots, List.zipIdx_cons]
    rw [h, fieldValues, ← ih]
    cases fieldValue ivs i f.2 <;> rfl

theorem snoc_induction {α : Type} {p : List α → Prop} (nil : p []) (snoc : ∀ l a, p l → p (l ++ [a])) (l : List α) : p l := by
  have : ∀ l : List α, p l.reverse := by
    intro l
    induction l with
    | nil => exact nil
    | cons a l ih => rw [List.reverse_cons]; exact snoc _ _ ih
  rw [← List.reverse_reverse l]; exact this _

theorem foldl_slots (fs : List (Bytes × Ty)) (ivs : List (Nat × Val)) :
    ivs.foldl (fun fs iv => fs.set iv.1 (some iv.2)) (fs.map fun f => f.2.default) = fieldSlots ivs 0 fs := by
  induction ivs using snoc_induction with
  | nil =>
    apply List.ext_getElem?
    intro n
    rw [fieldSlots_getElem?, List.foldl_nil, List.getElem?_map]
    congr 1
  | snoc ivs iv ih =>
    rw [List.foldl_append, ih]
    apply List.ext_getElem?
    intro n
    simp only [List.foldl_cons, List.foldl_nil]
    have hl : (fieldSlots ivs 0 fs).length = fs.length := by simp [fieldSlots]
    rw [List.getElem?_set, fieldSlots_getElem?, fieldSlots_getElem?, hl]
    by_cases hn : iv.1 = n
    · subst hn
      by_cases hlt : iv.1 < fs.length
      · have hlk : ((ivs ++ [iv]).reverse).lookup iv.1 = some iv.2 := by simp [List.lookup]
        rw [if_pos rfl, if_pos hlt, List.getElem?_eq_getElem hlt]
        simp only [fieldValue, hlk, Option.map_some]
      · rw [if_pos rfl, if_neg hlt, List.getElem?_eq_none (by omega)]; rfl
    · rw [if_neg hn]
      congr 1
      funext f
      have : ((ivs ++ [iv]).reverse).lookup n = ivs.reverse.lookup n := by
        rw [List.reverse_append]
        simp only [List.reverse_cons, List.reverse_nil, List.nil_append, List.singleton_append, List.lookup]
        have : (n == iv.1) = false := by simpa using fun h => hn h.symm
        rw [this]
      simp only [fieldValue, this]

/-! ## The theorem -/

/-- The cast after the bounds check changes nothing. -/
theorem asInt_signed {bits : Nat} {z : Int} (h1 : -2 ^ (bits - 1) ≤ z) (h2 : z ≤ 2 ^ (bits - 1) - 1) : asInt true bits z = z := by
  unfold asInt
  rw [if_pos rfl, Int.emod_eq_of_lt (by omega) (by omega)]
  omega

theorem asInt_unsigned {bits : Nat} {z : Int} (h1 : 0 ≤ z) (h2 : z ≤ 2 ^ bits - 1) : asInt false bits z = z := by
  unfold asInt
  rw [if_neg (by decide), Int.emod_eq_of_lt h1 (by omega)]

theorem numEvent_neg {l : NumLit} {n : Int} (h : numEvent l = .ok (.negative n)) : n ≤ 0 := by
  unfold numEvent at h
  simp only at h
  split at h
  · split at h
    · split at h
      · cases h; omega
      · cases h
    · cases h
  · cases hi : i32 ((accum u64Max 0 l.int).2 : Int) with
    | ok e =>
      rw [hi] at h; simp only [Res.bind_ok'] at h
      cases hf : fracValue (!l.minus) (accum u64Max 0 l.int).1 e l.exp l.frac <;> rw [hf] at h <;> cases h
    | err => rw [hi] at h; cases h
    | panic => rw [hi] at h; cases h

theorem scalarLeaf_num {ev : Event} (t : Ty) (h : (∃ n, ev = .negative n ∧ n ≤ 0) ∨ (∃ n, ev = .nonnegative n) ∨ (∃ x, ev = .float x)) :
    scalarLeaf E t ev = decodeNum ev t := by
  rcases h with ⟨n, rfl, hn⟩ | ⟨n, rfl⟩ | ⟨n, rfl⟩ <;> cases t with
  | int s b =>
    have hpos : (0 : Int) < 2 ^ (b - 1) := Int.pow_pos (by decide)
    cases s <;> simp only [scalarLeaf, decodeNum, intLeaf, intMin, intMax, if_true, true_and, reduceCtorEq, false_and, if_false]
    all_goals try (split <;> first | rfl | (rename_i h; first | rw [asInt_signed (by omega) (by omega)] | rw [asInt_unsigned (by omega) h]))
    try rfl
  | _ => rfl

theorem decode_base {t : Ty} (h : t.isBase = true) {j : Json} (hj : ∀ xs, j ≠ .arr xs) (hj' : ∀ ms, j ≠ .obj ms) :
    decode E j t = decodeScalar E j t := by
  unfold decode
  cases t <;> first | cases h | skip
  all_goals
    cases j with
    | arr xs => exact absurd rfl (hj xs)
    | obj ms => exact absurd rfl (hj' ms)
    | _ => rfl

theorem leaf_scalar {t : Ty} (h : t.isBase = true) {j : Json} (hj : ∀ xs, j ≠ .arr xs) (hj' : ∀ ms, j ≠ .obj ms) (v : Val) :
    run E (toPT j) t = .ok v ↔ decodeScalar E j t = some v := by
  have hl : ∀ ev, leafVal E t ev = scalarLeaf E t ev := by intro ev; cases t <;> first | rfl | cases h
  have fin : ∀ ev : Event, ev.isLeaf = true → (run E (.leaf ev) t = .ok v ↔ scalarLeaf E t ev = some v) := by
    intro ev he
    rw [run, hl, if_pos he]
    cases scalarLeaf E t ev <;> simp
  cases j with
  | arr xs => exact absurd rfl (hj xs)
  | obj ms => exact absurd rfl (hj' ms)
  | num l =>
    rw [toPT, decodeScalar]
    rcases numEvent_cases l with h | h | ⟨n, h⟩ | ⟨n, h⟩ | ⟨n, h⟩ <;> simp only [h]
    · simp [run, failure]
    · simp [run, failure]
    · rw [fin _ rfl, scalarLeaf_num E t (.inl ⟨_, rfl, numEvent_neg h⟩)]
    · rw [fin _ rfl, scalarLeaf_num E t (.inr (.inl ⟨_, rfl⟩))]
    · rw [fin _ rfl, scalarLeaf_num E t (.inr (.inr ⟨_, rfl⟩))]
  | null =>
    rw [toPT, fin _ rfl]
    cases t with
    | int s b => simp [scalarLeaf, intLeaf, decodeScalar]
    | _ => exact Iff.rfl
  | bool b =>
    rw [toPT, fin _ rfl]
    cases t with
    | int s b => simp [scalarLeaf, intLeaf, decodeScalar]
    | _ => exact Iff.rfl
  | str s =>
    rw [toPT, fin _ rfl]
    cases t with
    | int s b => simp [scalarLeaf, intLeaf, decodeScalar]
    | _ => exact Iff.rfl

theorem run_seq_base {t : Ty} (h : t.isBase = true) (xs : List PT) (v : Val) :
    run E (.seq xs .closed) t = .ok v ↔ ∃ c, t.core E false = some c ∧ runElems E xs .closed c = .ok v := by
  rw [run, openCore_base E h]
  cases t.core E false with
  | none => simp
  | some c => simp [map_eq_ok, wrap_base h]

theorem run_map_base {t : Ty} (h : t.isBase = true) (ms : List (Bytes × PT)) (v : Val) :
    run E (.map ms .closed) t = .ok v ↔ ∃ c, t.core E true = some c ∧ runMembers E ms .closed c = .ok v := by
  rw [run, openCore_base E h]
  cases t.core E true with
  | none => simp
  | some c => simp [map_eq_ok, wrap_base h]

/-- Decoding a list of trees keeps its length. -/
theorem decodeAll_length {E : Env} {xs : List Json} {t : Ty} {vs : List Val}
    (h : decodeAll E xs t = some vs) : vs.length = xs.length := by
  induction xs generalizing vs with
  | nil => simp [decodeAll] at h; subst h; rfl
  | cons x xs ihx =>
    simp only [decodeAll, Option.bind_eq_some_iff, Option.map_eq_some_iff] at h
    obtain ⟨u, -, us, h2, rfl⟩ := h
    simp [ihx h2]


theorem sub_of_lt (n : Nat) : ∀ j : Json, sizeOf j < n → Sub E j := by
  induction n with
  | zero => intro j hj; omega
  | succ n ih =>
    intro j hj t
    induction t with
    | opt t iht =>
      intro v
      rw [decode]
      cases hn : j.isNull with
      | true =>
        cases j <;> first | cases hn | skip
        simp [toPT, run, leafVal, Event.isLeaf]
      | false =>
        rw [run_opt E t (toPT_null hn), map_eq_ok]
        simp [Option.map_eq_some_iff, iht]
    | box t iht =>
      intro v
      rw [decode, run_box, map_eq_ok]
      simp [Option.map_eq_some_iff, iht]
    | _ =>
      intro v
      match j with
      | .arr xs =>
        have hx : ∀ x ∈ xs, Sub E x := by
          intro x hx
          have := List.sizeOf_lt_of_mem hx
          simp at hj
          exact ih x (by omega)
        rw [toPT, run_seq_base E rfl]
        unfold decode
        first
          | simp [Ty.core]; done
          | simp only [Ty.core, Option.some.injEq, exists_eq_left', elems_vec E hx, Option.map_eq_some_iff, shiftVec,
              List.nil_append]
            constructor <;> (rintro ⟨vs, h1, h2⟩; exact ⟨vs, h1, h2.symm⟩)
          | (simp only [Ty.core, Option.some.injEq, exists_eq_left', elems_tup E hx]
             constructor
             · rintro ⟨x, y, vx, vy, rfl, h1, h2, rfl⟩
               simp [h1, h2]
             · intro h
               match xs, h with
               | [x, y], h =>
                 simp only [Option.bind_eq_some_iff, Option.map_eq_some_iff] at h
                 obtain ⟨vx, h1, vy, h2, rfl⟩ := h
                 exact ⟨x, y, vx, vy, rfl, h1, h2, rfl⟩)
          | (rename_i t' m _
             have := elems_arr E hx t' m (cur := []) (el := none) (v := v) (Nat.zero_le _)
             simp only [List.map_nil, List.length_nil, Nat.sub_zero, List.nil_append, shiftVec] at this
             simp only [Ty.core, Option.some.injEq, exists_eq_left', this]
             have hlen := fun vs => @decodeAll_length E xs t' vs
             constructor
             · rintro ⟨vs, h1, h2, rfl⟩
               have := hlen vs h1
               rw [if_pos (by omega), h1]; rfl
             · intro h
               split at h
               · simp only [Option.map_eq_some_iff] at h
                 obtain ⟨vs, h1, rfl⟩ := h
                 exact ⟨vs, h1, by rw [hlen vs h1]; assumption, rfl⟩
               · cases h)
      | .obj ms =>
        have hx : ∀ m ∈ ms, Sub E m.2 := by
          intro m hm
          have := List.sizeOf_lt_of_mem hm
          have h2 : sizeOf m.2 < sizeOf m := by cases m; simp; omega
          simp at hj
          exact ih m.2 (by omega)
        rw [toPT, run_map_base E rfl]
        unfold decode
        first
          | simp [Ty.core]; done
          | simp only [Ty.core, Option.some.injEq, exists_eq_left', members_map E hx, Option.map_eq_some_iff, shiftMap, MapKind.insert,
              bytesLt_eq_strLt]
            constructor <;> (rintro ⟨vs, h1, h2⟩; exact ⟨vs, h1, h2.symm⟩)
          | (simp only [Ty.core, Option.some.injEq, exists_eq_left', members_strct E hx, foldl_slots, takeFields_slots,
               Option.bind_eq_some_iff, Option.map_eq_some_iff]
             constructor <;> (rintro ⟨ivs, h1, vs, h2, h3⟩; exact ⟨ivs, h1, vs, h2, h3.symm⟩))
      | .null =>
        rw [decode_base E (j := .null) rfl (fun _ h => nomatch h) (fun _ h => nomatch h)]
        exact leaf_scalar E (j := .null) rfl (fun _ h => nomatch h) (fun _ h => nomatch h) v
      | .bool b =>
        rw [decode_base E (j := .bool b) rfl (fun _ h => nomatch h) (fun _ h => nomatch h)]
        exact leaf_scalar E (j := .bool b) rfl (fun _ h => nomatch h) (fun _ h => nomatch h) v
      | .str s =>
        rw [decode_base E (j := .str s) rfl (fun _ h => nomatch h) (fun _ h => nomatch h)]
        exact leaf_scalar E (j := .str s) rfl (fun _ h => nomatch h) (fun _ h => nomatch h) v
      | .num l =>
        rw [decode_base E (j := .num l) rfl (fun _ h => nomatch h) (fun _ h => nomatch h)]
        exact leaf_scalar E (j := .num l) rfl (fun _ h => nomatch h) (fun _ h => nomatch h) v

/-- Running the tree of a JSON value is decoding it. -/
theorem run_decode (j : Json) (t : Ty) (v : Val) : run E (toPT j) t = .ok v ↔ decode E j t = some v :=
  sub_of_lt E _ j (Nat.lt_succ_self _) t v

end Miniserde
