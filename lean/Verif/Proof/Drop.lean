import Mathlib.Data.List.Perm.Basic
import Verif.Spec.Drop

/-!
# The destructor: bounded call depth, everything freed once
-/

namespace Miniserde

/-- Execution from `s` to `s'` in which the call stack never has more than `b` frames. -/
inductive DSteps (b : Nat) : DState → DState → Prop
  | refl {s : DState} (h : s.calls.length ≤ b) : DSteps b s s
  | step {s s' : DState} (h : s.calls.length ≤ b) (hs : DSteps b s.step s') : DSteps b s s'

theorem DSteps.trans {b : Nat} {s s' s'' : DState} (h : DSteps b s s') (h' : DSteps b s' s'') : DSteps b s s'' := by
  induction h with
  | refl _ => exact h'
  | step h _ ih => exact .step h (ih h')

theorem DSteps.mono {b c : Nat} (hb : b ≤ c) {s s' : DState} (h : DSteps b s s') : DSteps c s s' := by
  induction h with
  | refl h => exact .refl (Nat.le_trans h hb)
  | step h _ ih => exact .step (Nat.le_trans h hb) ih

/-- The call `f` returns, having freed the labels in `l` once each, using at most `d` frames. -/
def Drops (d : Nat) (f : DFrame) (l : List Nat) : Prop :=
  ∀ (k : List DFrame) (freed : List Nat), ∃ l', l'.Perm l ∧ DSteps (k.length + d) ⟨f :: k, freed⟩ ⟨k, freed ++ l'⟩

theorem Drops.perm {d : Nat} {f : DFrame} {l l' : List Nat} (h : Drops d f l) (hp : l.Perm l') : Drops d f l' := fun k fr => by
  obtain ⟨x, h1, h2⟩ := h k fr
  exact ⟨x, h1.trans hp, h2⟩

theorem Drops.mono {c d : Nat} (hc : c ≤ d) {f : DFrame} {l : List Nat} (h : Drops c f l) : Drops d f l := fun k fr => by
  obtain ⟨x, h1, h2⟩ := h k fr
  exact ⟨x, h1, h2.mono (by omega)⟩

/-- A step that only frees something and goes on. -/
theorem Drops.goto {d : Nat} {f g : DFrame} {l m : List Nat} (hd : 1 ≤ d) (hs : ∀ k fr, DState.step ⟨f :: k, fr⟩ = ⟨g :: k, fr ++ m⟩)
    (h : Drops d g l) : Drops d f (m ++ l) := fun k fr => by
  obtain ⟨x, h1, h2⟩ := h k (fr ++ m)
  refine ⟨m ++ x, h1.append_left m, .step (by simp; omega) ?_⟩
  rw [hs, ← List.append_assoc]
  exact h2

/-- A step that only frees something and returns. -/
theorem Drops.stop {d : Nat} {f : DFrame} {m : List Nat} (hd : 1 ≤ d) (hs : ∀ k fr, DState.step ⟨f :: k, fr⟩ = ⟨k, fr ++ m⟩) :
    Drops d f m := fun k fr =>
  ⟨m, .refl _, .step (by simp; omega) (by rw [hs]; exact .refl (by simp))⟩

/-- A call followed by the rest. -/
theorem Drops.call {c d : Nat} {f g h : DFrame} {l l' m : List Nat} (hc : c + 1 ≤ d)
    (hs : ∀ k fr, DState.step ⟨f :: k, fr⟩ = ⟨g :: h :: k, fr ++ m⟩) (hg : Drops c g l) (hh : Drops d h l') :
    Drops d f (m ++ (l ++ l')) := fun k fr => by
  obtain ⟨x, h1, h2⟩ := hg (h :: k) (fr ++ m)
  obtain ⟨y, h3, h4⟩ := hh k (fr ++ m ++ x)
  refine ⟨m ++ (x ++ y), (h1.append h3).append_left m, .step (by simp; omega) ?_⟩
  rw [hs]
  refine (h2.mono (by simp only [List.length_cons]; omega)).trans ?_
  simpa only [List.append_assoc] using h4

theorem drops_ret {d : Nat} (hd : 1 ≤ d) : Drops d .ret [] := .stop hd fun k fr => by simp [DState.step]

theorem drops_scalar {d : Nat} (hd : 1 ≤ d) (i : Nat) : Drops d (.value (.scalar i)) [i] := .stop hd fun _ _ => rfl

/-! ## `safely` -/

mutual

/-- Number of nodes. -/
def DNode.size : DNode → Nat
  | .scalar _ => 1
  | .array _ xs => 1 + sizeAll xs
  | .object _ ms => 1 + sizeEntries ms

def sizeAll : List DNode → Nat
  | [] => 0
  | x :: xs => x.size + sizeAll xs

def sizeEntries : List (Nat × DNode) → Nat
  | [] => 0
  | (_, x) :: ms => x.size + sizeEntries ms

end

theorem forVec {l : List Nat} (i : Nat) : ∀ (xs st : List DNode), Drops 2 (.loop (xs.reverse ++ st)) l → Drops 2 (.forVec st i xs) (i :: l)
  | [], st, h => (Drops.goto (m := [i]) (by omega) (fun k fr => rfl) h)
  | x :: xs, st, h => by
    rw [List.reverse_cons, List.append_assoc] at h
    have := forVec i xs (x :: st) h
    exact Drops.goto (m := []) (by omega) (fun k fr => by simp [DState.step]) this

theorem forMap {l : List Nat} (i : Nat) : ∀ (ms : List (Nat × DNode)) (st : List DNode),
    Drops 2 (.loop ((ms.map Prod.snd).reverse ++ st)) l → Drops 2 (.forMap st i ms) (ms.map Prod.fst ++ i :: l)
  | [], st, h => (Drops.goto (m := [i]) (by omega) (fun k fr => rfl) h)
  | (key, x) :: ms, st, h => by
    rw [List.map_cons, List.reverse_cons, List.append_assoc] at h
    have := forMap i ms (x :: st) h
    exact Drops.goto (m := [key]) (by omega) (fun k fr => rfl) this

theorem sizeAll_append (xs ys : List DNode) : sizeAll (xs ++ ys) = sizeAll xs + sizeAll ys := by
  induction xs with
  | nil => simp [sizeAll]
  | cons x xs ih => simp only [List.cons_append, sizeAll, ih]; omega

theorem sizeAll_reverse (xs : List DNode) : sizeAll xs.reverse = sizeAll xs := by
  induction xs with
  | nil => rfl
  | cons x xs ih => simp only [List.reverse_cons, sizeAll_append, ih, sizeAll]; omega

theorem sizeEntries_eq (ms : List (Nat × DNode)) : sizeAll (ms.map Prod.snd) = sizeEntries ms := by
  induction ms with
  | nil => rfl
  | cons m ms ih => obtain ⟨k, x⟩ := m; simp only [List.map_cons, sizeAll, sizeEntries, ih]

theorem ownsAll_append (xs ys : List DNode) : ownsAll (xs ++ ys) = ownsAll xs ++ ownsAll ys := by
  induction xs with
  | nil => simp [ownsAll]
  | cons x xs ih => simp only [List.cons_append, ownsAll, ih, List.append_assoc]

theorem ownsAll_reverse (xs : List DNode) : (ownsAll xs.reverse).Perm (ownsAll xs) := by
  induction xs with
  | nil => exact .refl _
  | cons x xs ih =>
    simp only [List.reverse_cons, ownsAll_append, ownsAll, List.append_nil]
    exact (ih.append_right _).trans List.perm_append_comm

theorem ownsEntries_perm (ms : List (Nat × DNode)) : (ms.map Prod.fst ++ ownsAll (ms.map Prod.snd)).Perm (ownsEntries ms) := by
  induction ms with
  | nil => simp [ownsAll, ownsEntries]
  | cons m ms ih =>
    obtain ⟨k, x⟩ := m
    simp only [List.map_cons, ownsAll, ownsEntries, List.cons_append]
    refine .cons _ ?_
    refine (List.perm_append_comm_assoc _ _ _).trans ?_
    exact ih.append_left _

/-- The worklist loop frees everything on the worklist. -/
theorem drops_loop : ∀ (n : Nat) (st : List DNode), sizeAll st < n → Drops 2 (.loop st) (ownsAll st)
  | 0, st, h => absurd h (Nat.not_lt_zero _)
  | n + 1, [], h => .stop (by omega) fun k fr => by simp [DState.step, ownsAll]
  | n + 1, .scalar i :: st, h => by
    simp only [sizeAll, DNode.size] at h
    simp only [ownsAll, DNode.owns]
    exact Drops.call (c := 1) (m := []) (by omega) (fun k fr => by simp [DState.step]) (drops_scalar (by omega) i) (drops_loop n st (by omega))
  | n + 1, .array i xs :: st, h => by
    simp only [sizeAll, DNode.size] at h
    have h1 := drops_loop n (xs.reverse ++ st) (by rw [sizeAll_append, sizeAll_reverse]; omega)
    have h2 := Drops.goto (f := .loop (.array i xs :: st)) (m := []) (by omega) (fun k fr => by simp [DState.step]) (forVec i xs st h1)
    refine h2.perm ?_
    simp only [List.nil_append, ownsAll, DNode.owns, List.cons_append, ownsAll_append]
    exact .cons _ ((ownsAll_reverse xs).append_right _)
  | n + 1, .object i ms :: st, h => by
    simp only [sizeAll, DNode.size] at h
    have h1 := drops_loop n ((ms.map Prod.snd).reverse ++ st) (by rw [sizeAll_append, sizeAll_reverse, sizeEntries_eq]; omega)
    have h2 := Drops.goto (f := .loop (.object i ms :: st)) (m := []) (by omega) (fun k fr => by simp [DState.step]) (forMap i ms st h1)
    refine h2.perm ?_
    simp only [List.nil_append, ownsAll, DNode.owns, List.cons_append, ownsAll_append]
    refine List.perm_middle.trans (.cons _ ?_)
    rw [← List.append_assoc]
    refine List.Perm.append_right _ ?_
    exact ((ownsAll_reverse _).append_left _).trans (ownsEntries_perm ms)

theorem drops_safely : ∀ (v : DNode), Drops 2 (.safely v) v.owns
  | .scalar i => by
    have := Drops.call (f := .safely (.scalar i)) (m := []) (c := 1) (d := 2) (by omega) (fun k fr => by simp [DState.step])
      (drops_scalar (by omega) i) (drops_ret (by omega))
    simpa [DNode.owns] using this
  | .array i xs => by
    have := Drops.goto (f := .safely (.array i xs)) (m := []) (by omega) (fun k fr => by simp [DState.step]) (drops_loop _ [.array i xs] (Nat.lt_succ_self _))
    simpa [ownsAll] using this
  | .object i ms => by
    have := Drops.goto (f := .safely (.object i ms)) (m := []) (by omega) (fun k fr => by simp [DState.step]) (drops_loop _ [.object i ms] (Nat.lt_succ_self _))
    simpa [ownsAll] using this

/-! ## The `Drop` impls -/

theorem drops_arrayDrop : ∀ (xs : List DNode), Drops 3 (.arrayDrop xs) (ownsAll xs)
  | [] => .stop (by omega) fun k fr => by simp [DState.step, ownsAll]
  | x :: xs => by
    rw [ownsAll]
    exact Drops.call (m := []) (c := 2) (by omega) (fun k fr => by simp [DState.step]) (drops_safely x) (drops_arrayDrop xs)

theorem drops_objectDrop (i : Nat) : ∀ (ms : List (Nat × DNode)), Drops 3 (.objectDrop i ms) (i :: ownsEntries ms)
  | [] => .stop (by omega) fun k fr => by simp [DState.step, ownsEntries]
  | (key, x) :: ms => by
    have := Drops.call (m := [key]) (c := 2) (f := .objectDrop i ((key, x) :: ms)) (by omega) (fun k fr => rfl) (drops_safely x) (drops_objectDrop i ms)
    refine this.perm ?_
    rw [ownsEntries]
    simp only [List.cons_append, List.nil_append]
    refine (List.Perm.cons _ List.perm_middle).trans ?_
    exact List.Perm.swap _ _ _

theorem drops_array (i : Nat) (xs : List DNode) : Drops 4 (.array i xs) (DNode.array i xs).owns := by
  have h1 : Drops 4 (.innerVec i []) [i] := .stop (by omega) fun k fr => rfl
  have := Drops.call (f := .array i xs) (m := []) (c := 3) (by omega) (fun k fr => by simp [DState.step, drainAll]) (drops_arrayDrop xs) h1
  refine this.perm ?_
  rw [DNode.owns]
  exact (List.perm_append_comm : (ownsAll xs ++ [i]).Perm ([i] ++ ownsAll xs))

theorem drops_object (i : Nat) (ms : List (Nat × DNode)) : Drops 4 (.object i ms) (DNode.object i ms).owns := by
  have h1 : Drops 4 (.innerMap i []) [] := .stop (by omega) fun k fr => by simp [DState.step]
  have := Drops.call (f := .object i ms) (m := []) (c := 3) (by omega) (fun k fr => by simp [DState.step, takeAll]) (drops_objectDrop i ms) h1
  simpa [DNode.owns] using this

theorem drops_value : ∀ (v : DNode), Drops 5 (.value v) v.owns
  | .scalar i => drops_scalar (by omega) i
  | .array i xs => by
    have := Drops.call (f := .value (.array i xs)) (m := []) (c := 4) (d := 5) (by omega) (fun k fr => by simp [DState.step]) (drops_array i xs) (drops_ret (by omega))
    simpa using this
  | .object i ms => by
    have := Drops.call (f := .value (.object i ms)) (m := []) (c := 4) (d := 5) (by omega) (fun k fr => by simp [DState.step]) (drops_object i ms) (drops_ret (by omega))
    simpa using this

/-! ## Iterators and the state of `from_str` -/

theorem drops_vecIter (i : Nat) : ∀ (xs : List DNode), Drops 6 (.vecIter i xs) (i :: ownsAll xs)
  | [] => .stop (by omega) fun k fr => rfl
  | x :: xs => by
    have := Drops.call (f := .vecIter i (x :: xs)) (m := []) (c := 5) (by omega) (fun k fr => by simp [DState.step]) (drops_value x) (drops_vecIter i xs)
    refine this.perm ?_
    rw [ownsAll]
    exact List.perm_middle

theorem drops_mapIter (i : Nat) : ∀ (ms : List (Nat × DNode)), Drops 6 (.mapIter i ms) (i :: ownsEntries ms)
  | [] => .stop (by omega) fun k fr => rfl
  | (key, x) :: ms => by
    have := Drops.call (f := .mapIter i ((key, x) :: ms)) (m := [key]) (c := 5) (by omega) (fun k fr => rfl) (drops_value x) (drops_mapIter i ms)
    refine this.perm ?_
    rw [ownsEntries]
    simp only [List.cons_append, List.nil_append]
    exact (List.Perm.cons _ List.perm_middle).trans (List.Perm.swap _ _ _)

theorem drops_optValue : ∀ (v : Option DNode), Drops 6 (.optValue v) (ownsOpt v)
  | none => .stop (by omega) fun k fr => by simp [DState.step, ownsOpt]
  | some v => by
    have := Drops.call (f := .optValue (some v)) (m := []) (c := 5) (d := 6) (by omega) (fun k fr => by simp [DState.step]) (drops_value v) (drops_ret (by omega))
    simpa [ownsOpt] using this

theorem drops_layer (l : DLayer) : Drops 8 (.layer l) l.owns := by
  cases l with
  | seq b i xs el =>
    have h1 : Drops 7 (.seqRest el) (ownsOpt el) := by
      have := Drops.call (f := .seqRest el) (m := []) (c := 6) (d := 7) (by omega) (fun k fr => by simp [DState.step]) (drops_optValue el) (drops_ret (by omega))
      simpa using this
    have h2 := Drops.call (f := .builder (.seq b i xs el)) (m := []) (c := 4) (d := 7) (by omega) (fun k fr => by simp [DState.step]) (drops_array i xs) h1
    have h3 : Drops 8 (.freeBox b) [b] := .stop (by omega) fun k fr => rfl
    have h4 := Drops.call (f := .layer (.seq b i xs el)) (m := []) (c := 7) (d := 8) (by omega) (fun k fr => by simp [DState.step]) h2 h3
    refine h4.perm ?_
    simp only [List.nil_append, DLayer.owns, DNode.owns]
    exact (List.perm_append_comm (l₁ := i :: ownsAll xs ++ ownsOpt el) (l₂ := [b])).trans (by simp)
  | map b i ms key v =>
    have h1 : Drops 7 (.mapRest key v) (keyLabel key ++ ownsOpt v) := by
      have := Drops.call (f := .mapRest key v) (m := keyLabel key) (c := 6) (d := 7) (by omega) (fun k fr => rfl) (drops_optValue v) (drops_ret (by omega))
      simpa using this
    have h2 := Drops.call (f := .builder (.map b i ms key v)) (m := []) (c := 4) (d := 7) (by omega) (fun k fr => by simp [DState.step]) (drops_object i ms) h1
    have h3 : Drops 8 (.freeBox b) [b] := .stop (by omega) fun k fr => rfl
    have h4 := Drops.call (f := .layer (.map b i ms key v)) (m := []) (c := 7) (d := 8) (by omega) (fun k fr => by simp [DState.step]) h2 h3
    refine h4.perm ?_
    have hk : keyLabel key = key.elim [] fun k => [k] := by cases key <;> rfl
    simp only [List.nil_append, DLayer.owns, DNode.owns, hk]
    exact (List.perm_append_comm (l₁ := i :: ownsEntries ms ++ ((key.elim [] fun k => [k]) ++ ownsOpt v)) (l₂ := [b])).trans (by simp)

theorem drops_popLayers : ∀ (st : List DLayer), Drops 9 (.popLayers st) (ownsLayers st)
  | [] => .stop (by omega) fun k fr => by simp [DState.step, ownsLayers]
  | l :: st => Drops.call (f := .popLayers (l :: st)) (m := []) (c := 8) (by omega) (fun k fr => by simp [DState.step]) (drops_layer l) (drops_popLayers st)

theorem drops_deserializer (b i : Nat) (st : List DLayer) : Drops 10 (.deserializer b i st) (b :: i :: ownsLayers st) := by
  have h1 : Drops 10 (.deFields b i []) [b, i] := .stop (by omega) fun k fr => rfl
  have h2 := Drops.call (f := .deserializer b i st) (m := []) (c := 9) (by omega) (fun k fr => by simp [DState.step]) (drops_popLayers st) h1
  exact h2.perm (List.perm_append_comm (l₁ := ownsLayers st) (l₂ := [b, i]))

theorem drops_fromStrErr (b i : Nat) (st : List DLayer) (out : Option DNode) :
    Drops 11 (.fromStrErr b i st out) (b :: i :: ownsLayers st ++ ownsOpt out) :=
  Drops.call (f := .fromStrErr b i st out) (m := []) (c := 10) (by omega) (fun k fr => by simp [DState.step]) (drops_deserializer b i st)
    ((drops_optValue out).mono (by omega))

/-! ## From bounded executions to runs -/

theorem run_stuck (n : Nat) (fr : List Nat) : DState.run n ⟨[], fr⟩ = ⟨[], fr⟩ := by
  induction n with
  | zero => rfl
  | succ n ih => rw [DState.run]; exact ih

theorem DSteps.runs {b : Nat} {s s' : DState} (h : DSteps b s s') (hf : s'.calls = []) :
    (∃ n, DState.run n s = s') ∧ ∀ n, (DState.run n s).calls.length ≤ b := by
  induction h with
  | @refl s h =>
    obtain ⟨c, fr⟩ := s
    cases hf
    exact ⟨⟨0, rfl⟩, fun n => by rw [run_stuck]; exact h⟩
  | @step s s' h hs ih =>
    obtain ⟨⟨n, h1⟩, h2⟩ := ih hf
    refine ⟨⟨n + 1, h1⟩, fun m => ?_⟩
    cases m with
    | zero => exact h
    | succ m => exact h2 m

theorem Drops.runs {d : Nat} {f : DFrame} {l : List Nat} (h : Drops d f l) :
    (∃ n freed, DState.run n ⟨[f], []⟩ = ⟨[], freed⟩ ∧ freed.Perm l) ∧ ∀ n, (DState.run n ⟨[f], []⟩).calls.length ≤ d := by
  obtain ⟨x, h1, h2⟩ := h [] []
  obtain ⟨⟨n, h3⟩, h4⟩ := h2.runs rfl
  simp only [List.length_nil, Nat.zero_add] at h4
  exact ⟨⟨n, x, h3, h1⟩, h4⟩

end Miniserde
