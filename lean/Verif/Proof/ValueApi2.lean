import Verif.Proof.ValueApi

/-!
# Programs that use `Value`: operations
-/

namespace Miniserde

/-! ## Destructor calls -/

/-- What a destructor call frees. -/
def DFrame.frees : DFrame → List Nat
  | .value v => v.owns
  | .vecIter i xs => i :: ownsAll xs
  | .mapIter i ms => i :: ownsEntries ms
  | _ => []

def dw (a : Nat) : List DFrame → Nat
  | [] => 0
  | f :: fs => f.frees.count a + dw a fs

theorem dw_append (a : Nat) : ∀ (fs gs : List DFrame), dw a (fs ++ gs) = dw a fs + dw a gs
  | [], gs => by simp [dw]
  | f :: fs, gs => by rw [List.cons_append, dw, dw, dw_append a fs gs]; omega

theorem dw_values (a : Nat) : ∀ (xs : List LVal), dw a (xs.map fun x => .value x.node) = wts a xs
  | [] => rfl
  | x :: xs => by rw [List.map_cons, dw, wts, dw_values a xs]; rfl

/-- All calls are of the kinds whose behaviour is known. -/
def DeadOK (fs : List DFrame) : Prop := ∀ f ∈ fs, Drops 6 f f.frees

theorem deadOK_value (v : DNode) : Drops 6 (.value v) (DFrame.value v).frees := (drops_value v).mono (by omega)

theorem deadOK_values (xs : List LVal) : DeadOK (xs.map fun x => .value x.node) := by
  intro f hf
  obtain ⟨x, -, rfl⟩ := List.mem_map.1 hf
  exact deadOK_value _

theorem run_add (s : DState) : ∀ (n m : Nat), DState.run (n + m) s = DState.run m (DState.run n s) := by
  intro n
  induction n generalizing s with
  | zero => intro m; simp [DState.run]
  | succ n ih => intro m; rw [Nat.succ_add, DState.run, DState.run, ih]

theorem run_unique {s : DState} {n m : Nat} {l l' : List Nat} (h : DState.run n s = ⟨[], l⟩) (h' : DState.run m s = ⟨[], l'⟩) : l = l' := by
  have h1 := run_add s n m
  have h2 := run_add s m n
  rw [h, run_stuck] at h1
  rw [h', run_stuck, Nat.add_comm, h1] at h2
  cases h2; rfl

theorem dropAll_count {fs : List DFrame} {log : List Nat} (h : DropAll fs log) (hf : DeadOK fs) (a : Nat) : log.count a = dw a fs := by
  induction h with
  | nil => rfl
  | cons h hs ih =>
    obtain ⟨⟨m, fr, h1, h2⟩, -⟩ := (hf _ List.mem_cons_self).runs
    cases run_unique h h1
    rw [List.count_append, ih fun f hm => hf f (List.mem_cons_of_mem _ hm), dw, h2.count_eq]

theorem dropAll_exists : ∀ (fs : List DFrame), DeadOK fs → ∃ log, DropAll fs log
  | [], _ => ⟨[], .nil⟩
  | f :: fs, h => by
    obtain ⟨⟨m, fr, h1, -⟩, -⟩ := (h f List.mem_cons_self).runs
    obtain ⟨log, h2⟩ := dropAll_exists fs fun g hg => h g (List.mem_cons_of_mem _ hg)
    exact ⟨_, .cons h1 h2⟩

/-! ## Operations on a place -/

/-- An operation on `v` does what it should and accounts for every label; `inn` counts the labels it is given. -/
def EditGood (n : Nat) (inn : Nat → Nat) (v : LVal) : Option (LVal × OpResult) → Option (Val × List Val) → Prop
  | none, s => s = none
  | some (v', o), s => v'.OK ∧ (∀ x ∈ o.ret, x.OK) ∧ s = some (v'.val, LVal.vals o.ret) ∧ DeadOK o.dead ∧
      ∀ a, wt a v + inn a + (List.range o.next).count a = wt a v' + wts a o.ret + dw a o.dead + o.freed.count a + (List.range n).count a

def argw (a : Nat) : Option LVal → Nat
  | some v => wt a v
  | none => 0

theorem val_scalar (i : Nat) (s : Scalar) : LVal.val (.scalar i s) = s.val := by rw [LVal.val]
theorem val_array (i : Nat) (xs : List LVal) : LVal.val (.array i xs) = .seq (xs.map LVal.val) := by rw [LVal.val, vals_eq]
theorem val_object (i : Nat) (ms : List (Bytes × Nat × LVal)) : LVal.val (.object i ms) = .map (ms.map fun m => (m.1, m.2.2.val)) := by
  rw [LVal.val, valEntries_eq]

theorem DeadOK.nil : DeadOK [] := fun _ h => by cases h

theorem consumes_eq (e : Edit) : e.takesArg = e.consumes := by cases e <;> rfl

theorem pick_mem {xs : List LVal} {is : List Nat} {x : LVal} (h : x ∈ pick xs is) : x ∈ xs := by
  obtain ⟨i, -, e⟩ := List.mem_filterMap.1 h
  exact List.mem_of_getElem? e

theorem pick_vals {xs : List LVal} : ∀ {is : List Nat}, (∀ i ∈ is, i < xs.length) → (pick xs is).map LVal.val = is.map fun i => (xs.map LVal.val).getD i .null
  | [], _ => rfl
  | i :: is, h => by
    have h1 : i < xs.length := h i List.mem_cons_self
    have ih := pick_vals (xs := xs) fun j hj => h j (List.mem_cons_of_mem _ hj)
    simp only [pick] at ih ⊢
    rw [List.filterMap_cons, List.getElem?_eq_getElem h1]
    simp only [List.map_cons, ih, List.getD_eq_getElem?_getD, List.getElem?_map, List.getElem?_eq_getElem h1, Option.map_some, Option.getD_some]

theorem pick_range : ∀ (xs : List LVal), (List.range xs.length).filterMap (fun j => xs[j]?) = xs
  | [] => rfl
  | x :: xs => by
    rw [List.length_cons, List.range_succ_eq_map, List.filterMap_cons]
    simp only [List.getElem?_cons_zero, List.filterMap_map]
    congr 1
    exact pick_range xs

theorem wts_perm (a : Nat) {xs ys : List LVal} (h : xs.Perm ys) : wts a xs = wts a ys := by
  induction h with
  | nil => rfl
  | cons x _ ih => simp only [wts, ih]
  | swap x y l => simp only [wts]; omega
  | trans _ _ h1 h2 => rw [h1, h2]

theorem entriesOf_cons {α : Type} (f g : EntryFate) (fs : List EntryFate) (m : α) (ms : List α) :
    entriesOf f (g :: fs) (m :: ms) = if g = f then m :: entriesOf f fs ms else entriesOf f fs ms := by
  by_cases e : g = f <;> simp [entriesOf, e]

theorem entriesOf_sublist {α : Type} (f : EntryFate) : ∀ (fates : List EntryFate) (ms : List α), (entriesOf f fates ms).Sublist ms
  | [], ms => by simp [entriesOf]
  | _ :: _, [] => by simp [entriesOf]
  | g :: fs, m :: ms => by
    rw [entriesOf_cons]
    split
    · exact (entriesOf_sublist f fs ms).cons_cons _
    · exact (entriesOf_sublist f fs ms).cons _

theorem entriesOf_mem {α : Type} {f : EntryFate} {fates : List EntryFate} {ms : List α} {m : α} (h : m ∈ entriesOf f fates ms) : m ∈ ms :=
  (entriesOf_sublist f fates ms).subset h

theorem entriesOf_sorted {α : Type} {f : EntryFate} {fates : List EntryFate} {ms : List (Bytes × α)} (h : SortedKeys strLt ms) : SortedKeys strLt (entriesOf f fates ms) :=
  List.Pairwise.sublist (entriesOf_sublist f fates ms) h

theorem entriesOf_vals : ∀ (fates : List EntryFate) (ms : List (Bytes × Nat × LVal)), (entriesOf .keep fates ms).map (fun m => (m.1, m.2.2.val)) =
    (((ms.map fun m => (m.1, m.2.2.val)).zip fates).filter fun p => p.2 = .keep).map Prod.fst
  | [], ms => by simp [entriesOf]
  | _ :: _, [] => by simp [entriesOf]
  | g :: fs, m :: ms => by
    have ih := entriesOf_vals fs ms
    rw [entriesOf_cons]
    by_cases e : g = .keep <;> simp [e, ih]

theorem entriesOf_give : ∀ (fates : List EntryFate) (ms : List (Bytes × Nat × LVal)), ((entriesOf .give fates ms).map fun m => m.2.2).map LVal.val =
    (((ms.map fun m => (m.1, m.2.2.val)).zip fates).filter fun p => p.2 = .give).map fun p => p.1.2
  | [], ms => by simp [entriesOf]
  | _ :: _, [] => by simp [entriesOf]
  | g :: fs, m :: ms => by
    have ih := entriesOf_give fs ms
    rw [entriesOf_cons]
    by_cases e : g = .give <;> simp [e] at ih ⊢ <;> exact ih

theorem wte_parts (a : Nat) : ∀ (ms : List (Bytes × Nat × LVal)), wte a ms = (ms.map fun m => m.2.1).count a + wts a (ms.map fun m => m.2.2)
  | [] => by simp [wte, wts]
  | (k, l, x) :: ms => by
    have ih := wte_parts a ms
    simp only [wte, wts, List.map_cons, List.count_cons, List.count_nil] at ih ⊢
    omega

theorem entriesOf_count (a : Nat) : ∀ (fates : List EntryFate) (ms : List (Bytes × Nat × LVal)), fates.length = ms.length →
    wte a ms = wte a (entriesOf .keep fates ms) + wte a (entriesOf .give fates ms) + wte a (entriesOf .gone fates ms)
  | [], [], _ => by simp [entriesOf, wte]
  | [], _ :: _, h => by simp at h
  | _ :: _, [], h => by simp at h
  | g :: fs, (k, l, x) :: ms, h => by
    have ih := entriesOf_count a fs ms (by simpa using h)
    rw [entriesOf_cons, entriesOf_cons, entriesOf_cons]
    cases g <;> simp [wte] <;> omega

theorem edit_good {E : Edit} {arg src : Option LVal} {n : Nat} {v : LVal} (hv : v.OK) (ha : ∀ x, arg = some x → x.OK) (hs : ∀ x, src = some x → x.OK)
    (hk : ∀ k, E = .insertKey k → ValidUtf8 k) :
    EditGood n (fun a => argw a arg) v (E.run arg src n v) (E.spec (arg.map LVal.val) (src.map LVal.val) v.val) := by
  have hr : ∀ a, (List.range (n + 1)).count a = (List.range n).count a + [n].count a := fun a => by rw [List.range_succ, List.count_append]
  cases E with
  | assign =>
    cases arg with
    | none => rfl
    | some x =>
      refine ⟨ha x rfl, by simp, rfl, fun f hf => ?_, fun a => ?_⟩
      · simp only [List.mem_singleton] at hf; subst hf; exact deadOK_value _
      · simp only [argw, wts, dw, DFrame.frees, List.count_nil, wt]; omega
  | replace =>
    cases arg with
    | none => rfl
    | some x =>
      refine ⟨ha x rfl, fun y hy => ?_, rfl, .nil, fun a => ?_⟩
      · simp only [List.mem_singleton] at hy; subst hy; exact hv
      · simp only [argw, wts, dw, List.count_nil]; omega
  | take =>
    cases arg with
    | some x => rfl
    | none =>
      refine ⟨.scalar n trivial, fun y hy => ?_, ?_, .nil, fun a => ?_⟩
      · simp only [List.mem_singleton] at hy; subst hy; exact hv
      · simp only [val_scalar, LVal.vals]; rfl
      · simp only [argw, wts, dw, List.count_nil, wt_scalar, hr]; omega
  | push =>
    cases arg with
    | none => cases v <;> rfl
    | some x =>
      cases v with
      | scalar i s => rw [val_scalar]; cases s <;> rfl
      | object i ms => rw [val_object]; rfl
      | array i xs =>
        cases hv with
        | array _ h =>
          refine ⟨.array i fun y hy => ?_, by simp, by simp [val_array, Edit.spec, LVal.vals], .nil, fun a => ?_⟩
          · simp only [List.mem_append, List.mem_singleton] at hy
            rcases hy with hy | rfl
            · exact h y hy
            · exact ha _ rfl
          · simp only [argw, wts, dw, List.count_nil, wt_array, wts_append]; omega
  | pop =>
    cases arg with
    | some x => rfl
    | none =>
      cases v with
      | scalar i s => rw [val_scalar]; cases s <;> rfl
      | object i ms => rw [val_object]; rfl
      | array i xs =>
        cases hv with
        | array _ h =>
          simp only [Edit.run]
          cases e : xs.reverse with
          | nil =>
            have : xs = [] := by simpa using e
            subst this
            refine ⟨.array i (by simp), by simp, by simp [val_array, Edit.spec, LVal.vals], .nil, fun a => ?_⟩
            simp only [argw, wts, dw, List.count_nil, wt_array]
          | cons y ys =>
            have : xs = ys.reverse ++ [y] := by rw [← List.reverse_reverse xs, e, List.reverse_cons]
            subst this
            refine ⟨.array i fun z hz => h z (by simp only [List.mem_append]; exact .inl hz), fun z hz => ?_, by simp [val_array, Edit.spec, LVal.vals], .nil, fun a => ?_⟩
            · simp only [List.mem_singleton] at hz; subst hz; exact h z (by simp)
            · simp only [argw, wts, dw, List.count_nil, wt_array, wts_append]; omega
  | insert j =>
    cases arg with
    | none => cases v <;> rfl
    | some x =>
      cases v with
      | scalar i s => rw [val_scalar]; cases s <;> rfl
      | object i ms => rw [val_object]; rfl
      | array i xs =>
        cases hv with
        | array _ h =>
          simp only [Edit.run, val_array, Edit.spec, Option.map_some, List.length_map]
          by_cases hj : j ≤ xs.length
          · rw [if_pos hj, if_pos hj]
            refine ⟨.array i fun y hy => ?_, by simp, by simp [val_array, LVal.vals, List.map_take, List.map_drop], .nil, fun a => ?_⟩
            · simp only [List.mem_append, List.mem_cons] at hy
              rcases hy with hy | rfl | hy
              · exact h y (List.mem_of_mem_take hy)
              · exact ha _ rfl
              · exact h y (List.mem_of_mem_drop hy)
            · have := wts_split a j xs
              simp only [argw, wts, dw, List.count_nil, wt_array, wts_append]; omega
          · rw [if_neg hj, if_neg hj]; rfl
  | remove j =>
    cases arg with
    | some x => rfl
    | none =>
      cases v with
      | scalar i s => rw [val_scalar]; cases s <;> rfl
      | object i ms => rw [val_object]; rfl
      | array i xs =>
        cases hv with
        | array _ h =>
          simp only [Edit.run, val_array, Edit.spec, Option.map_none, List.getElem?_map]
          cases e : xs[j]? with
          | none => rfl
          | some y =>
            refine ⟨.array i fun z hz => h z (List.mem_of_mem_eraseIdx hz), fun z hz => ?_, by simp [val_array, LVal.vals, List.eraseIdx_map], .nil, fun a => ?_⟩
            · simp only [List.mem_singleton] at hz; subst hz; exact h z (List.mem_of_getElem? e)
            · have := wts_erase a e
              simp only [argw, wts, dw, List.count_nil, wt_array]; omega
  | truncate k =>
    cases arg with
    | some x => rfl
    | none =>
      cases v with
      | scalar i s => rw [val_scalar]; cases s <;> rfl
      | object i ms => rw [val_object]; rfl
      | array i xs =>
        cases hv with
        | array _ h =>
          refine ⟨.array i fun z hz => h z (List.mem_of_mem_take hz), by simp, by simp [val_array, Edit.spec, LVal.vals, List.map_take], deadOK_values _, fun a => ?_⟩
          have := wts_split a k xs
          simp only [argw, wts, dw_values, List.count_nil, wt_array]; omega
  | cloneFrom y q =>
    cases arg with
    | some x => rfl
    | none =>
      cases v with
      | scalar i s => rw [val_scalar]; cases s <;> rfl
      | object i ms => rw [val_object]; rfl
      | array i xs =>
        cases src with
        | none => simp only [Edit.run, val_array, Edit.spec, Option.map_none]; rfl
        | some w =>
          cases w with
          | scalar i s => simp only [Edit.run, val_array, Edit.spec, Option.map_some, Option.map_none, val_scalar]; cases s <;> rfl
          | object i ms => simp only [Edit.run, val_array, Edit.spec, Option.map_some, Option.map_none, val_object]; rfl
          | array i' ys =>
            have hy : ∀ x ∈ ys, x.OK := by cases hs _ rfl with | array _ h => exact h
            obtain ⟨h1, h2, h3⟩ := clones_ok (xs := ys) n hy
            refine ⟨.array i h1, by simp [vecCloneFrom], ?_, deadOK_values _, fun a => ?_⟩
            · rw [vals_eq, vals_eq] at h2
              simp only [Edit.spec, val_array, Option.map_some, Option.map_none, vecCloneFrom, LVal.vals, h2]
            · have h4 := h3 a
              have h5 := wts_split a ys.length xs
              simp only [argw, vecCloneFrom, wts, dw_values, List.count_nil, wt_array, wts_append]; omega
  | insertKey k =>
    cases arg with
    | none => cases v <;> rfl
    | some x =>
      cases v with
      | scalar i s => rw [val_scalar]; cases s <;> rfl
      | array i xs => rw [val_array]; rfl
      | object i ms =>
        cases hv with
        | object _ hu hso h =>
          simp only [Edit.run, val_object, Edit.spec, Option.map_some]
          rw [lookup_map (fun m : Nat × LVal => m.2.val)]
          have main : ∀ (l : Nat), LVal.OK (.object i (withKey k (l, x) ms)) ∧
              (withKey k (l, x) ms).map (fun m => (m.1, m.2.2.val)) = withKey k x.val (ms.map fun m => (m.1, m.2.2.val)) := by
            intro l
            refine ⟨.object i (fun m hm => ?_) (withKey_sorted k _ hso) (fun m hm => ?_), withKey_map (fun m : Nat × LVal => m.2.val) k (l, x) ms⟩
            · rcases withKey_mem hm with rfl | hm
              · exact hk k rfl
              · exact hu m hm
            · rcases withKey_mem hm with rfl | hm
              · exact ha _ rfl
              · exact h m hm
          cases e : entryFind k ms with
          | some r =>
            obtain ⟨j, l, old⟩ := r
            obtain ⟨h1, h2⟩ := entryFind_some e
            obtain ⟨h3, h4⟩ := main l
            have h5 := set_withKey (l, x) hso h1
            simp only
            refine ⟨by rw [h5]; exact h3, fun z hz => ?_, ?_, .nil, fun a => ?_⟩
            · simp only [List.mem_singleton] at hz; subst hz; exact h _ (List.mem_of_getElem? h1)
            · simp only [val_object, h5, h4, h2, LVal.vals]; rfl
            · have := wte_set a (k' := k) (l' := l) x h1
              simp only [argw, wts, dw, wt_object, hr]; omega
          | none =>
            obtain ⟨h1, h2⟩ := entryFind_none e
            obtain ⟨h3, h4⟩ := main n
            have h5 := insert_withKey k (n, x) hso
            simp only
            refine ⟨by rw [h5]; exact h3, by simp, ?_, .nil, fun a => ?_⟩
            · simp only [val_object, h5, h4, h2, LVal.vals]; rfl
            · have := wte_insert a (l := n) (x := x) h1
              simp only [argw, wts, dw, wt_object, hr, List.count_nil]; omega
  | removeKey k =>
    cases arg with
    | some x => rfl
    | none =>
      cases v with
      | scalar i s => rw [val_scalar]; cases s <;> rfl
      | array i xs => rw [val_array]; rfl
      | object i ms =>
        cases hv with
        | object _ hu hso h =>
          simp only [Edit.run, val_object, Edit.spec, Option.map_none]
          rw [lookup_map (fun m : Nat × LVal => m.2.val), ← withoutKey_map (fun m : Nat × LVal => m.2.val) k ms]
          cases e : entryRemove k ms with
          | some r =>
            obtain ⟨⟨l, x⟩, ms'⟩ := r
            obtain ⟨h1, h2, h3, h4, h5⟩ := entryRemove_some e
            have h6 := h3 hso
            simp only
            refine ⟨.object i (fun m hm => hu m (h5 m hm)) ?_ (fun m hm => h m (h5 m hm)), fun z hz => ?_, ?_, .nil, fun a => ?_⟩
            · rw [h6]; exact List.Pairwise.filter _ hso
            · simp only [List.mem_singleton] at hz; subst hz; exact h _ h4
            · simp only [val_object, h6, h2, LVal.vals]; rfl
            · have := h1 a
              simp only [argw, wts, dw, wt_object]; omega
          | none =>
            obtain ⟨h1, h2⟩ := entryRemove_none e
            simp only
            refine ⟨.object i hu hso h, by simp, ?_, .nil, fun a => ?_⟩
            · simp only [val_object, h2, h1, LVal.vals]; rfl
            · simp only [argw, wts, dw, wt_object, List.count_nil]
  | clear =>
    cases arg with
    | some x => rfl
    | none =>
      cases v with
      | scalar i s => rw [val_scalar]; cases s <;> rfl
      | array i xs =>
        refine ⟨.array i (by simp), by simp, by simp [val_array, Edit.spec, LVal.vals], deadOK_values _, fun a => ?_⟩
        simp only [argw, wts, dw_values, List.count_nil, wt_array]; omega
      | object i ms =>
        refine ⟨.object n (by simp) .nil (by simp), by simp, by simp [val_object, Edit.spec, LVal.vals], fun f hf => ?_, fun a => ?_⟩
        · simp only [List.mem_singleton] at hf; subst hf; exact drops_mapIter _ _
        · have := count_ownsEntries a ms
          simp only [argw, wts, wte, dw, DFrame.frees, List.count_cons, List.count_nil, wt_object, hr, this]; omega

  | rearrange kept ret gone =>
    cases arg with
    | some x => rfl
    | none =>
      cases v with
      | scalar i s => rw [val_scalar]; cases s <;> rfl
      | object i ms => rw [val_object]; rfl
      | array i xs =>
        cases hv with
        | array _ h =>
          simp only [Edit.run, val_array, Edit.spec, Option.map_none, List.length_map, List.isPerm_iff]
          by_cases hp : (kept ++ ret ++ gone).Perm (List.range xs.length)
          · rw [if_pos hp, if_pos hp]
            have hm : ∀ j, j ∈ kept ∨ j ∈ ret ∨ j ∈ gone → j < xs.length := fun j hj => by
              have : j ∈ kept ++ ret ++ gone := by simpa [or_assoc] using hj
              simpa using hp.mem_iff.1 this
            refine ⟨.array i fun z hz => h z (pick_mem hz), fun z hz => h z (pick_mem hz), ?_, deadOK_values _, fun a => ?_⟩
            · rw [val_array, vals_eq, pick_vals fun j hj => hm j (.inl hj), pick_vals fun j hj => hm j (.inr (.inl hj))]
            · have h1 := wts_perm a ((hp.filterMap fun j => xs[j]?).trans (.of_eq (pick_range xs)))
              rw [List.filterMap_append, List.filterMap_append, wts_append, wts_append] at h1
              simp only [argw, dw_values, List.count_nil, wt_array, pick]; omega
          · rw [if_neg hp, if_neg hp]; rfl
  | select fates =>
    cases arg with
    | some x => rfl
    | none =>
      cases v with
      | scalar i s => rw [val_scalar]; cases s <;> rfl
      | array i xs => rw [val_array]; rfl
      | object i ms =>
        cases hv with
        | object _ hu hso h =>
          simp only [Edit.run, val_object, Edit.spec, Option.map_none, List.length_map]
          by_cases hl : fates.length = ms.length
          · rw [if_pos hl, if_pos hl]
            refine ⟨.object i (fun m hm => hu m (entriesOf_mem hm)) (entriesOf_sorted hso) (fun m hm => h m (entriesOf_mem hm)), fun z hz => ?_, ?_, fun f hf => ?_, fun a => ?_⟩
            · obtain ⟨m, hm, rfl⟩ := List.mem_map.1 hz; exact h m (entriesOf_mem hm)
            · rw [val_object, vals_eq, entriesOf_vals, entriesOf_give]
            · obtain ⟨m, -, rfl⟩ := List.mem_map.1 hf; exact deadOK_value _
            · have := entriesOf_count a fates ms hl
              have g1 := wte_parts a (entriesOf .give fates ms)
              have g2 := wte_parts a (entriesOf .gone fates ms)
              have e : dw a ((entriesOf .gone fates ms).map fun m => .value m.2.2.node) = wts a ((entriesOf .gone fates ms).map fun m => m.2.2) := by
                rw [← dw_values, List.map_map]; rfl
              simp only [argw, wt_object, e, List.map_append, List.count_append]
              omega
          · rw [if_neg hl, if_neg hl]; rfl

/-! ## Access paths -/

theorem get_ok : ∀ (p : List Loc) {v : LVal}, v.OK → (LVal.get p v).map LVal.val = Val.get p v.val ∧ ∀ x, LVal.get p v = some x → x.OK
  | [], v, h => ⟨by simp [LVal.get, Val.get], fun x e => by simp [LVal.get] at e; subst e; exact h⟩
  | .idx i :: p, v, h => by
    cases v with
    | scalar j s => rw [val_scalar]; exact ⟨by cases s <;> rfl, fun x e => by cases e⟩
    | object j ms => rw [val_object]; exact ⟨rfl, fun x e => by cases e⟩
    | array j xs =>
      cases h with
      | array _ h =>
        rw [val_array]
        simp only [LVal.get, Val.get, List.getElem?_map]
        cases e : xs[i]? with
        | none => exact ⟨rfl, fun x e => by cases e⟩
        | some x => exact get_ok p (h x (List.mem_of_getElem? e))
  | .key k :: p, v, h => by
    cases v with
    | scalar j s => rw [val_scalar]; exact ⟨by cases s <;> rfl, fun x e => by cases e⟩
    | array j ms => rw [val_array]; exact ⟨rfl, fun x e => by cases e⟩
    | object j ms =>
      cases h with
      | object _ hu hso h =>
        rw [val_object]
        simp only [LVal.get, Val.get]
        rw [lookup_map (fun m : Nat × LVal => m.2.val)]
        cases e : entryFind k ms with
        | none => rw [(entryFind_none e).2]; exact ⟨rfl, fun x e => by cases e⟩
        | some r =>
          obtain ⟨i, l, x⟩ := r
          obtain ⟨h1, h2⟩ := entryFind_some e
          rw [h2]
          exact get_ok p (h _ (List.mem_of_getElem? h1))

theorem modify_good {f : LVal → Option (LVal × OpResult)} {g : Val → Option (Val × List Val)} {n : Nat} {inn : Nat → Nat}
    (hf : ∀ v : LVal, v.OK → EditGood n inn v (f v) (g v.val)) : ∀ (p : List Loc) {v : LVal}, v.OK → EditGood n inn v (v.modify f p) (v.val.modify g p)
  | [], v, h => by rw [LVal.modify, Val.modify]; exact hf v h
  | .idx i :: p, v, h => by
    cases v with
    | scalar j s => rw [val_scalar]; cases s <;> rfl
    | object j ms => rw [val_object]; rfl
    | array j xs =>
      cases h with
      | array _ h =>
        rw [val_array]
        simp only [LVal.modify, Val.modify, List.getElem?_map]
        cases e : xs[i]? with
        | none => rfl
        | some x =>
          have hx := h x (List.mem_of_getElem? e)
          have ih := modify_good hf p hx
          simp only [Option.map_some, Option.bind_some]
          cases e' : LVal.modify f p x with
          | none =>
            rw [e'] at ih
            simp only [EditGood] at ih
            rw [ih]; rfl
          | some r =>
            obtain ⟨y, o⟩ := r
            rw [e'] at ih
            obtain ⟨h1, h2, h3, h4, h5⟩ := ih
            rw [h3]
            refine ⟨.array j fun z hz => ?_, h2, by simp [val_array, List.map_set], h4, fun a => ?_⟩
            · rcases List.mem_or_eq_of_mem_set hz with hz | rfl
              · exact h z hz
              · exact h1
            · have := h5 a
              have := wts_set a y e
              simp only [wt_array]; omega
  | .key k :: p, v, h => by
    cases v with
    | scalar j s => rw [val_scalar]; cases s <;> rfl
    | array j xs => rw [val_array]; rfl
    | object j ms =>
      cases h with
      | object _ hu hso h =>
        rw [val_object]
        simp only [LVal.modify, Val.modify]
        rw [lookup_map (fun m : Nat × LVal => m.2.val)]
        cases e : entryFind k ms with
        | none => rw [(entryFind_none e).2]; rfl
        | some r =>
          obtain ⟨i, l, x⟩ := r
          obtain ⟨hm, hl⟩ := entryFind_some e
          have hx := h _ (List.mem_of_getElem? hm)
          have ih := modify_good hf p hx
          rw [hl]
          simp only [Option.map_some, Option.bind_some] at ih ⊢
          cases e' : LVal.modify f p x with
          | none =>
            rw [e'] at ih
            simp only [EditGood] at ih
            rw [ih]; rfl
          | some r =>
            obtain ⟨y, o⟩ := r
            rw [e'] at ih
            obtain ⟨h1, h2, h3, h4, h5⟩ := ih
            rw [h3]
            have hset := set_withKey (l, y) hso hm
            refine ⟨.object j (fun z hz => ?_) ?_ (fun z hz => ?_), h2, ?_, h4, fun a => ?_⟩
            · rcases List.mem_or_eq_of_mem_set hz with hz | rfl
              · exact hu z hz
              · exact hu (k, l, x) (List.mem_of_getElem? hm)
            · simp only; rw [hset]; exact withKey_sorted k _ hso
            · rcases List.mem_or_eq_of_mem_set hz with hz | rfl
              · exact h z hz
              · exact h1
            · simp only [val_object, hset, withKey_map (fun m : Nat × LVal => m.2.val) k (l, y) ms, Option.map_some]
            · have := h5 a
              have := wte_set a (k' := k) (l' := l) y hm
              simp only [wt_object]; omega

end Miniserde
