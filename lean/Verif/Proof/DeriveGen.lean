import Verif.Model.DeriveGen
import Verif.Proof.Derive

/-!
# The generated code behaves as the builders of the model
-/

namespace Miniserde

theorem Rec.get_mem {α : Type} : ∀ {r : Rec α} {f : RIdent} {x : α}, (r.map Prod.fst).Nodup → (f, x) ∈ r → Rec.get r f = some x
  | (g, y) :: r, f, x, hd, hm => by
    rw [List.map_cons, List.nodup_cons] at hd
    unfold Rec.get
    rcases List.mem_cons.1 hm with h | h
    · cases h; simp
    · have hne : g ≠ f := by
        rintro rfl
        exact hd.1 (List.mem_map.2 ⟨_, h, rfl⟩)
      rw [List.find?_cons_of_neg (by simpa using hne)]
      exact Rec.get_mem hd.2 h

theorem Rec.get_zip {α : Type} {is : List RIdent} {xs : List α} (hd : is.Nodup) (hl : is.length = xs.length) {j : Nat} {f : RIdent}
    (hf : is[j]? = some f) : Rec.get (is.zip xs) f = xs[j]? := by
  obtain ⟨hj, hf'⟩ := List.getElem?_eq_some_iff.1 hf
  have hj' : j < xs.length := hl ▸ hj
  rw [List.getElem?_eq_getElem hj']
  refine Rec.get_mem ?_ ?_
  · rw [List.map_fst_zip (Nat.le_of_eq hl)]; exact hd
  · refine List.mem_iff_getElem.2 ⟨j, by simp [List.length_zip]; omega, ?_⟩
    rw [List.getElem_zip, hf']

theorem Rec.set_not_mem {α : Type} : ∀ {r : Rec α} {f : RIdent} {x : α}, f ∉ r.map Prod.fst → Rec.set r f x = r
  | [], _, _, _ => rfl
  | (g, y) :: r, f, x, h => by
    rw [List.map_cons, List.mem_cons, not_or] at h
    have := Rec.set_not_mem (x := x) h.2
    unfold Rec.set at this ⊢
    rw [List.map_cons, this, if_neg (by simpa using fun e : g = f => h.1 e.symm)]

theorem Rec.set_zip {α : Type} : ∀ {is : List RIdent} {xs : List α} (_ : is.Nodup) (_ : is.length = xs.length) {j : Nat} {f : RIdent}
    (_ : is[j]? = some f) (x : α), Rec.set (is.zip xs) f x = is.zip (xs.set j x)
  | [], _, _, _, _, _, hf, _ => by simp at hf
  | g :: is, [], _, hl, _, _, _, _ => by simp at hl
  | g :: is, y :: xs, hd, hl, 0, f, hf, x => by
    simp at hf
    subst hf
    have h1 : Rec.set (is.zip xs) g x = is.zip xs := Rec.set_not_mem (by
      rw [List.map_fst_zip (by simp at hl; omega)]
      exact (List.nodup_cons.1 hd).1)
    unfold Rec.set at h1 ⊢
    simp only [List.zip_cons_cons, List.map_cons, List.set_cons_zero, h1]
    simp
  | g :: is, y :: xs, hd, hl, j + 1, f, hf, x => by
    rw [List.getElem?_cons_succ] at hf
    have h1 := Rec.set_zip (List.nodup_cons.1 hd).2 (by simpa using hl : is.length = xs.length) hf x
    have hne : g ≠ f := by
      rintro rfl
      exact (List.nodup_cons.1 hd).1 (List.mem_of_getElem? hf)
    unfold Rec.set at h1 ⊢
    rw [List.zip_cons_cons, List.map_cons, h1, if_neg (by simpa using hne)]
    rfl

theorem Rec.get_append_right {α : Type} {r s : Rec α} {f : RIdent} (h : f ∉ r.map Prod.fst) : Rec.get (r ++ s) f = Rec.get s f := by
  unfold Rec.get
  rw [List.find?_append, List.find?_eq_none.2 ?_, Option.none_or]
  intro p hp he
  simp only [beq_iff_eq] at he
  exact h (List.mem_map.2 ⟨p, hp, he⟩)

theorem Rec.set_append {α : Type} (r s : Rec α) (f : RIdent) (x : α) : Rec.set (r ++ s) f x = Rec.set r f x ++ Rec.set s f x :=
  List.map_append

theorem takeFields_length : ∀ fs : List (Option Val), (takeFields fs).2.length = fs.length
  | [] => rfl
  | none :: _ => rfl
  | some _ :: fs => by simp [takeFields, takeFields_length fs]

theorem takeFields_vals_length : ∀ {fs : List (Option Val)} {vs : List Val}, (takeFields fs).1 = some vs → vs.length = fs.length
  | [], vs, h => by cases h; rfl
  | none :: _, vs, h => by cases h
  | some _ :: fs, vs, h => by
    simp only [takeFields, Option.map_eq_some_iff] at h
    obtain ⟨ws, hw, rfl⟩ := h
    simp [takeFields_vals_length hw]

/-- Taking the remaining fields; `s0`: those already taken. -/
theorem genTakes_eq : ∀ {is : List RIdent} {fs : List (Option Val)} (s0 : Rec (Option Val)) (L : Rec Val), is.Nodup → is.length = fs.length →
    (∀ f ∈ is, f ∉ s0.map Prod.fst) →
    genTakes is (s0 ++ is.zip fs) L =
      some (s0 ++ is.zip (takeFields fs).2, (takeFields fs).1.map fun vs => (is.zip vs).reverse ++ L)
  | [], fs, s0, L, _, hl, _ => by
    have : fs = [] := by cases fs <;> simp_all
    subst this
    simp [genTakes, takeFields]
  | f :: is, [], _, _, _, hl, _ => by simp at hl
  | f :: is, none :: fs, s0, L, hd, hl, hs => by
    rw [genTakes, List.zip_cons_cons, Rec.get_append_right (hs f List.mem_cons_self)]
    simp [Rec.get, takeFields]
  | f :: is, some v :: fs, s0, L, hd, hl, hs => by
    have hd' := List.nodup_cons.1 hd
    have hl' : is.length = fs.length := by simpa using hl
    rw [genTakes, List.zip_cons_cons, Rec.get_append_right (hs f List.mem_cons_self)]
    simp only [Rec.get, List.find?_cons, beq_self_eq_true, Option.map_some]
    have e : Rec.set (s0 ++ (f, some v) :: is.zip fs) f none = (s0 ++ [(f, none)]) ++ is.zip fs := by
      rw [Rec.set_append, Rec.set_not_mem (hs f List.mem_cons_self), List.append_assoc]
      congr 1
      have h1 : Rec.set (is.zip fs) f none = is.zip fs := Rec.set_not_mem (by rw [List.map_fst_zip (Nat.le_of_eq hl')]; exact hd'.1)
      unfold Rec.set at h1 ⊢
      rw [List.map_cons, h1]
      simp
    rw [e, genTakes_eq (s0 ++ [(f, none)]) ((f, v) :: L) hd'.2 hl' ?_]
    · simp only [takeFields, List.append_assoc, List.cons_append, List.nil_append, List.zip_cons_cons]
      congr 2
      cases (takeFields fs).1 <;> simp
    · intro g hg hm
      rw [List.map_append, List.mem_append] at hm
      rcases hm with hm | hm
      · exact hs g (List.mem_cons_of_mem _ hg) hm
      · simp at hm
        subst hm
        exact hd'.1 hg

theorem genLiteral_eq : ∀ {is : List RIdent} {vs : List Val} {L : Rec Val}, is.length = vs.length →
    (∀ p ∈ is.zip vs, Rec.get L p.1 = some p.2) → genLiteral is L = some (is.zip vs)
  | [], vs, L, _, _ => by simp [genLiteral]
  | f :: is, [], L, hl, _ => by simp at hl
  | f :: is, v :: vs, L, hl, h => by
    rw [genLiteral, h (f, v) (by simp), genLiteral_eq (by simpa using hl) fun p hp => h p (by simp [hp])]
    rfl

theorem genFinish_eq {is : List RIdent} {fs : List (Option Val)} (hd : is.Nodup) (hl : is.length = fs.length) :
    genFinish is is (is.zip fs) =
      some (match (takeFields fs).1 with | some vs => .ok (is.zip vs) | none => .err, is.zip (takeFields fs).2) := by
  have h := genTakes_eq [] [] hd hl (by simp)
  rw [List.nil_append, List.nil_append] at h
  unfold genFinish
  rw [h]
  cases hv : (takeFields fs).1 with
  | none => rfl
  | some vs =>
    have hlv := takeFields_vals_length hv
    have : genLiteral is ((is.zip vs).reverse ++ []) = some (is.zip vs) := by
      refine genLiteral_eq (hl.trans hlv.symm) fun p hp => ?_
      refine Rec.get_mem ?_ ?_
      · rw [List.append_nil, List.map_reverse, (List.reverse_perm _).nodup_iff, List.map_fst_zip (by omega)]
        exact hd
      · simpa using hp
    simp only [Option.map_some, this]

theorem coreFinish_eq (E : Env) (i : Nat) (fs : List (Option Val)) :
    (Core.strct i fs).finish E =
      some (match (takeFields fs).1 with | some vs => .ok (.strct vs) | none => .err, .strct i (takeFields fs).2) := by
  rw [Core.finish]
  rcases takeFields fs with ⟨_ | _, _⟩ <;> rfl

/-- `key`. -/
theorem genKey_eq {E : Env} {i : Nat} {is : List RIdent} {ns : List Bytes} {ts : List Ty} {keyArms : List (Bytes × RIdent)} (hd : is.Nodup)
    (hn : ns.length = is.length) (ht : is.length = ts.length) (hE : E.fields i = ns.zip ts)
    (hk : ∀ k, strMatch keyArms k = (ns.findIdx? (· == k)).bind fun j => is[j]?) (k : Bytes) (fs : List (Option Val)) :
    (genKey (is.zip ts) keyArms k = some none ∧ (Core.strct i fs).child E (some k) = some (.ok none, .strct i fs)) ∨
    ∃ j f t, is[j]? = some f ∧ genKey (is.zip ts) keyArms k = some (some (f, t)) ∧
      (Core.strct i fs).child E (some k) = some (.ok (some (j, t)), .strct i fs) := by
  have hidx : (E.fields i).findIdx? (fun f => f.1 == k) = ns.findIdx? (· == k) := by
    have : (E.fields i).map Prod.fst = ns := by rw [hE, List.map_fst_zip (by omega)]
    rw [← this, List.findIdx?_map]
    rfl
  rw [Core.child, hidx]
  unfold genKey
  rw [hk]
  cases h : ns.findIdx? (· == k) with
  | none => exact .inl ⟨rfl, rfl⟩
  | some j =>
    have hj : j < ns.length := by
      have := List.findIdx?_eq_some_iff_findIdx_eq.1 h
      exact this.1
    have h1 : is[j]? = some is[j] := List.getElem?_eq_getElem (hn ▸ hj)
    have hjt : j < ts.length := by omega
    refine .inr ⟨j, is[j], ts[j], h1, ?_, ?_⟩
    · simp only [Option.bind_some, h1, Rec.get_zip hd ht h1, List.getElem?_eq_getElem hjt]
    · have : (E.fields i)[j]? = some (ns[j], ts[j]) := by
        rw [hE, List.getElem?_eq_getElem (by rw [List.length_zip]; omega), List.getElem_zip]
      simp only [this]

theorem genRun_eq {E : Env} {i : Nat} {is : List RIdent} {ns : List Bytes} {ts : List Ty} {keyArms : List (Bytes × RIdent)} (hd : is.Nodup)
    (hn : ns.length = is.length) (ht : is.length = ts.length) (hE : E.fields i = ns.zip ts)
    (hk : ∀ k, strMatch keyArms k = (ns.findIdx? (· == k)).bind fun j => is[j]?) :
    ∀ (xs : List GenStep) (fs : List (Option Val)), is.length = fs.length →
    ∃ tys, (∃ vs : List Val, vs.length = is.length ∧ genRun (is.zip ts) keyArms is is xs (is.zip fs) = some (tys, .ok (is.zip vs)) ∧
        coreRun E xs (.strct i fs) = some (tys, .ok (.strct vs))) ∨
      (genRun (is.zip ts) keyArms is is xs (is.zip fs) = some (tys, .err) ∧ coreRun E xs (.strct i fs) = some (tys, .err))
  | [], fs, hl => by
    refine ⟨[], ?_⟩
    rw [genRun, coreRun, genFinish_eq hd hl, coreFinish_eq]
    cases hv : (takeFields fs).1 with
    | none => exact .inr ⟨rfl, rfl⟩
    | some vs => exact .inl ⟨vs, (takeFields_vals_length hv).trans hl.symm, rfl, rfl⟩
  | x :: xs, fs, hl => by
    rw [genRun, coreRun]
    rcases genKey_eq hd hn ht hE hk x.key fs with ⟨h1, h2⟩ | ⟨j, f, t, hf, h1, h2⟩
    · obtain ⟨tys, ⟨vs, hv, e1, e2⟩ | ⟨e1, e2⟩⟩ := genRun_eq hd hn ht hE hk xs fs hl
      · exact ⟨none :: tys, .inl ⟨vs, hv, by simp only [h1, e1, Option.map_some], by simp only [h2, e2, Option.map_some]⟩⟩
      · exact ⟨none :: tys, .inr ⟨by simp only [h1, e1, Option.map_some], by simp only [h2, e2, Option.map_some]⟩⟩
    · rw [h1, h2]
      have key : ∃ fs' : List (Option Val), is.length = fs'.length ∧
          Rec.write (is.zip fs) f x.write = is.zip fs' ∧
          (Core.strct i fs).write j x.write = .strct i fs' := by
        cases x.write with
        | none => exact ⟨fs, hl, rfl, rfl⟩
        | some c => exact ⟨fs.set j c, by simpa using hl, Rec.set_zip hd hl hf c, rfl⟩
      obtain ⟨fs', hl', e3, e4⟩ := key
      obtain ⟨tys, ⟨vs, hv, e1, e2⟩ | ⟨e1, e2⟩⟩ := genRun_eq hd hn ht hE hk xs fs' hl'
      · exact ⟨some t :: tys, .inl ⟨vs, hv, by simp only [e3, e1, Option.map_some], by simp only [e4, e2, Option.map_some]⟩⟩
      · exact ⟨some t :: tys, .inr ⟨by simp only [e3, e1, Option.map_some], by simp only [e4, e2, Option.map_some]⟩⟩

/-- `next`. -/
theorem genNexts_eq {E : Env} {i : Nat} {is : List RIdent} {ns : List Bytes} {ts : List Ty} {vs : List Val}
    {nextArms : List (Nat × Bytes × RIdent)} (hd : is.Nodup)
    (hn : ns.length = is.length) (ht : is.length = ts.length) (hv : is.length = vs.length) (hE : E.fields i = ns.zip ts)
    (hk : ∀ n, stateMatch nextArms n = (ns.zip is)[n]?) (q : Nat) :
    ∀ (n : Nat) (state : Nat) (h : SHeap), h.cells q = some (.strct i vs state) →
    genNexts nextArms (is.zip (ts.zip vs)) n state = libNexts E q n h
  | 0, _, _, _ => rfl
  | n + 1, state, h, hc => by
    rw [genNexts, libNexts]
    have h1 : (genNext nextArms (is.zip (ts.zip vs)) state).1 = (mapNextLib E q h).1 ∧
        (genNext nextArms (is.zip (ts.zip vs)) state).2 = state + 1 ∧
        (mapNextLib E q h).2 = h.set q (.strct i vs (state + 1)) := by
      unfold genNext mapNextLib
      rw [hc, hk]
      simp only [hE]
      by_cases hlt : state < is.length
      · have a1 : (ns.zip is)[state]? = some (ns[state], is[state]) := by
          rw [List.getElem?_eq_getElem (by rw [List.length_zip]; omega), List.getElem_zip]
        have a2 : (ns.zip ts)[state]? = some (ns[state], ts[state]) := by
          rw [List.getElem?_eq_getElem (by rw [List.length_zip]; omega), List.getElem_zip]
        have a3 : vs[state]? = some vs[state] := List.getElem?_eq_getElem (by omega)
        have a4 : Rec.get (is.zip (ts.zip vs)) is[state] = some (ts[state], vs[state]) := by
          rw [Rec.get_zip hd (by rw [List.length_zip]; omega) (List.getElem?_eq_getElem hlt),
            List.getElem?_eq_getElem (by rw [List.length_zip]; omega), List.getElem_zip]
        simp only [a1, a2, a3, a4, and_self]
      · have a1 : (ns.zip is)[state]? = none := List.getElem?_eq_none (by rw [List.length_zip]; omega)
        have a2 : (ns.zip ts)[state]? = none := List.getElem?_eq_none (by rw [List.length_zip]; omega)
        simp only [a1, a2, and_self]
    rw [h1.1, h1.2.1, h1.2.2]
    rw [genNexts_eq hd hn ht hv hE hk q n (state + 1) (h.set q (.strct i vs (state + 1))) (by simp [SHeap.set])]

end Miniserde
