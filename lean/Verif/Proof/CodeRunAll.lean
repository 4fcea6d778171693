import Verif.Proof.CodeRun

set_option linter.unusedSimpArgs false

namespace Miniserde.Code

open Expand (Src Ns Lib Meaning)

section

variable {α γ : Type} {dflt : α → Option γ}

theorem finalOf_ident {fs : List (Field α)} {f : Field α} (s : CStep γ) (ss : List (CStep γ)) (v : Option γ) :
    finalOf fs f (s :: ss) v = finalOf fs f ss (match fieldFor fs s.key with
      | .some g => if g.ident = f.ident then s.store.getD v else v
      | .none => v) := rfl

theorem values {fs : List (Field α)} {s : Bytes → Option γ} (h : ∀ f ∈ fs, ∃ v, s f.ident = some v) :
    ∃ vs : List γ, fs.map (fun f => s f.ident) = vs.map some ∧ ∃ w : Bytes → V γ, (∀ f ∈ fs, ∃ u, s f.ident = some u ∧ w f.ident = .user u) ∧
      (fs.map fun f => (f.ident, w f.ident)) = (fs.map Field.ident).zip (vs.map V.user) := by
  refine ⟨fs.filterMap fun f => s f.ident, ?_, fun b => (match s b with
    | some u => .user u
    | none => .unit), fun f hf => ?_, ?_⟩
  · induction fs with
    | nil => rfl
    | cons f fs ih =>
      obtain ⟨v, e⟩ := h f List.mem_cons_self
      rw [List.map_cons, List.filterMap_cons, e, List.map_cons, ih fun g hg => h g (List.mem_cons_of_mem _ hg)]
  · obtain ⟨v, e⟩ := h f hf
    exact ⟨v, e, by simp only [e]⟩
  · induction fs with
    | nil => rfl
    | cons f fs ih =>
      obtain ⟨v, e⟩ := h f List.mem_cons_self
      rw [List.map_cons, List.filterMap_cons, e, List.map_cons, List.map_cons, List.zip_cons_cons, ih fun g hg => h g (List.mem_cons_of_mem _ hg)]
      simp only [e]

theorem invoke_finish {fs : List (Field α)} {m : Mem γ} :
    invoke (deStruct fs) dflt .deMap (str! "finish") (.some (.ref ⟨1, [], .none⟩)) .none m = (finishFn fs).call (deStruct fs) dflt (.some (.ref ⟨1, [], .none⟩)) .none m := rfl

theorem invoke_key {fs : List (Field α)} {m : Mem γ} {k : Bytes} :
    invoke (deStruct fs) dflt .deMap (str! "key") (.some (.ref ⟨1, [], .none⟩)) (.some (.str k)) m = (keyFn fs).call (deStruct fs) dflt (.some (.ref ⟨1, [], .none⟩)) (.some (.str k)) m := rfl

/-- The contents of the builder after a step. -/
def stepS (fs : List (Field α)) (st : CStep γ) (s : Bytes → Option γ) : Bytes → Option γ :=
  match fieldFor fs st.key with
  | some g => upd s g.ident (st.store.getD (s g.ident))
  | none => s

theorem upd_same (s : Bytes → Option γ) (f : Bytes) : upd s f (s f) = s := by
  funext g
  simp only [upd]
  split
  · rename_i e; rw [e]
  · rfl

theorem final_step {fs : List (Field α)} (f : Field α) (st : CStep γ) (ss : List (CStep γ)) (s : Bytes → Option γ) :
    finalOf fs f (st :: ss) (s f.ident) = finalOf fs f ss (stepS fs st s f.ident) := by
  rw [finalOf_ident]
  unfold stepS
  cases fieldFor fs st.key with
  | none => rfl
  | some g =>
    simp only [upd]
    by_cases e : g.ident = f.ident
    · rw [if_pos e, if_pos e.symm, e]
    · rw [if_neg e, if_neg (Ne.symm e)]

theorem run_keys {fs : List (Field α)} (hd : (fs.map Field.ident).Nodup) (ho : str! "__out" ∉ fs.map Field.ident) : ∀ (steps : List (CStep γ)) (s : Bytes → Option γ) (m : Mem γ),
    m 1 = some (stV fs s) → (∃ o, m 0 = some o) →
    ∃ r m', runKeys (deStruct fs) dflt steps m = some (steps.map (fun s => (fieldFor fs s.key).map fun f => ⟨1, [f.ident], none⟩), r, m') ∧
      ((∃ vs : List γ, fs.map (fun f => finalOf fs f steps (s f.ident)) = vs.map some ∧ r = .ok .unit ∧ m' 0 = some (.some (structV fs vs)) ∧ m' 1 = some (stV fs fun _ => none)) ∨
       ((∃ f ∈ fs, finalOf fs f steps (s f.ident) = none) ∧ r = .err .error ∧ m' 0 = m 0)) := by
  intro steps
  induction steps with
  | nil =>
    intro s m hm h0
    rw [runKeys, invoke_finish]
    by_cases h : ∃ f ∈ fs, s f.ident = none
    · obtain ⟨s', e⟩ := call_finish_err (dflt := dflt) hd ho hm h
      rw [e]
      exact ⟨.err .error, m.set 1 (stV fs s'), rfl, .inr ⟨h, rfl, set_other _ (by decide) _⟩⟩
    · have h' : ∀ f ∈ fs, ∃ v, s f.ident = some v := fun f hf => by
        cases e : s f.ident with
        | some v => exact ⟨v, rfl⟩
        | none => exact absurd ⟨f, hf, e⟩ h
      obtain ⟨vs, h1, w, h2, h3⟩ := values h'
      rw [call_finish_ok hd ho hm h0 w h2]
      refine ⟨.ok .unit, _, rfl, .inl ⟨vs, h1, rfl, ?_, ?_⟩⟩
      · rw [set_same, h3]
        rfl
      · rw [set_other _ (by decide), set_same]
  | cons st ss ih =>
    intro s m hm h0
    rw [runKeys, invoke_key, call_key]
    simp only [final_step]
    have hs : stepS fs st s = match fieldFor fs st.key with
      | some g => upd s g.ident (st.store.getD (s g.ident))
      | none => s := rfl
    cases e : fieldFor fs st.key with
    | none =>
      rw [e] at hs
      simp only [] at hs ⊢
      obtain ⟨r, m', h1, h2⟩ := ih s m hm h0
      rw [h1, hs]
      refine ⟨r, m', ?_, h2⟩
      simp only [Option.map_some, List.map_cons, e, Option.map_none]
    | some g =>
      rw [e] at hs
      simp only [] at hs ⊢
      have hg : g.ident ∈ fs.map Field.ident := List.mem_map_of_mem (List.mem_of_find?_eq_some e)
      have : ∃ m1, st.apply ⟨1, [g.ident], none⟩ m = some m1 ∧ m1 1 = some (stV fs (stepS fs st s)) ∧ m1 0 = m 0 := by
        unfold CStep.apply
        cases e' : st.store with
        | none =>
          refine ⟨m, rfl, ?_, rfl⟩
          rw [hs, e', Option.getD_none, upd_same, hm]
        | some c =>
          refine ⟨_, write_field ho hg hm c, ?_, set_other _ (by decide) _⟩
          rw [set_same, hs, e', Option.getD_some]
      obtain ⟨m1, a1, a2, a3⟩ := this
      obtain ⟨r, m', h1, h2⟩ := ih _ m1 a2 (a3 ▸ h0)
      rw [a1, Option.bind_some, h1]
      rw [a3] at h2
      refine ⟨r, m', ?_, h2⟩
      simp only [Option.map_some, List.map_cons, e]

theorem run_de {fs : List (Field α)} (hd : (fs.map Field.ident).Nodup) (ho : str! "__out" ∉ fs.map Field.ident) (out : V γ) (steps : List (CStep γ)) :
    ∃ r m, runDe (deStruct fs) dflt out steps = some (steps.map (fun s => (fieldFor fs s.key).map fun f => ⟨1, [f.ident], none⟩), r, m) ∧
      ((∃ vs : List γ, fs.map (fun f => finalOf fs f steps (dflt f.ty)) = vs.map some ∧ r = .ok .unit ∧ m 0 = some (.some (structV fs vs)) ∧ m 1 = some (stV fs fun _ => none)) ∨
       ((∃ f ∈ fs, finalOf fs f steps (dflt f.ty) = none) ∧ r = .err .error ∧ m 0 = some out)) := by
  have h1 : ∀ m : Mem γ, invoke (deStruct fs) dflt .deserialize (str! "begin") .none (.some (.ref ⟨0, [], .none⟩)) m = some (.returns (.ref ⟨0, [], some (str! "__Visitor")⟩) m) := fun m => call_begin (fs := fs) (dflt := dflt)
  have h2 : ∀ m : Mem γ, invoke (deStruct fs) dflt .visitor (str! "map") (.some (.ref ⟨0, [], some (str! "__Visitor")⟩)) .none m = _ := fun m => call_map (dflt := dflt) hd
  have hs : ∃ s : Bytes → Option γ, ∀ f ∈ fs, s f.ident = dflt f.ty := by
    refine ⟨fun b => (fs.find? fun f => f.ident == b).bind fun f => dflt f.ty, fun f hf => ?_⟩
    cases e : fs.find? fun g => g.ident == f.ident with
    | none =>
      have := List.find?_eq_none.1 e f hf
      simp at this
    | some g =>
      have h1 := List.find?_some e
      rw [beq_iff_eq] at h1
      simp only [e, Option.bind_some]
      rw [nodup_inj hd (List.mem_of_find?_eq_some e) hf h1]
  obtain ⟨s, hs⟩ := hs
  have hst : V.strct (.helper (str! "__State")) ((fs.map fun f => (f.ident, V.ofOption (dflt f.ty))) ++ [(str! "__out", .ref ⟨0, [], .none⟩)]) = stV fs s := by
    unfold stV
    congr 2
    exact List.map_congr_left fun f hf => by rw [hs f hf]
  rw [runDe, h1]
  simp only [h2, hst]
  obtain ⟨r, m, a, b⟩ := run_keys (dflt := dflt) hd ho steps s ((Mem.set (fun _ => none) 0 out).set 1 (stV fs s)) (set_same ..) ⟨out, rfl⟩
  refine ⟨r, m, a, ?_⟩
  have he : ∀ f ∈ fs, finalOf fs f steps (s f.ident) = finalOf fs f steps (dflt f.ty) := fun f hf => by rw [hs f hf]
  rcases b with ⟨vs, b1, b2⟩ | ⟨⟨f, hf, b1⟩, b2, b3⟩
  · exact .inl ⟨vs, by rw [← b1]; exact List.map_congr_left fun f hf => (he f hf).symm, b2⟩
  · exact .inr ⟨⟨f, hf, by rw [← he f hf, b1]⟩, b2, b3⟩

/-! ## Serialization -/

/-- The builder of the serializer. -/
def mapV (n : Nat) : V γ := .strct (.helper (str! "__Map")) [(str! "data", .ref ⟨0, [], .none⟩), (str! "state", .num n)]

theorem call_serBegin {fs : List (Field α)} {m : Mem γ} :
    invoke (serStruct fs) dflt .serialize (str! "begin") (.some (.ref ⟨0, [], .none⟩)) .none m = some (.returns (.fragmentMap (.box (mapV 0))) m) := rfl

/-- What `next` returns in state `n`. -/
def nextV (fs : List (Field α)) (n : Nat) : V γ :=
  match fs[n]? with
  | some f => .some (.pair (.borrowed (.str f.wire)) (.ref ⟨0, [f.ident], .none⟩))
  | none => .none

theorem find_nextArms {m : Mem γ} : ∀ (fs : List (Field α)) (k n : Nat),
    (nextArms k fs).find? (fun p => p.1.fits m (V.num (k + n))) =
      fs[n]?.map fun f => (.num (k + n), someOf (.pair (cowBorrowed (.str f.wire)) (.ref false (.get (.get .self (str! "data")) f.ident))))
  | [], k, n => by simp [nextArms]
  | f :: fs, k, 0 => by simp [nextArms, Pat.fits]
  | f :: fs, k, n + 1 => by
    have ih := find_nextArms (m := m) fs (k + 1) n
    rw [show k + 1 + n = k + (n + 1) by omega] at ih
    rw [nextArms, List.find?_cons]
    have : (Pat.num k).fits m (V.num (k + (n + 1))) = false := by simp [Pat.fits]
    simp only [this]
    rw [ih]
    rfl

theorem eval_data {fs : List (Field α)} {n : Nat} {m : Mem γ} (hm : m 1 = some (mapV n)) {f : Bytes} {ty : Option (TyX α)} {vars : List (Bytes × V γ)} :
    (Ex.get (.get .self (str! "data")) f : Ex α).eval (serStruct fs) dflt ty ⟨.some (.ref ⟨1, [], .none⟩), vars⟩ m = some (.next (.loc ⟨0, [f], .none⟩) m) := by
  rw [Ex.eval, eval_get_self]
  have : Place.read m ⟨1, [] ++ [str! "data"], .none⟩ = some (.ref ⟨0, [], .none⟩) := by
    simp only [Place.read, hm, Option.bind_some, mapV]
    rfl
  simp only [andThen, target, this]
  rfl

theorem eval_var {x : Expansion α} {y : Bytes} {ty : Option (TyX α)} {ρ : Locals γ} {m : Mem γ} :
    (var y : Ex α).eval x dflt ty ρ m = ((ρ.vars.find? fun p => p.1 == y).map Prod.snd).bind fun v => done v m := rfl

theorem eval_num {x : Expansion α} {n : Nat} {ty : Option (TyX α)} {ρ : Locals γ} {m : Mem γ} : (Ex.num n : Ex α).eval x dflt ty ρ m = done (.num n) m := by rw [Ex.eval]

theorem call_next {fs : List (Field α)} {m : Mem γ} {n : Nat} (hm : m 1 = some (mapV n)) :
    invoke (serStruct fs) dflt .serMap (str! "next") (.some (.ref ⟨1, [], .none⟩)) .none m = some (.returns (nextV fs n) (m.set 1 (mapV (n + 1)))) := by
  show (nextFn fs).call (serStruct fs) dflt (.some (.ref ⟨1, [], .none⟩)) .none m = _
  have hr : Place.read m ⟨1, [] ++ [str! "state"], .none⟩ = some (.num n) := by
    simp only [Place.read, hm, Option.bind_some, mapV]
    rfl
  have hw : Place.write m ⟨1, [] ++ [str! "state"], .none⟩ (.num (n + 1)) = some (m.set 1 (mapV (n + 1))) := by
    simp only [Place.write, hm, Option.bind_some, mapV]
    rfl
  unfold Fn.call
  simp only [nextFn]
  rw [Ex.eval, eval_get_self]
  simp only [thenVal, andThen, Opnd.toVal, hr]
  rw [Ex.eval, Ex.eval, Ex.eval]
  simp only [eval_var, eval_num, List.find?_cons, beq_self_eq_true, Option.map_some, Option.bind_some, done, thenVal, andThen, Opnd.toVal, eval_get_self, hw]
  rw [Ex.eval]
  simp only [eval_var, List.find?_cons, beq_self_eq_true, Option.map_some, Option.bind_some, done, thenVal, andThen, Opnd.toVal]
  rw [arms_eval, List.find?_append]
  have := find_nextArms (m := m.set 1 (mapV (n + 1))) fs 0 n
  rw [Nat.zero_add] at this
  rw [this]
  unfold nextV
  cases fs[n]? with
  | none => rfl
  | some f =>
    simp only [Option.map_some, Option.some_or, Option.bind_some]
    rw [someOf, Ex.eval, Ex.eval, cowBorrowed, Ex.eval, Ex.eval]
    simp only [done, thenVal, andThen, Opnd.toVal, callV, m_cowBorrowed, Option.bind_some]
    rw [Ex.eval, eval_data (set_same ..)]
    simp only [done, andThen, Opnd.toVal, m_some, Option.bind_some, Option.map_some]

theorem run_nexts {fs : List (Field α)} : ∀ (n k : Nat) (m : Mem γ), m 1 = some (mapV k) →
    runNexts (serStruct fs) dflt n m = some ((List.range n).map (fun i => nextV fs (k + i)), if n = 0 then m else m.set 1 (mapV (k + n)))
  | 0, k, m, hm => rfl
  | n + 1, k, m, hm => by
    rw [runNexts, call_next hm]
    simp only []
    rw [run_nexts n (k + 1) _ (set_same ..), List.range_succ_eq_map, List.map_cons, List.map_map]
    simp only [Option.map_some, Nat.add_zero, Nat.add_one_ne_zero, if_false]
    congr 2
    · congr 1
      exact List.map_congr_left fun i _ => by simp only [Function.comp_apply]; congr 1; omega
    · split
      · rename_i e; rw [e]
      · rw [set_set]; congr 2; omega

/-! ## Enums -/

/-- The variant that a name is for. -/
theorem call_string {vs : List Variant} {m : Mem γ} {o : V γ} (hm : m 0 = some o) {s : Bytes} :
    invoke (deEnum vs : Expansion α) dflt .visitor (str! "string") (.some (.ref ⟨0, [], some (str! "__Visitor")⟩)) (.some (.str s)) m =
      match vs.find? fun v => v.wire == s with
      | some v => some (.returns (.ok .unit) (m.set 0 (.some (.variant v.ident))))
      | none => some (.returns (.err .error) m) := by
  show (stringFn vs : Fn α).call (deEnum vs) dflt (.some (.ref ⟨0, [], some (str! "__Visitor")⟩)) (.some (.str s)) m = _
  have hb : (stringFn vs : Fn α).body.eval (deEnum vs) dflt .none ⟨.some (.ref ⟨0, [], some (str! "__Visitor")⟩), [(str! "s", .str s)]⟩ m =
      match vs.find? fun v => v.wire == s with
      | some v => some (.next (.val (.ok .unit)) (m.set 0 (.some (.variant v.ident))))
      | none => some (.ret (.err .error) m) := by
    simp only [stringFn]
    rw [Ex.eval, Ex.eval, var, Ex.eval]
    simp only [pathV, m_var, List.find?_cons, beq_self_eq_true, Option.map_some, Option.bind_some, done, thenVal, andThen, Opnd.toVal]
    rw [arms_eval, List.find?_append, List.find?_map]
    have : ((fun p : Pat × Ex α => p.1.fits m (V.str s)) ∘ fun v : Variant => (Pat.str v.wire, Ex.path (.variant v.ident))) = fun v : Variant => v.wire == s := rfl
    rw [this]
    cases vs.find? fun v => v.wire == s with
    | none => rfl
    | some v =>
      simp only [Option.map_some, Option.some_or, Option.bind_some]
      rw [Ex.eval]
      simp only [pathV, m_variant, Option.bind_some, done, thenVal, andThen, Opnd.toVal]
      rw [Ex.eval, Ex.eval, someOf, Ex.eval]
      simp only [eval_var, List.find?_cons, beq_self_eq_true, Option.map_some, Option.bind_some, done, thenVal, andThen, Opnd.toVal, callV, m_some]
      have hp : (Ex.get .self (str! "__out") : Ex α).eval (deEnum vs) dflt .none ⟨.some (.ref ⟨0, [], some (str! "__Visitor")⟩), [(str! "value", .variant v.ident), (str! "s", .str s)]⟩ m =
        some (.next (.loc ⟨0, [], .none⟩) m) := rfl
      rw [hp]
      simp only [Place.write, hm, Option.bind_some, writeAt, Option.map_some]
      rfl
  unfold Fn.call
  rw [show (stringFn vs : Fn α).param = some (str! "s", strRef) from rfl]
  simp only [hb]
  cases vs.find? fun v => v.wire == s with
  | none => rfl
  | some v => rfl

theorem call_enumBegin {vs : List Variant} {m : Mem γ} {u : Bytes} (hm : m 0 = some (.variant u)) :
    invoke (serEnum vs : Expansion α) dflt .serialize (str! "begin") (.some (.ref ⟨0, [], .none⟩)) .none m =
      (vs.find? fun v => v.ident == u).map fun v => .returns (.fragmentStr (.borrowed (.str v.wire))) m := by
  show (serEnumFn vs : Fn α).call (serEnum vs) dflt (.some (.ref ⟨0, [], .none⟩)) .none m = _
  unfold Fn.call
  simp only [serEnumFn]
  rw [Ex.eval, Ex.eval]
  simp only [Option.bind_some, done, thenVal, andThen, Opnd.toVal]
  rw [arms_eval, List.find?_map]
  have hr : Place.read m ⟨0, [], .none⟩ = some (.variant u) := by
    simp only [Place.read, hm, Option.bind_some, readAt]
  have : ((fun p : Pat × Ex α => p.1.fits m (V.ref ⟨0, [], .none⟩)) ∘ fun v : Variant =>
      (Pat.variant v.ident, Ex.call (.lib .val [str! "ser", str! "Fragment", str! "Str"]) (cowBorrowed (.str v.wire)))) = fun v : Variant => v.ident == u := by
    funext v
    simp only [Function.comp_apply, Pat.fits, hr]
  rw [this]
  cases vs.find? fun v => v.ident == u with
  | none => rfl
  | some v => rfl

end

end Miniserde.Code
