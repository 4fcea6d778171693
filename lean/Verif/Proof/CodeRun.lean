import Verif.Spec.CodeRun
import Verif.Proof.CodeTypes

namespace Miniserde.Code

open Expand (Src Ns Lib Meaning)

section

variable {α γ : Type} {x : Expansion α} {dflt : α → Option γ}

theorem arms_eval (l : List (Pat × Ex α)) (ty : Option (TyX α)) (v : V γ) (ρ : Locals γ) (m : Mem γ) :
    (Arms.ofList l).eval x dflt ty v ρ m = (l.find? fun p => p.1.fits m v).bind fun p => p.2.eval x dflt ty ρ m := by
  induction l with
  | nil => rfl
  | cons p l ih =>
    obtain ⟨p, e⟩ := p
    rw [Arms.ofList, Arms.eval, List.find?_cons]
    cases h : p.fits m v with
    | true => rfl
    | false => exact ih

/-- The state while a struct is built, with `s f` in the field `f`. -/
def stV (fs : List (Field α)) (s : Bytes → Option γ) : V γ :=
  .strct (.helper (str! "__State")) ((fs.map fun f => (f.ident, V.ofOption (s f.ident))) ++ [(str! "__out", .ref ⟨0, [], .none⟩)])

/-- One field has another content. -/
def upd (s : Bytes → Option γ) (f : Bytes) (c : Option γ) : Bytes → Option γ := fun g => if g = f then c else s g

theorem find_key {β : Type} (h : Bytes → β) (l : List Bytes) (rest : List (Bytes × β)) {f : Bytes} (hf : f ∈ l) :
    ((l.map fun g => (g, h g)) ++ rest).find? (fun g => g.1 == f) = some (f, h f) := by
  induction l with
  | nil => cases hf
  | cons g l ih =>
    by_cases e : g = f
    · subst e
      simp
    · have : f ∈ l := (List.mem_cons.1 hf).resolve_left (Ne.symm e)
      simp [e, ih this]

theorem find_state {fs : List (Field α)} (s : Bytes → Option γ) {f : Bytes} (hf : f ∈ fs.map Field.ident) :
    ((fs.map fun f : Field α => (f.ident, V.ofOption (s f.ident))) ++ [(str! "__out", V.ref ⟨0, [], .none⟩)]).find? (fun g => g.1 == f) = some (f, V.ofOption (s f)) := by
  have := find_key (fun g => V.ofOption (s g)) (fs.map Field.ident) [(str! "__out", V.ref ⟨0, [], .none⟩)] hf
  rw [List.map_map] at this
  exact this

theorem find_out {fs : List (Field α)} (s : Bytes → Option γ) (ho : str! "__out" ∉ fs.map Field.ident) :
    ((fs.map fun f : Field α => (f.ident, V.ofOption (s f.ident))) ++ [(str! "__out", V.ref ⟨0, [], .none⟩)]).find? (fun g => g.1 == str! "__out") = some (str! "__out", .ref ⟨0, [], .none⟩) := by
  rw [List.find?_append, List.find?_eq_none.2]
  · rfl
  · intro p hp
    obtain ⟨f, hf, rfl⟩ := List.mem_map.1 hp
    intro e
    rw [beq_iff_eq] at e
    exact ho (e ▸ List.mem_map_of_mem hf)

theorem read_field {fs : List (Field α)} {s : Bytes → Option γ} {f : Bytes} (hf : f ∈ fs.map Field.ident) {m : Mem γ} (hm : m 1 = some (stV fs s)) :
    Place.read m ⟨1, [f], .none⟩ = some (V.ofOption (s f)) := by
  simp only [Place.read, hm, Option.bind_some, stV, readAt]
  rw [find_state s hf]

theorem read_out {fs : List (Field α)} {s : Bytes → Option γ} (ho : str! "__out" ∉ fs.map Field.ident) {m : Mem γ} (hm : m 1 = some (stV fs s)) :
    Place.read m ⟨1, [str! "__out"], .none⟩ = some (.ref ⟨0, [], .none⟩) := by
  simp only [Place.read, hm, Option.bind_some, stV, readAt]
  rw [find_out s ho]

theorem write_field {fs : List (Field α)} {s : Bytes → Option γ} {f : Bytes} (ho : str! "__out" ∉ fs.map Field.ident) (hf : f ∈ fs.map Field.ident) {m : Mem γ} (hm : m 1 = some (stV fs s)) (c : Option γ) :
    Place.write m ⟨1, [f], .none⟩ (V.ofOption c) = some (m.set 1 (stV fs (upd s f c))) := by
  simp only [Place.write, hm, Option.bind_some, stV, writeAt]
  rw [find_state s hf]
  simp only [Option.map_some, List.map_append, List.map_map, List.map_cons, List.map_nil]
  have : str! "__out" ≠ f := fun e => ho (e ▸ hf)
  rw [if_neg this]
  congr 4
  refine List.map_congr_left fun g _ => ?_
  simp only [Function.comp_apply, upd]
  by_cases e : g.ident = f
  · rw [if_pos e, if_pos e]
  · rw [if_neg e, if_neg e]

theorem set_same (m : Mem γ) (c : Nat) (v : V γ) : m.set c v c = some v := by simp [Mem.set]

theorem set_other (m : Mem γ) {c d : Nat} (h : d ≠ c) (v : V γ) : m.set c v d = m d := by simp [Mem.set, h]

theorem set_set (m : Mem γ) (c : Nat) (v w : V γ) : (m.set c v).set c w = m.set c w := by
  funext d
  simp only [Mem.set]
  split <;> rfl

theorem eval_get_self {c : Nat} {q : List Bytes} {f : Bytes} {vars : List (Bytes × V γ)} {m : Mem γ} {ty : Option (TyX α)} :
    (Ex.get .self f : Ex α).eval x dflt ty ⟨.some (.ref ⟨c, q, .none⟩), vars⟩ m = some (.next (.loc ⟨c, q ++ [f], .none⟩) m) := rfl

theorem eval_error {ty : Option (TyX α)} {ρ : Locals γ} {m : Mem γ} : (error : Ex α).eval x dflt ty ρ m = done .error m := rfl

theorem eval_take {fs : List (Field α)} {s : Bytes → Option γ} {f : Field α} (ho : str! "__out" ∉ fs.map Field.ident) (hf : f ∈ fs) {m : Mem γ} (hm : m 1 = some (stV fs s))
    {vars : List (Bytes × V γ)} : (Ex.quest (.okOr (.take (.get .self f.ident)) error) : Ex α).eval x dflt .none ⟨.some (.ref ⟨1, [], .none⟩), vars⟩ m =
    match s f.ident with
    | some v => some (.next (.val (.user v)) (m.set 1 (stV fs (upd s f.ident none))))
    | none => some (.ret (.err .error) (m.set 1 (stV fs (upd s f.ident none)))) := by
  have hf' : f.ident ∈ fs.map Field.ident := List.mem_map_of_mem hf
  have hw := write_field ho hf' hm none
  have hw' : Place.write m ⟨1, [f.ident], .none⟩ V.none = some (m.set 1 (stV fs (upd s f.ident none))) := hw
  rw [Ex.eval, Ex.eval, Ex.eval, eval_get_self]
  simp only [eval_error, andThen, List.nil_append, read_field hf' hm, hw', done, thenVal, Opnd.toVal]
  cases s f.ident with
  | none => rfl
  | some v => rfl

/-- The fields `l` have been taken. -/
def takenAll (s : Bytes → Option γ) (l : List Bytes) : Bytes → Option γ := fun g => if g ∈ l then none else s g

theorem eval_takes {fs : List (Field α)} (ho : str! "__out" ∉ fs.map Field.ident) (body : Ex α) (v : Bytes → V γ) :
    ∀ (gs : List (Field α)), (∀ g ∈ gs, g ∈ fs) → (gs.map Field.ident).Nodup → ∀ (s : Bytes → Option γ) (m : Mem γ), m 1 = some (stV fs s) → (∀ g ∈ gs, ∃ u, s g.ident = some u ∧ v g.ident = .user u) →
    ∀ vars, (takes gs body).eval x dflt .none ⟨.some (.ref ⟨1, [], .none⟩), vars⟩ m =
      body.eval x dflt .none ⟨.some (.ref ⟨1, [], .none⟩), (gs.map fun g => (g.ident, v g.ident)).reverse ++ vars⟩ (m.set 1 (stV fs (takenAll s (gs.map Field.ident)))) := by
  intro gs
  induction gs with
  | nil =>
    intro _ _ s m hm _ vars
    have : m.set 1 (stV fs (takenAll s [])) = m := by
      funext d
      simp only [Mem.set]
      split
      · rename_i e
        rw [e, hm]
        congr
      · rfl
    simp only [takes, List.map_nil, List.reverse_nil, List.nil_append, this]
  | cons g gs ih =>
    intro hg hn s m hm hs vars
    rw [List.map_cons, List.nodup_cons] at hn
    obtain ⟨u, hu, hv⟩ := hs g List.mem_cons_self
    rw [takes, Ex.eval, eval_take ho (hg g List.mem_cons_self) hm, hu]
    simp only [thenVal, andThen, Opnd.toVal]
    rw [ih (fun g h => hg g (List.mem_cons_of_mem _ h)) hn.2 (upd s g.ident none) _ (set_same ..) ?_]
    · rw [set_set, List.map_cons, List.reverse_cons, List.append_assoc, hv]
      congr 3
      funext b
      simp only [takenAll, upd, List.map_cons, List.mem_cons]
      by_cases e : b = g.ident
      · simp [e]
      · simp [e]
    · intro g' hg'
      have : g'.ident ≠ g.ident := fun e => hn.1 (e ▸ List.mem_map_of_mem hg')
      simp only [upd, if_neg this]
      exact hs g' (List.mem_cons_of_mem _ hg')

theorem eval_takes_err {fs : List (Field α)} (ho : str! "__out" ∉ fs.map Field.ident) (body : Ex α) :
    ∀ (gs : List (Field α)), (∀ g ∈ gs, g ∈ fs) → (gs.map Field.ident).Nodup → ∀ (s : Bytes → Option γ) (m : Mem γ), m 1 = some (stV fs s) → (∃ g ∈ gs, s g.ident = none) →
    ∀ vars, ∃ s', (takes gs body).eval x dflt .none ⟨.some (.ref ⟨1, [], .none⟩), vars⟩ m = some (.ret (.err .error) (m.set 1 (stV fs s'))) := by
  intro gs
  induction gs with
  | nil => rintro _ _ s m hm ⟨g, hg, -⟩; cases hg
  | cons g gs ih =>
    intro hg hn s m hm hs vars
    rw [List.map_cons, List.nodup_cons] at hn
    rw [takes, Ex.eval, eval_take ho (hg g List.mem_cons_self) hm]
    cases e : s g.ident with
    | none => exact ⟨_, rfl⟩
    | some w =>
      simp only [thenVal, andThen, Opnd.toVal]
      obtain ⟨s', h⟩ := ih (fun g h => hg g (List.mem_cons_of_mem _ h)) hn.2 (upd s g.ident none) (m.set 1 (stV fs (upd s g.ident none))) (set_same ..) (by
        obtain ⟨g', h1, h2⟩ := hs
        rcases List.mem_cons.1 h1 with rfl | h1
        · rw [e] at h2; cases h2
        · refine ⟨g', h1, ?_⟩
          simp only [upd]
          split
          · rfl
          · exact h2) ((g.ident, .user w) :: vars)
      refine ⟨s', ?_⟩
      rw [h, set_set]

theorem eval_literal {fs : List (Field α)} (v : Bytes → V γ) {vars : List (Bytes × V γ)} {self : Option (V γ)} {m : Mem γ} {ds : List (Bytes × TyX α)}
    (h : ∀ f ∈ fs, (vars.find? fun p => p.1 == f.ident) = some (f.ident, v f.ident)) :
    (Flds.ofList (fs.map fun f => (f.ident, var f.ident)) : Flds α).eval x dflt ds ⟨self, vars⟩ m = some (.next (fs.map fun f => (f.ident, v f.ident)) m) := by
  induction fs with
  | nil => rfl
  | cons f fs ih =>
    have hf := h f List.mem_cons_self
    rw [List.map_cons, Flds.ofList, Flds.eval, var, Ex.eval]
    simp only [pathV, m_var, hf, Option.map_some, Option.bind_some, done, thenVal, andThen, Opnd.toVal]
    rw [ih fun g hg => h g (List.mem_cons_of_mem _ hg), List.map_cons]

theorem call_key {fs : List (Field α)} {k : Bytes} {m : Mem γ} :
    (keyFn fs).call (deStruct fs) dflt (.some (.ref ⟨1, [], .none⟩)) (.some (.str k)) m =
      some (.returns (.ok (match fieldFor fs k with
        | some f => .begun ⟨1, [f.ident], .none⟩
        | none => .ignore)) m) := by
  have hb : (keyFn fs).body.eval (deStruct fs) dflt .none ⟨.some (.ref ⟨1, [], .none⟩), [(str! "__k", V.str k)]⟩ m =
      some (.next (.val (.ok (match fieldFor fs k with
        | some f => .begun ⟨1, [f.ident], .none⟩
        | none => .ignore))) m) := by
    simp only [keyFn]
    rw [Ex.eval, var, Ex.eval]
    simp only [pathV, m_var, List.find?_cons, beq_self_eq_true, Option.map_some, Option.bind_some, done, thenVal, andThen, Opnd.toVal]
    rw [arms_eval, List.find?_append, List.find?_map]
    have : ((fun p : Pat × Ex α => p.1.fits m (V.str k)) ∘ fun f : Field α => (Pat.str f.wire, okOf (.call (.lib .val [str! "Deserialize", str! "begin"]) (.ref true (.get .self f.ident))))) =
        fun f : Field α => f.wire == k := rfl
    rw [this]
    unfold fieldFor
    cases fs.find? fun f => f.wire == k with
    | none => rfl
    | some f => rfl
  unfold Fn.call
  rw [show (keyFn fs).param = some (str! "__k", strRef) from rfl]
  simp only [hb, Opnd.toVal, Option.map_some]

theorem lookup_rev (v : Bytes → V γ) (l : List Bytes) (vars : List (Bytes × V γ)) {f : Bytes} (hf : f ∈ l) :
    (((l.map fun g => (g, v g)).reverse ++ vars).find? fun p => p.1 == f) = some (f, v f) := by
  rw [← List.map_reverse]
  exact find_key v l.reverse vars (List.mem_reverse.2 hf)

theorem call_finish_ok {fs : List (Field α)} (hd : (fs.map Field.ident).Nodup) (ho : str! "__out" ∉ fs.map Field.ident) {s : Bytes → Option γ} {m : Mem γ} (hm : m 1 = some (stV fs s))
    (h0 : ∃ o, m 0 = some o) (v : Bytes → V γ) (h : ∀ f ∈ fs, ∃ u, s f.ident = some u ∧ v f.ident = .user u) :
    (finishFn fs).call (deStruct fs) dflt (.some (.ref ⟨1, [], .none⟩)) .none m =
      some (.returns (.ok .unit) ((m.set 1 (stV fs fun _ => none)).set 0 (.some (.strct .target (fs.map fun f => (f.ident, v f.ident)))))) := by
  obtain ⟨o, h0⟩ := h0
  unfold Fn.call
  simp only [finishFn]
  rw [eval_takes ho _ v fs (fun _ h => h) hd s m hm h]
  have hst : stV fs (takenAll s (fs.map Field.ident)) = stV fs (γ := γ) fun _ => none := by
    unfold stV
    congr 2
    refine List.map_congr_left fun f hf => ?_
    simp only [takenAll, if_pos (List.mem_map_of_mem (f := Field.ident) hf)]
  rw [hst]
  rw [Ex.eval, Ex.eval, someOf, Ex.eval, Ex.eval]
  rw [show meant Src.ident = Meaning.target from rfl]
  simp only []
  rw [eval_literal v (fun f hf => by
    have := lookup_rev v (fs.map Field.ident) [] (List.mem_map_of_mem (f := Field.ident) hf)
    rw [List.map_map] at this
    exact this)]
  simp only [done, andThen, thenVal, Opnd.toVal, callV, m_some, Option.bind_some]
  rw [Ex.eval, eval_get_self]
  simp only [thenVal, andThen, Opnd.toVal, List.nil_append, read_out ho (set_same m 1 (stV fs fun _ => none))]
  simp only [Place.write, set_other m (show (0 : Nat) ≠ 1 by decide), h0, Option.bind_some, writeAt, Option.map_some]
  simp only [okOf, Ex.eval, done, thenVal, andThen, Opnd.toVal, callV, m_ok, Option.bind_some, Option.map_some]

theorem call_finish_err {fs : List (Field α)} (hd : (fs.map Field.ident).Nodup) (ho : str! "__out" ∉ fs.map Field.ident) {s : Bytes → Option γ} {m : Mem γ} (hm : m 1 = some (stV fs s))
    (h : ∃ f ∈ fs, s f.ident = none) :
    ∃ s', (finishFn fs).call (deStruct fs) dflt (.some (.ref ⟨1, [], .none⟩)) .none m = some (.returns (.err .error) (m.set 1 (stV fs s'))) := by
  obtain ⟨s', e⟩ := eval_takes_err (x := deStruct fs) (dflt := dflt) ho (.seq
      (.assign (.deref (.get .self (str! "__out"))) (someOf (.lit .ident (.ofList (fs.map fun f => (f.ident, var f.ident))))))
      (okOf .unit)) fs (fun _ h => h) hd s m hm h []
  refine ⟨s', ?_⟩
  unfold Fn.call
  simp only [finishFn, e]

theorem call_begin {fs : List (Field α)} {m : Mem γ} :
    (beginFn (.applied (.helper (str! "__Visitor")))).call (deStruct fs) dflt .none (.some (.ref ⟨0, [], .none⟩)) m = some (.returns (.ref ⟨0, [], some (str! "__Visitor")⟩) m) := rfl

theorem eval_state {fs : List (Field α)} {ρ : Locals γ} {m : Mem γ} (hs : ρ.self = some (.ref ⟨0, [], some (str! "__Visitor")⟩)) :
    ∀ gs : List (Field α), (∀ g ∈ gs, ((fs.map fun f : Field α => (f.ident, optionOf (TyX.user f.ty))) ++ [(str! "__out", TyX.ref true (optionOf (.applied .ident)))]).find? (fun d => d.1 == g.ident) = some (g.ident, optionOf (TyX.user g.ty))) →
    (Flds.ofList ((gs.map fun f => (f.ident, Ex.call0 (.lib .val [str! "Deserialize", str! "default"]))) ++ [(str! "__out", .ref true (.get .self (str! "__out")))]) : Flds α).eval (deStruct fs) dflt
      ((fs.map fun f => (f.ident, optionOf (TyX.user f.ty))) ++ [(str! "__out", .ref true (optionOf (.applied .ident)))]) ρ m =
      some (.next ((gs.map fun f => (f.ident, V.ofOption (dflt f.ty))) ++ [(str! "__out", .ref ⟨0, [], .none⟩)]) m) := by
  intro gs
  obtain ⟨self, vars⟩ := ρ
  subst hs
  induction gs with
  | nil => intro _; rfl
  | cons g gs ih =>
    intro h
    rw [List.map_cons, List.cons_append, Flds.ofList, Flds.eval, h g List.mem_cons_self]
    have ih' := ih fun g' hg => h g' (List.mem_cons_of_mem _ hg)
    rw [Ex.eval]
    simp only [Option.map_some, call0V, m_default, optionOf, m_option, if_true, Option.bind_some, done, thenVal, andThen, Opnd.toVal]
    simp only [optionOf] at ih'
    rw [ih', List.map_cons, List.cons_append]

theorem call_map {fs : List (Field α)} (hd : (fs.map Field.ident).Nodup) {m : Mem γ} :
    (mapFn fs).call (deStruct fs) dflt (.some (.ref ⟨0, [], some (str! "__Visitor")⟩)) .none m =
      some (.returns (.ok (.box (.strct (.helper (str! "__State")) ((fs.map fun f => (f.ident, V.ofOption (dflt f.ty))) ++ [(str! "__out", .ref ⟨0, [], .none⟩)])))) m) := by
  have hdecl : declared (deStruct fs) (str! "__State") = some ((fs.map fun f => (f.ident, optionOf (TyX.user f.ty))) ++ [(str! "__out", .ref true (optionOf (.applied .ident)))]) := rfl
  unfold Fn.call
  simp only [mapFn]
  rw [Ex.eval, boxNew, Ex.eval, Ex.eval, show meant (.helper (str! "__State")) = .helper (str! "__State") from rfl]
  simp only [hdecl, Option.bind_some]
  rw [eval_state rfl fs ?_]
  · rfl
  · intro g hg
    rw [List.find?_append]
    have : (fs.map fun f => (f.ident, optionOf (TyX.user f.ty))).find? (fun d => d.1 == g.ident) = some (g.ident, optionOf (TyX.user g.ty)) := by
      rw [List.find?_map]
      cases e : fs.find? ((fun d : Bytes × TyX α => d.1 == g.ident) ∘ fun f => (f.ident, optionOf (TyX.user f.ty))) with
      | none =>
        have := List.find?_eq_none.1 e g hg
        simp at this
      | some f =>
        have h1 := List.find?_some e
        have h2 := List.mem_of_find?_eq_some e
        simp only [Function.comp_apply, beq_iff_eq] at h1
        rw [nodup_inj hd h2 hg h1, Option.map_some]
    rw [this]
    rfl

end

end Miniserde.Code
