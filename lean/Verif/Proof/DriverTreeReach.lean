import Verif.Spec.DriverTree
import Verif.Proof.BoxTree

/-!
# The driver of `from_str` under Tree Borrows: what happens at the location is a sequence of operations
-/

namespace Miniserde.TB

/-- `Sound`, and freed memory is empty. -/
structure Good (l : Loc) : Prop where
  sound : Sound l
  live : l.items ≠ [] → l.live = true

/-- A sequence of operations. -/
inductive Reach : Loc → Loc → Prop
  | refl (l : Loc) : Reach l l
  | act {l l' : Loc} (h : Reach l l') (a : Acc) : Reach l (l'.act a)
  | free {l l' : Loc} (h : Reach l l') (t : Tag) : Reach l (l'.free t)
  | alloc {l l' : Loc} (h : Reach l l') : Reach l { l' with items := [⟨[l'.next], .active, none⟩], next := l'.next + 1, live := true }

theorem Reach.trans {l l' l'' : Loc} (h : Reach l l') (k : Reach l' l'') : Reach l l'' := by
  induction k with
  | refl => exact h
  | act _ a ih => exact ih.act a
  | free _ t ih => exact ih.free t
  | alloc _ ih => exact ih.alloc

theorem act_ub {l : Loc} {a : Acc} (h : (l.act a).ub = false) : l.ub = false := by
  cases a with
  | read t => exact (Loc.access_spec h).1
  | write t => exact (Loc.access_spec h).1
  | enter => exact h
  | leave =>
    simp only [Loc.act] at h
    split at h
    · exact endsAll_ub _ h
    · simp [Loc.bad] at h
  | reborrow p t prot =>
    simp only [Loc.act] at h
    split at h
    · exact (Loc.access_spec (show (l.access false false t).ub = false from h)).1
    · split at h
      · exact h
      · simp [Loc.bad] at h

theorem endsAll_live : ∀ (is : List Item) {v : Loc}, (is.foldl (fun l i => l.ends i.tag) v).ub = false → (is.foldl (fun l i => l.ends i.tag) v).live = v.live ∧
    ((is.foldl (fun l i => l.ends i.tag) v).items ≠ [] → v.items ≠ [])
  | [], _, _ => ⟨rfl, id⟩
  | i :: is, v, h => by
    have k := endsAll_live is h
    have h1 : (v.ends i.tag).ub = false := endsAll_ub is h
    have e := ends_same h1
    refine ⟨k.1.trans e.1, fun hn hv => k.2 hn ?_⟩
    show (v.ends i.tag).items = []
    unfold Loc.ends at h1 ⊢
    split at h1
    · exact hv
    · exact hv
    · exact hv
    · rw [(Loc.access_spec h1).2.2.2]; simp [hv]
    · rw [(Loc.access_spec h1).2.2.2]; simp [hv]

theorem Good.act {l : Loc} (g : Good l) {a : Acc} (h : (l.act a).ub = false) : Good (l.act a) := by
  refine ⟨g.sound.act g.live (act_ub h) h, ?_⟩
  have acc : ∀ {e w t}, (l.access e w t).ub = false → (l.access e w t).live = true := fun h => by
    obtain ⟨-, h2, -, h4⟩ := Loc.access_spec h
    rw [h4]
    exact (Loc.has_iff.1 h2).1
  cases a with
  | read t => exact fun _ => acc h
  | write t => exact fun _ => acc h
  | enter => exact g.live
  | leave =>
    simp only [Loc.act] at h ⊢
    split at h
    · intro hn
      obtain ⟨k1, k2⟩ := endsAll_live _ (show ((l.items.filter _).foldl (fun l i => l.ends i.tag) l).ub = false from h)
      exact k1.trans (g.live (k2 hn))
    · simp [Loc.bad] at h
  | reborrow p t prot =>
    simp only [Loc.act] at h ⊢
    split at h
    · rename_i hp
      rw [if_pos hp]
      exact fun _ => acc (show (l.access false false t).ub = false from h)
    · rename_i hp
      rw [if_neg hp]
      split at h
      · rename_i hc
        rw [if_pos hc]
        exact fun _ => (Loc.has_iff.1 hc.2).1
      · simp [Loc.bad] at h

theorem Reach.good {l l' : Loc} (h : Reach l l') (g : Good l) : l'.ub = false → Good l' := by
  induction h with
  | refl => exact fun _ => g
  | act _ a ih => exact fun h => (ih (act_ub h)).act h
  | free _ t ih =>
    intro h
    simp only [Loc.free] at h ⊢
    split at h
    · simp [Loc.bad] at h
    · rename_i hg
      rw [if_neg hg]
      have h' := show (Loc.access _ _ _ _).ub = false from h
      obtain ⟨h1, -, -, h4⟩ := Loc.access_spec h'
      have k := ih h1
      rw [h4]
      refine ⟨⟨⟨?_, ?_, k.sound.fresh.calls⟩, ?_, ?_, ?_, ?_⟩, fun h => absurd rfl h⟩ <;> exact fun _ h => by cases h
  | @alloc l' _ ih =>
    intro h
    have k := ih h
    refine ⟨⟨⟨?_, ?_, k.sound.fresh.calls⟩, ?_, ?_, ?_, ?_⟩, fun _ => rfl⟩
    · intro i hi n hn
      obtain rfl := List.mem_singleton.1 hi
      obtain rfl := List.mem_singleton.1 hn
      exact Nat.lt_succ_self _
    · intro i hi c hc
      obtain rfl := List.mem_singleton.1 hi
      cases hc
    · intro i hi j hj _
      rw [List.mem_singleton.1 hi, List.mem_singleton.1 hj]
    · intro i hi hg
      obtain rfl := List.mem_singleton.1 hi
      cases hg
    · intro i hi j _ hg
      obtain rfl := List.mem_singleton.1 hi
      cases hg
    · intro i hi k _ hg
      obtain rfl := List.mem_singleton.1 hi
      cases hg

variable {s : St}

theorem reach_act (a : Acc) (s : St) : Reach s.loc (s.act a).loc := (Reach.refl _).act a
theorem reach_reb (t : Tag) (p : Bool) (s : St) : Reach s.loc (s.reb t p).1.loc := reach_act _ s

theorem reach_passStep (x : St × Tag × Nat) (a : Bool) : Reach x.1.loc (St.passStep x a).1.loc := by
  obtain ⟨s, t, d⟩ := x
  cases a with
  | true => exact (reach_act .enter s).trans (reach_reb ..)
  | false =>
    cases d with
    | zero => exact reach_reb ..
    | succ d => exact (reach_act .leave s).trans (reach_reb ..)

theorem reach_passSteps : ∀ (way : List Bool) (x : St × Tag × Nat), Reach x.1.loc (way.foldl St.passStep x).1.loc
  | [], _ => .refl _
  | a :: way, x => (reach_passStep x a).trans (reach_passSteps way _)

theorem reach_pass (way : List Bool) (t : Tag) (s : St) : Reach s.loc (s.pass way t).1.loc := (reach_passSteps way (s, t, 0)).trans (reach_passSteps _ _)

theorem reach_preVisitor (h : Tag) (s : St) : Reach s.loc (St.preVisitor h s).1.loc := ((reach_reb ..).trans (reach_act ..)).trans (reach_reb ..)

theorem reach_preBuilder (h : Tag) (s : St) : Reach s.loc (St.preBuilder h s).1.loc :=
  ((((((((reach_act .enter s).trans (reach_act ..)).trans (reach_reb ..)).trans (reach_act ..)).trans (reach_reb ..)).trans (reach_act ..)).trans (reach_reb ..)).trans (reach_act ..)).trans (reach_reb ..)

theorem reach_preDrop (h : Tag) (s : St) : Reach s.loc (St.preDrop h s).1.loc := (((reach_act .enter s).trans (reach_reb ..)).trans (reach_act ..)).trans (reach_reb ..)

theorem reach_convVisitor (way : List Bool) (t : Tag) (s : St) : Reach s.loc (St.convVisitor way t s).1.loc :=
  ((((reach_reb ..).trans (reach_pass way _ _)).trans (reach_act ..)).trans (reach_reb ..)).trans (reach_act .leave _)

theorem reach_convBuilder (way : List Bool) (t : Tag) (s : St) : Reach s.loc (St.convBuilder way t s).1.loc :=
  (((((((reach_reb ..).trans (reach_pass way _ _)).trans (reach_act ..)).trans (reach_reb ..)).trans (reach_act ..)).trans (reach_reb ..)).trans (reach_act .leave _)).trans (reach_act .leave _)

theorem reach_step (id : Nat) (arg : Option Tag) (s : St) (u : UAct) : Reach s.loc (s.step id arg u).loc := by
  cases u with
  | acc a =>
    simp only [St.step]
    split
    · exact .refl _
    · exact reach_act a s
  | alloc =>
    simp only [St.step]
    split
    · exact (Reach.refl _).alloc
    · exact .refl _
  | free t =>
    simp only [St.step]
    split
    · exact (Reach.refl _).free t
    · exact .refl _

theorem reach_steps (id : Nat) (arg : Option Tag) : ∀ (us : List UAct) (s : St), Reach s.loc (us.foldl (St.step id arg) s).loc
  | [], _ => .refl _
  | u :: us, s => (reach_step id arg s u).trans (reach_steps id arg us _)

theorem reach_returns : ∀ (n : Nat) (s : St), Reach s.loc (s.returns n).loc
  | 0, _ => .refl _
  | n + 1, s => (reach_act .leave s).trans (reach_returns n _)

theorem reach_user (id : Nat) (arg : Option Tag) (us : List UAct) (s : St) : Reach s.loc (s.user id arg us).loc := (reach_steps id arg us s).trans (reach_returns _ _)

theorem reach_call (pre : Tag → St → St × Tag) (hp : ∀ h s, Reach s.loc (pre h s).1.loc) (us : List UAct) (id : Nat) (s : St) : Reach s.loc (s.call pre us id).loc := by
  unfold St.call
  split
  · exact (hp ..).trans (reach_user ..)
  · exact (reach_act .enter s).trans (reach_user ..)

theorem reach_endKid (id : Nat) (s : St) : Reach s.loc (s.endKid id).loc := by
  unfold St.endKid
  split <;> exact .refl _

theorem reach_share (t : Option Tag) (id p : Nat) (s : St) : Reach s.loc (s.share t id p).loc := by
  unfold St.share
  split <;> exact .refl _

theorem reach_point (conv : Tag → St → St × Tag) (hp : ∀ h s, Reach s.loc (conv h s).1.loc) (t : Tag) (id : Nat) (s : St) : Reach s.loc (s.point conv t id).loc := by
  unfold St.point
  split
  · exact hp t s
  · exact .refl _

theorem reach_drop (us : List UAct) (id : Nat) (s : St) : Reach s.loc (s.drop us id).loc := by
  unfold St.drop
  split
  · rename_i h _
    exact ((((reach_preDrop h s).trans (reach_act .enter _)).trans (reach_reb ..)).trans (reach_user ..)).free _
  · exact reach_call _ reach_preBuilder us id s

theorem reach_op (C : Safe) (n : Nat) (o : Op) (s : St) : Reach s.loc (St.op C n o s).loc := by
  cases o with
  | callVisitor id => exact reach_call _ reach_preVisitor ..
  | callBuilder id => exact (reach_endKid id s).trans (reach_call _ reach_preBuilder ..)
  | newVisitor id p =>
    simp only [St.op]
    split
    · exact (reach_share (C.cut n) id p s).trans (reach_point _ (reach_convVisitor _) _ _ ({ s.share (C.cut n) id p with kid := upd s.kid p (some id) }))
    · exact reach_share ..
  | newBuilder id p =>
    simp only [St.op]
    split
    · split
      · exact (reach_share _ id p ({ s with par := upd s.par id p, kid := upd s.kid id none })).trans (reach_point _ (reach_convBuilder _) _ _ _)
      · exact reach_share _ id p ({ s with par := upd s.par id p, kid := upd s.kid id none })
    · exact reach_share _ id p ({ s with par := upd s.par id p, kid := upd s.kid id none })
  | dropBuilder id => exact (reach_endKid id s).trans (reach_drop ..)
  | moveBuilder id => exact .refl _

end Miniserde.TB
