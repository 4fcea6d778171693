import Verif.Proof.Heap

/-!
# Refinement: traversal by the heap implementation = pure run
-/

namespace Miniserde
variable (E : Env)

theorem leafCall_lib (v : VH) (ev : Event) (h : Heap) :
    leafCall (lib E) v ev h = if ev.isLeaf then leafAt E v ev h else (.panic, h) := by
  cases ev <;> rfl

/-! Unfolding lemmas for the traversal by `lib`. -/

theorem lib_leaf (v : VH) (ev : Event) (h : Heap) :
    drivePT (lib E) v (.leaf ev) h = if ev.isLeaf then leafAt E v ev h else (.panic, h) :=
  (drivePT.eq_1 (lib E) v h ev).trans (leafCall_lib E v ev h)

theorem lib_bad (v : VH) (b : Bool) (h : Heap) : drivePT (lib E) v (.bad b) h = (failure b, h) := drivePT.eq_2 (lib E) v h b

theorem lib_seq (v : VH) (xs : List PT) (e : End) (h : Heap) : drivePT (lib E) v (.seq xs e) h =
    match openV E v false h with
    | (.ok q, h) => ((driveElemsPT (lib E) q xs e h).1, dropB q (driveElemsPT (lib E) q xs e h).2)
    | (.err, h) => (.err, h)
    | (.panic, h) => (.panic, h) := by
  refine (drivePT.eq_3 (lib E) v h xs e).trans ?_
  generalize hy : (lib E).seq v h = y
  have hy' : openV E v false h = y := hy
  rw [hy']; obtain ⟨r, w⟩ := y
  cases r <;> rfl

theorem lib_map (v : VH) (ms : List (Bytes × PT)) (e : End) (h : Heap) : drivePT (lib E) v (.map ms e) h =
    match openV E v true h with
    | (.ok q, h) => ((driveMembersPT (lib E) q ms e h).1, dropB q (driveMembersPT (lib E) q ms e h).2)
    | (.err, h) => (.err, h)
    | (.panic, h) => (.panic, h) := by
  refine (drivePT.eq_4 (lib E) v h ms e).trans ?_
  generalize hy : (lib E).map v h = y
  have hy' : openV E v true h = y := hy
  rw [hy']; obtain ⟨r, w⟩ := y
  cases r <;> rfl

theorem lib_elems_closed (q : BH) (h : Heap) : driveElemsPT (lib E) q [] .closed h = finishB E q h :=
  driveElemsPT.eq_1 (lib E) q h
theorem lib_elems_stop (q : BH) (b : Bool) (h : Heap) : driveElemsPT (lib E) q [] (.stop b) h = (failure b, h) :=
  driveElemsPT.eq_2 (lib E) q h b
theorem lib_elems_cons (q : BH) (x : PT) (xs : List PT) (e : End) (h : Heap) : driveElemsPT (lib E) q (x :: xs) e h =
    match childB E q none h with
    | (.ok v, h) =>
      match drivePT (lib E) v x h with
      | (.ok _, h) => driveElemsPT (lib E) q xs e h
      | (.err, h) => (.err, h)
      | (.panic, h) => (.panic, h)
    | (.err, h) => (.err, h)
    | (.panic, h) => (.panic, h) := by
  refine (driveElemsPT.eq_3 (lib E) q e h x xs).trans ?_
  generalize hy : (lib E).element q h = y
  have hy' : childB E q none h = y := hy
  rw [hy']; obtain ⟨r, w⟩ := y
  cases r with
  | ok v =>
    dsimp only
    generalize drivePT (lib E) v x w = z
    obtain ⟨r, w⟩ := z
    cases r <;> rfl
  | err => rfl
  | panic => rfl

theorem lib_members_closed (q : BH) (h : Heap) : driveMembersPT (lib E) q [] .closed h = finishB E q h :=
  driveMembersPT.eq_1 (lib E) q h
theorem lib_members_stop (q : BH) (b : Bool) (h : Heap) : driveMembersPT (lib E) q [] (.stop b) h = (failure b, h) :=
  driveMembersPT.eq_2 (lib E) q h b
theorem lib_members_cons (q : BH) (k : Bytes) (x : PT) (ms : List (Bytes × PT)) (e : End) (h : Heap) :
    driveMembersPT (lib E) q ((k, x) :: ms) e h =
    match childB E q (some k) h with
    | (.ok v, h) =>
      match drivePT (lib E) v x h with
      | (.ok _, h) => driveMembersPT (lib E) q ms e h
      | (.err, h) => (.err, h)
      | (.panic, h) => (.panic, h)
    | (.err, h) => (.err, h)
    | (.panic, h) => (.panic, h) := by
  refine (driveMembersPT.eq_3 (lib E) q e h k x ms).trans ?_
  generalize hy : (lib E).key q k h = y
  have hy' : childB E q (some k) h = y := hy
  rw [hy']; obtain ⟨r, w⟩ := y
  cases r with
  | ok v =>
    dsimp only
    generalize drivePT (lib E) v x w = z
    obtain ⟨r, w⟩ := z
    cases r <;> rfl
  | err => rfl
  | panic => rfl

theorem failure_map {α β : Type} (p : Bool) (f : α → β) : (failure p : Res α).map f = failure p := by cases p <;> rfl

theorem failure_ne_ok {α : Type} (p : Bool) (v : α) : (failure p : Res α) ≠ .ok v := by cases p <;> nofun

mutual

/-- `<dyn Visitor>::ignore()` touches nothing. -/
theorem drive_ignore : ∀ (x : PT) (h : Heap), drivePT (lib E) VH.ignore x h = (runIgnore x, h)
  | .leaf ev, h => by
    rw [lib_leaf, runIgnore]
    cases ev.isLeaf <;> rfl
  | .bad p, h => by rw [lib_bad, runIgnore]
  | .seq xs e, h => by
    have := drive_ignore_elems xs e h
    rw [runIgnore, lib_seq]
    simp only [openV, this]; rfl
  | .map ms e, h => by
    have := drive_ignore_members ms e h
    rw [runIgnore, lib_map]
    simp only [openV, this]; rfl

theorem drive_ignore_elems : ∀ (xs : List PT) (e : End) (h : Heap),
    driveElemsPT (lib E) BH.ignore xs e h = (runIgnoreElems xs e, h)
  | [], .closed, h => rfl
  | [], .stop p, h => by rw [lib_elems_stop, runIgnoreElems]
  | x :: xs, e, h => by
    have h1 := drive_ignore x h
    have h2 := drive_ignore_elems xs e h
    rw [lib_elems_cons, runIgnoreElems]
    simp only [childB, h1]
    cases runIgnore x with
    | ok a => exact h2
    | err => rfl
    | panic => rfl

theorem drive_ignore_members : ∀ (ms : List (Bytes × PT)) (e : End) (h : Heap),
    driveMembersPT (lib E) BH.ignore ms e h = (runIgnoreMembers ms e, h)
  | [], .closed, h => rfl
  | [], .stop p, h => by rw [lib_members_stop, runIgnoreMembers]
  | (k, x) :: ms, e, h => by
    have h1 := drive_ignore x h
    have h2 := drive_ignore_members ms e h
    rw [lib_members_cons, runIgnoreMembers]
    simp only [childB, h1]
    cases runIgnore x with
    | ok a => exact h2
    | err => rfl
    | panic => rfl

end

/-- What a traversal started on the place `p` of type `t` does: the result is that of the pure run `r`, and when it is over (and its
builders are dropped) the memory differs only in the content of the place. -/
structure Post (h : Heap) (m0 : Mem) (p : Ptr) (r : Res Val) (h' : Heap) : Prop where
  noFault : h'.fault = false
  next : h.next ≤ h'.next
  mem : ∃ c, m0.write p c = some h'.mem ∧ ∀ v, r = .ok v → c = some v

/-- The memory after a step on the innermost builder. -/
theorem good_set {h : Heap} (g : h.Good) {a : Nat} {o : Obj} (ha : h.mem a ≠ none) (o' : Obj) (_ : h.mem a = some o) :
    (h.set a o').Good :=
  ⟨g.noFault, fun b hb => by
    have : b ≠ a := by rintro rfl; exact ha (g.fresh _ hb)
    simp only [Heap.set]; rw [Mem.set_ne _ _ this]; exact g.fresh b hb⟩

/-- An open chain is dropped after a failure. -/
theorem post_fail {t p q a core m0} {h h' : Heap} {isMap : Bool} (ho : Open t p q a core m0 h'.mem) (hw : core.WF E isMap)
    (hf : h'.fault = false) (hn : h.next ≤ h'.next) (r : Res Val) (hr : ∀ v, r ≠ .ok v) : Post h m0 p r (dropB q h') := by
  obtain ⟨e1, e2, e3⟩ := open_drop ho hw.dropOk rfl hf
  obtain ⟨c, hc⟩ := ho.valid
  exact ⟨e2, by rw [e3]; exact hn, c, by rw [e1]; exact write_read hc, fun v hv => absurd hv (hr v)⟩

/-- Finishing an open chain. -/
theorem finish_post {t p q a core m0} {h : Heap} {isMap : Bool} (ho : Open t p q a core m0 h.mem) (hw : core.WF E isMap)
    (hf : h.fault = false) : ∃ h', finishB E q h = ((finishCore E core).map fun _ => (), h') ∧
      Post h m0 p ((finishCore E core).map (wrap t)) (dropB q h') := by
  obtain ⟨r, c', e1, e2, e3⟩ := hw.finish
  rw [finishCore, e1]
  cases r with
  | ok v =>
    obtain ⟨h', f1, f2, f3, f4⟩ := open_finish_ok E ho e1 e2.dropOk rfl hf
    refine ⟨h', f1, f3, by rw [f4]; exact Nat.le_refl _, _, f2, ?_⟩
    intro u hu; cases hu; rfl
  | err =>
    obtain ⟨h', f1, f2, f3, f4⟩ := open_finish_err E ho e1 e2.dropOk rfl hf
    obtain ⟨c, hc⟩ := ho.valid
    exact ⟨h', f1, f3, by rw [f4]; exact Nat.le_refl _, c, by rw [f2]; exact write_read hc, nofun⟩
  | panic => exact absurd rfl e3

theorem map_ok_iff {α β : Type} {f : α → β} {r : Res α} {v : β} (h : r.map f = .ok v) : ∃ u, r = .ok u ∧ v = f u := by
  cases r <;> simp [Res.map, Res.bind] at h
  exact ⟨_, rfl, h.symm⟩

mutual

theorem drive_place : ∀ (x : PT) {t : Ty} {p : Ptr} {h : Heap}, h.Good → Valid h.mem p →
    ∃ h', drivePT (lib E) (VH.place t p) x h = ((run E x t).map fun _ => (), h') ∧ Post h h.mem p (run E x t) h'
  | .leaf ev, t, p, h, g, hv => by
    obtain ⟨c, hc⟩ := hv
    rw [lib_leaf, run]
    cases hl : ev.isLeaf with
    | false =>
      exact ⟨h, rfl, g.noFault, Nat.le_refl _, c, write_read hc, nofun⟩
    | true =>
      simp only [if_true, leafAt, hc]
      obtain ⟨m', hw, -⟩ := Valid.write ⟨c, hc⟩ (leafOn E t ev c).2
      rw [heap_write_eq hw]
      cases hlv : leafVal E t ev with
      | none =>
        refine ⟨{ h with mem := m' }, by rw [leafOn_none E hlv]; rfl, g.noFault, Nat.le_refl _, _, hw, nofun⟩
      | some v =>
        rw [leafOn_some E hlv] at hw ⊢
        exact ⟨_, rfl, g.noFault, Nat.le_refl _, _, hw, by intro u hu; cases hu; rfl⟩
  | .bad b, t, p, h, g, hv => by
    obtain ⟨c, hc⟩ := hv
    rw [lib_bad, run]
    exact ⟨h, by rw [failure_map], g.noFault, Nat.le_refl _, c, write_read hc, fun v hv => absurd hv (failure_ne_ok b v)⟩
  | .seq xs e, t, p, h, g, hv => by
    rw [lib_seq, run]
    cases hc : openCore E t false with
    | none =>
      obtain ⟨c, h', e1, e2, e3, e4⟩ := open_none E false hc g hv
      refine ⟨h', ?_, e3, e4, c, e2, nofun⟩
      simp only [openV, e1]; rfl
    | some core =>
      obtain ⟨q, a, m0, c, h1, e1, e2, e3, e4, e5⟩ := open_some E false hc g hv
      obtain ⟨h2, f1, f2⟩ := drive_elems xs e e3 (openCore_wf E hc) e4
      refine ⟨dropB q h2, ?_, f2.noFault, Nat.le_trans e5 f2.next, ?_⟩
      · simp only [openV, e1]
        rw [f1]
        cases runElems E xs e core <;> rfl
      · obtain ⟨c', hw, hr⟩ := f2.mem
        rw [write_write c' hv e2] at hw
        exact ⟨c', hw, hr⟩
  | .map ms e, t, p, h, g, hv => by
    rw [lib_map, run]
    cases hc : openCore E t true with
    | none =>
      obtain ⟨c, h', e1, e2, e3, e4⟩ := open_none E true hc g hv
      refine ⟨h', ?_, e3, e4, c, e2, nofun⟩
      simp only [openV, e1]; rfl
    | some core =>
      obtain ⟨q, a, m0, c, h1, e1, e2, e3, e4, e5⟩ := open_some E true hc g hv
      obtain ⟨h2, f1, f2⟩ := drive_members ms e e3 (openCore_wf E hc) e4
      refine ⟨dropB q h2, ?_, f2.noFault, Nat.le_trans e5 f2.next, ?_⟩
      · simp only [openV, e1]
        rw [f1]
        cases runMembers E ms e core <;> rfl
      · obtain ⟨c', hw, hr⟩ := f2.mem
        rw [write_write c' hv e2] at hw
        exact ⟨c', hw, hr⟩

theorem drive_elems : ∀ (xs : List PT) (e : End) {t : Ty} {p : Ptr} {q : BH} {a : Nat} {core : Core} {m0 : Mem} {h : Heap},
    Open t p q a core m0 h.mem → core.WF E false → h.Good →
    ∃ h', driveElemsPT (lib E) q xs e h = ((runElems E xs e core).map fun _ => (), h') ∧
      Post h m0 p ((runElems E xs e core).map (wrap t)) (dropB q h')
  | [], .closed, t, p, q, a, core, m0, h, ho, hw, g => by
    rw [lib_elems_closed, runElems]
    exact finish_post E ho hw g.noFault
  | [], .stop b, t, p, q, a, core, m0, h, ho, hw, g => by
    rw [lib_elems_stop, runElems]
    exact ⟨h, by rw [failure_map], post_fail E ho hw g.noFault (Nat.le_refl _) _ (by rw [failure_map]; exact failure_ne_ok b)⟩
  | x :: xs, e, t, p, q, a, core, m0, h, ho, hw, g => by
    obtain ⟨out, ha⟩ := ho.at_base
    obtain ⟨r, c', e1, e2, e3, e4⟩ := hw.child E none rfl
    have hch := open_child E ho none ha e1
    have ho1 := ho.update ha c'
    have g1 : (h.set a (.builder out c')).Good := good_set g (by simp [ha]) _ ha
    rw [lib_elems_cons, runElems, e1]
    rw [hch]
    match r, e3, e4 with
    | .err, _, _ =>
      exact ⟨_, rfl, post_fail E (h := h) (h' := h.set a (.builder out c')) ho1 e2 g1.noFault (Nat.le_refl h.next) .err nofun⟩
    | .ok none, _, _ =>
      simp only [Res.map_ok]
      have hi := drive_ignore E x (h.set a (.builder out c'))
      rw [hi]
      cases hx : runIgnore x with
      | ok u =>
        obtain ⟨h', f1, f2⟩ := drive_elems xs e (h := h.set a (.builder out c')) ho1 e2 g1
        exact ⟨h', f1, f2.noFault, f2.next, f2.mem⟩
      | err => exact ⟨_, rfl, post_fail E (h := h) (h' := h.set a (.builder out c')) ho1 e2 g1.noFault (Nat.le_refl h.next) .err nofun⟩
      | panic => exact ⟨_, rfl, post_fail E (h := h) (h' := h.set a (.builder out c')) ho1 e2 g1.noFault (Nat.le_refl h.next) .panic nofun⟩
    | .ok (some (f, t')), _, e4 =>
      simp only [Res.map_ok]
      have hv : Valid (h.set a (.builder out c')).mem ⟨a, f, 0⟩ := by
        cases hg : c'.get f with
        | none => exact absurd hg (e4 f t' rfl)
        | some c0 => exact ⟨c0, by simp [Mem.read, Heap.set, Obj.get, hg, readD]⟩
      obtain ⟨h2, f1, f2⟩ := drive_place x (t := t') g1 hv
      obtain ⟨cx, hwx, hrx⟩ := f2.mem
      have hmem : h2.mem = h.mem.set a (some (.builder out (c'.put f cx))) := by
        cases hg : c'.get f with
        | none => exact absurd hg (e4 f t' rfl)
        | some c0 =>
          have : (h.set a (.builder out c')).mem.write ⟨a, f, 0⟩ cx = some (h.mem.set a (some (.builder out (c'.put f cx)))) := by
            simp [Mem.write, Heap.set, Obj.get, hg, writeD, Obj.put, Mem.set_set]
          rw [this] at hwx; exact (Option.some.inj hwx).symm
      have ho2 : Open t p q a (c'.put f cx) m0 h2.mem := by rw [hmem]; exact ho.update ha _
      have hg2 : h2.Good := g1.of_write hwx f2.noFault f2.next
      rw [f1]
      cases hx : run E x t' with
      | ok v =>
        have := hrx v hx; subst this
        obtain ⟨h', k1, k2⟩ := drive_elems xs e ho2 (e2.put _ f _) hg2
        exact ⟨h', k1, k2.noFault, Nat.le_trans f2.next k2.next, k2.mem⟩
      | err => exact ⟨_, rfl, post_fail E (h := h) ho2 (e2.put _ f _) hg2.noFault f2.next .err nofun⟩
      | panic => exact ⟨_, rfl, post_fail E (h := h) ho2 (e2.put _ f _) hg2.noFault f2.next .panic nofun⟩

theorem drive_members : ∀ (ms : List (Bytes × PT)) (e : End) {t : Ty} {p : Ptr} {q : BH} {a : Nat} {core : Core} {m0 : Mem} {h : Heap},
    Open t p q a core m0 h.mem → core.WF E true → h.Good →
    ∃ h', driveMembersPT (lib E) q ms e h = ((runMembers E ms e core).map fun _ => (), h') ∧
      Post h m0 p ((runMembers E ms e core).map (wrap t)) (dropB q h')
  | [], .closed, t, p, q, a, core, m0, h, ho, hw, g => by
    rw [lib_members_closed, runMembers]
    exact finish_post E ho hw g.noFault
  | [], .stop b, t, p, q, a, core, m0, h, ho, hw, g => by
    rw [lib_members_stop, runMembers]
    exact ⟨h, by rw [failure_map], post_fail E ho hw g.noFault (Nat.le_refl _) _ (by rw [failure_map]; exact failure_ne_ok b)⟩
  | (k, x) :: ms, e, t, p, q, a, core, m0, h, ho, hw, g => by
    obtain ⟨out, ha⟩ := ho.at_base
    obtain ⟨r, c', e1, e2, e3, e4⟩ := hw.child E (some k) rfl
    have hch := open_child E ho (some k) ha e1
    have ho1 := ho.update ha c'
    have g1 : (h.set a (.builder out c')).Good := good_set g (by simp [ha]) _ ha
    rw [lib_members_cons, runMembers, e1]
    rw [hch]
    match r, e3, e4 with
    | .err, _, _ =>
      exact ⟨_, rfl, post_fail E (h := h) (h' := h.set a (.builder out c')) ho1 e2 g1.noFault (Nat.le_refl h.next) .err nofun⟩
    | .ok none, _, _ =>
      simp only [Res.map_ok]
      have hi := drive_ignore E x (h.set a (.builder out c'))
      rw [hi]
      cases hx : runIgnore x with
      | ok u =>
        obtain ⟨h', f1, f2⟩ := drive_members ms e (h := h.set a (.builder out c')) ho1 e2 g1
        exact ⟨h', f1, f2.noFault, f2.next, f2.mem⟩
      | err => exact ⟨_, rfl, post_fail E (h := h) (h' := h.set a (.builder out c')) ho1 e2 g1.noFault (Nat.le_refl h.next) .err nofun⟩
      | panic => exact ⟨_, rfl, post_fail E (h := h) (h' := h.set a (.builder out c')) ho1 e2 g1.noFault (Nat.le_refl h.next) .panic nofun⟩
    | .ok (some (f, t')), _, e4 =>
      simp only [Res.map_ok]
      have hv : Valid (h.set a (.builder out c')).mem ⟨a, f, 0⟩ := by
        cases hg : c'.get f with
        | none => exact absurd hg (e4 f t' rfl)
        | some c0 => exact ⟨c0, by simp [Mem.read, Heap.set, Obj.get, hg, readD]⟩
      obtain ⟨h2, f1, f2⟩ := drive_place x (t := t') g1 hv
      obtain ⟨cx, hwx, hrx⟩ := f2.mem
      have hmem : h2.mem = h.mem.set a (some (.builder out (c'.put f cx))) := by
        cases hg : c'.get f with
        | none => exact absurd hg (e4 f t' rfl)
        | some c0 =>
          have : (h.set a (.builder out c')).mem.write ⟨a, f, 0⟩ cx = some (h.mem.set a (some (.builder out (c'.put f cx)))) := by
            simp [Mem.write, Heap.set, Obj.get, hg, writeD, Obj.put, Mem.set_set]
          rw [this] at hwx; exact (Option.some.inj hwx).symm
      have ho2 : Open t p q a (c'.put f cx) m0 h2.mem := by rw [hmem]; exact ho.update ha _
      have hg2 : h2.Good := g1.of_write hwx f2.noFault f2.next
      rw [f1]
      cases hx : run E x t' with
      | ok v =>
        have := hrx v hx; subst this
        obtain ⟨h', k1, k2⟩ := drive_members ms e ho2 (e2.put _ f _) hg2
        exact ⟨h', k1, k2.noFault, Nat.le_trans f2.next k2.next, k2.mem⟩
      | err => exact ⟨_, rfl, post_fail E (h := h) ho2 (e2.put _ f _) hg2.noFault f2.next .err nofun⟩
      | panic => exact ⟨_, rfl, post_fail E (h := h) ho2 (e2.put _ f _) hg2.noFault f2.next .panic nofun⟩

end

end Miniserde
