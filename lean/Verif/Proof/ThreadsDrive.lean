import Verif.Proof.Threads

/-!
# The disturbed traversal = pure run
-/

namespace Miniserde.Threads
open Miniserde
variable (E : Env)

/-- The traits, by disturbed programs. -/
@[reducible] def protoJ : Proto W where
  V := VH
  Q := BH
  M := BH
  null v := runJ (leafP E v .null)
  boolean v b := runJ (leafP E v (.bool b))
  string v s := runJ (leafP E v (.str s))
  negative v n := runJ (leafP E v (.negative n))
  nonnegative v n := runJ (leafP E v (.nonnegative n))
  float v x := runJ (leafP E v (.float x))
  seq v := runJ (openP E v false)
  map v := runJ (openP E v true)
  element q := runJ (childP E q none)
  seqFinish q := runJ (finishP E q)
  key m k := runJ (childP E m (some k))
  mapFinish m := runJ (finishP E m)
  dropSeq q w := (runJ (dropP q) w).2
  dropMap q w := (runJ (dropP q) w).2

/-- After a failure nothing more happens. -/
theorem res_eta {α : Type} (z : α × W) : (z.1, z.2) = z := rfl

/-! ## Opening -/

theorem openPlaceP_base {t : Ty} (h : t.isBase = true) (p : Ptr) (m : Bool) :
    openPlaceP E t p m = match t.core E m with
      | some core => .alloc (.builder p core) fun a => .ret (.ok (.at a))
      | none => .ret .err := by
  cases t <;> first | rfl | cases h

theorem good_tick {w : W} (g : w.1.Good) : (tick w).Good :=
  ⟨g.noFault, fun a ha => g.fresh a (Nat.le_trans (Nat.le_add_right ..) ha)⟩

theorem good_eqv {h g : Heap} (k : h.Good) (e : Eqv h g) : g.Good :=
  ⟨e.fault.trans k.noFault, fun a ha => by rw [e.mem]; exact k.fresh a (Nat.le_trans e.next ha)⟩

theorem open_noneJ (isMap : Bool) {t : Ty} : ∀ {p : Ptr} {w : W}, openCore E t isMap = none → w.1.Good → Valid w.1.mem p →
    ∃ c w', runJ (openPlaceP E t p isMap) w = (.err, w') ∧ w.1.mem.write p c = some w'.1.mem ∧ w'.1.fault = false ∧ w.1.next ≤ w'.1.next := by
  induction t with
  | opt t ih =>
    intro p w hc g hv
    obtain ⟨m1, hw, hr⟩ := hv.write (some .optNone)
    have hr' : m1.read p = some (someOpt none) := hr
    obtain ⟨w1, k1, k2⟩ := write_same p (some .optNone) (Eqv.refl w.1)
    rw [heap_write_eq hw] at k2
    have km : w1.1.mem = m1 := k2.mem
    have g1 : w1.1.Good := g.of_write (p := p) (c := some .optNone) (by rw [km]; exact hw) (k2.fault.trans g.noFault) k2.next
    obtain ⟨c, w', e1, e2, e3, e4⟩ := ih (p := p.deref) (w := w1) hc g1 ⟨_, by rw [km]; exact deref_read hr'⟩
    refine ⟨someOpt c, w', ?_, ?_, e3, Nat.le_trans k2.next e4⟩
    · rw [openPlaceP, runJ_bind, k1]; exact e1
    · rw [← write_write (someOpt c) hv hw, ← deref_write c hr', ← km]; exact e2
  | box t ih =>
    intro p w hc g hv
    have gt := good_tick g
    have hfr := gt.fresh _ (Nat.le_refl _)
    obtain ⟨c, w', e1, e2, e3, e4⟩ := ih (p := ⟨(tick w).next, 0, 0⟩) (w := (((tick w).alloc (.slot none)).2, w.2.tail)) hc
      (alloc_good gt _) ⟨none, slot_read (Mem.set_same ..)⟩
    obtain ⟨c0, hc0⟩ := hv
    have hm : w'.1.mem = w.1.mem.set (tick w).next (some (.slot c)) := by
      have : ((tick w).alloc (.slot none)).2.mem.write ⟨(tick w).next, 0, 0⟩ c = some (w.1.mem.set (tick w).next (some (.slot c))) := by
        simp only [Heap.alloc]
        rw [slot_write (c := none) c (Mem.set_same ..), Mem.set_set]; rfl
      rw [this] at e2; exact (Option.some.inj e2).symm
    obtain ⟨w2, f1, f2⟩ := runJ_free (a := (tick w).next) (k := .ret (Res.err : Res BH)) (Eqv.refl w'.1)
    have hfree : w'.1.free (tick w).next = { w'.1 with mem := w.1.mem } := by
      simp only [Heap.free, hm, Mem.set_same]
      rw [Mem.set_set, Mem.set_eq_self w.1.mem hfr]
    rw [hfree] at f2
    refine ⟨c0, w2, ?_, ?_, f2.fault.trans e3, ?_⟩
    · rw [openPlaceP, runJ, runJ_bind]
      have e1' : runJ (openPlaceP E t ⟨((tick w).alloc (.slot none)).1, 0, 0⟩ isMap) (((tick w).alloc (.slot none)).2, w.2.tail) = (.err, w') := e1
      rw [e1']
      exact f1
    · rw [write_read hc0, f2.mem]
    · have := f2.next
      simp only [Heap.alloc, tick, bump] at e4 this; omega
  | _ =>
    intro p w hc g hv
    obtain ⟨c0, hc0⟩ := hv
    rw [openCore_base E rfl] at hc
    refine ⟨c0, w, ?_, write_read hc0, g.noFault, Nat.le_refl _⟩
    rw [openPlaceP_base E rfl, hc]; rfl

theorem open_someJ (isMap : Bool) {t : Ty} : ∀ {p : Ptr} {w : W} {core : Core}, openCore E t isMap = some core → w.1.Good →
    Valid w.1.mem p →
    ∃ q a m0 c w', runJ (openPlaceP E t p isMap) w = (.ok q, w') ∧ w.1.mem.write p c = some m0 ∧ Open t p q a core m0 w'.1.mem ∧
      w'.1.Good ∧ w.1.next ≤ w'.1.next := by
  induction t with
  | opt t ih =>
    intro p w core hc g hv
    obtain ⟨m1, hw, hr⟩ := hv.write (some .optNone)
    have hr' : m1.read p = some (someOpt none) := hr
    obtain ⟨w1, k1, k2⟩ := write_same p (some .optNone) (Eqv.refl w.1)
    rw [heap_write_eq hw] at k2
    have km : w1.1.mem = m1 := k2.mem
    have g1 : w1.1.Good := g.of_write (p := p) (c := some .optNone) (by rw [km]; exact hw) (k2.fault.trans g.noFault) k2.next
    obtain ⟨q, a, m0, c, w', e1, e2, e3, e4, e5⟩ := ih (p := p.deref) (w := w1) hc g1 ⟨_, by rw [km]; exact deref_read hr'⟩
    have e2' : w.1.mem.write p (someOpt c) = some m0 := by
      rw [← write_write (someOpt c) hv hw, ← deref_write c hr', ← km]; exact e2
    obtain ⟨m0', hw', hr''⟩ := hv.write (someOpt c)
    rw [hw'] at e2'; cases e2'
    refine ⟨q, a, m0, someOpt c, w', ?_, hw', .opt hr'' e3, e4, Nat.le_trans k2.next e5⟩
    rw [openPlaceP, runJ_bind, k1]; exact e1
  | box t ih =>
    intro p w core hc g hv
    have gt := good_tick g
    have hfr := gt.fresh _ (Nat.le_refl _)
    obtain ⟨q, a, m0, c, w', e1, e2, e3, e4, e5⟩ := ih (p := ⟨(tick w).next, 0, 0⟩) (w := (((tick w).alloc (.slot none)).2, w.2.tail)) hc
      (alloc_good gt _) ⟨none, slot_read (Mem.set_same ..)⟩
    have hm : m0 = w.1.mem.set (tick w).next (some (.slot c)) := by
      have : ((tick w).alloc (.slot none)).2.mem.write ⟨(tick w).next, 0, 0⟩ c = some (w.1.mem.set (tick w).next (some (.slot c))) := by
        simp only [Heap.alloc]
        rw [slot_write (c := none) c (Mem.set_same ..), Mem.set_set]; rfl
      rw [this] at e2; exact (Option.some.inj e2).symm
    obtain ⟨q', rfl⟩ := e3.is_at
    subst hm
    obtain ⟨c0, hc0⟩ := hv
    have g2 := good_tick e4
    have hb : (tick w').mem (tick w').next = none := g2.fresh _ (Nat.le_refl _)
    have hq : q' < (tick w').next := by
      apply Nat.lt_of_not_le; intro hle
      have h0 : w'.1.mem q' = none := g2.fresh _ hle
      clear ih e1 e2
      have : ∀ {t p q a core m0 m}, Open t p q a core m0 m → q = .at q' → m q' ≠ none := by
        intro t p q a core m0 m ho
        induction ho with
        | base hb hv ha hm => rintro ⟨⟩; subst hm; simp
        | opt hr h ih => exact ih
        | box hv hs hb hsb hq h ih => rintro ⟨⟩; rw [h.agree _ (by simp)]; simp
      exact this e3 rfl h0
    have hlt : (tick w).next < (tick w').next := by
      simp only [Heap.alloc] at e5
      have : w'.1.next ≤ (tick w').next := Nat.le_add_right ..
      omega
    have hm0b : w.1.mem (tick w').next = none := gt.fresh _ (Nat.le_of_lt hlt)
    refine ⟨.at (tick w').next, a, w.1.mem, c0, (((tick w').alloc (.boxB p (tick w).next (.at q'))).2, w'.2.tail), ?_, write_read hc0, ?_, alloc_good g2 _, ?_⟩
    · rw [openPlaceP, runJ, runJ_bind]
      have e1' : runJ (openPlaceP E t ⟨((tick w).alloc (.slot none)).1, 0, 0⟩ isMap) (((tick w).alloc (.slot none)).2, w.2.tail) = (.ok (.at q'), w') := e1
      rw [e1']
      rfl
    · exact .box (c := c) ⟨_, hc0⟩ hfr hm0b (Nat.ne_of_lt hlt) hq (e3.frame _ hb)
    · have : w.1.next ≤ (tick w).next := Nat.le_add_right ..
      simp only [Heap.alloc]; omega
  | _ =>
    intro p w core hc g hv
    obtain ⟨c0, hc0⟩ := hv
    rw [openCore_base E rfl] at hc
    refine ⟨_, _, w.1.mem, c0, (((tick w).alloc (.builder p core)).2, w.2.tail), ?_, write_read hc0,
      .base (a := (tick w).next) rfl ⟨_, hc0⟩ ((good_tick g).fresh _ (Nat.le_refl _)) rfl, alloc_good (good_tick g) _, ?_⟩
    · rw [openPlaceP_base E rfl, hc]; rfl
    · simp only [Heap.alloc, tick, bump]; omega

theorem leafCall_libJ (v : VH) (ev : Event) (h : W) :
    leafCall (protoJ E) v ev h = if ev.isLeaf then runJ (leafP E v ev) h else (.panic, h) := by
  cases ev <;> rfl

/-! Unfolding lemmas for the traversal by `lib`. -/

theorem lib_leafJ (v : VH) (ev : Event) (h : W) :
    drivePT (protoJ E) v (.leaf ev) h = if ev.isLeaf then runJ (leafP E v ev) h else (.panic, h) :=
  (drivePT.eq_1 (protoJ E) v h ev).trans (leafCall_libJ E v ev h)

theorem lib_badJ (v : VH) (b : Bool) (h : W) : drivePT (protoJ E) v (.bad b) h = (failure b, h) := drivePT.eq_2 (protoJ E) v h b

theorem lib_seqJ (v : VH) (xs : List PT) (e : End) (h : W) : drivePT (protoJ E) v (.seq xs e) h =
    match runJ (openP E v false) h with
    | (.ok q, h) => ((driveElemsPT (protoJ E) q xs e h).1, (runJ (dropP q) (driveElemsPT (protoJ E) q xs e h).2).2)
    | (.err, h) => (.err, h)
    | (.panic, h) => (.panic, h) := by
  refine (drivePT.eq_3 (protoJ E) v h xs e).trans ?_
  generalize hy : (protoJ E).seq v h = y
  have hy' : runJ (openP E v false) h = y := hy
  rw [hy']; obtain ⟨r, w⟩ := y
  cases r <;> rfl

theorem lib_mapJ (v : VH) (ms : List (Bytes × PT)) (e : End) (h : W) : drivePT (protoJ E) v (.map ms e) h =
    match runJ (openP E v true) h with
    | (.ok q, h) => ((driveMembersPT (protoJ E) q ms e h).1, (runJ (dropP q) (driveMembersPT (protoJ E) q ms e h).2).2)
    | (.err, h) => (.err, h)
    | (.panic, h) => (.panic, h) := by
  refine (drivePT.eq_4 (protoJ E) v h ms e).trans ?_
  generalize hy : (protoJ E).map v h = y
  have hy' : runJ (openP E v true) h = y := hy
  rw [hy']; obtain ⟨r, w⟩ := y
  cases r <;> rfl

theorem lib_elems_closedJ (q : BH) (h : W) : driveElemsPT (protoJ E) q [] .closed h = runJ (finishP E q) h :=
  driveElemsPT.eq_1 (protoJ E) q h
theorem lib_elems_stopJ (q : BH) (b : Bool) (h : W) : driveElemsPT (protoJ E) q [] (.stop b) h = (failure b, h) :=
  driveElemsPT.eq_2 (protoJ E) q h b
theorem lib_elems_consJ (q : BH) (x : PT) (xs : List PT) (e : End) (h : W) : driveElemsPT (protoJ E) q (x :: xs) e h =
    match runJ (childP E q none) h with
    | (.ok v, h) =>
      match drivePT (protoJ E) v x h with
      | (.ok _, h) => driveElemsPT (protoJ E) q xs e h
      | (.err, h) => (.err, h)
      | (.panic, h) => (.panic, h)
    | (.err, h) => (.err, h)
    | (.panic, h) => (.panic, h) := by
  refine (driveElemsPT.eq_3 (protoJ E) q e h x xs).trans ?_
  generalize hy : (protoJ E).element q h = y
  have hy' : runJ (childP E q none) h = y := hy
  rw [hy']; obtain ⟨r, w⟩ := y
  cases r with
  | ok v =>
    dsimp only
    generalize drivePT (protoJ E) v x w = z
    obtain ⟨r, w⟩ := z
    cases r <;> rfl
  | err => rfl
  | panic => rfl

theorem lib_members_closedJ (q : BH) (h : W) : driveMembersPT (protoJ E) q [] .closed h = runJ (finishP E q) h :=
  driveMembersPT.eq_1 (protoJ E) q h
theorem lib_members_stopJ (q : BH) (b : Bool) (h : W) : driveMembersPT (protoJ E) q [] (.stop b) h = (failure b, h) :=
  driveMembersPT.eq_2 (protoJ E) q h b
theorem lib_members_consJ (q : BH) (k : Bytes) (x : PT) (ms : List (Bytes × PT)) (e : End) (h : W) :
    driveMembersPT (protoJ E) q ((k, x) :: ms) e h =
    match runJ (childP E q (some k)) h with
    | (.ok v, h) =>
      match drivePT (protoJ E) v x h with
      | (.ok _, h) => driveMembersPT (protoJ E) q ms e h
      | (.err, h) => (.err, h)
      | (.panic, h) => (.panic, h)
    | (.err, h) => (.err, h)
    | (.panic, h) => (.panic, h) := by
  refine (driveMembersPT.eq_3 (protoJ E) q e h k x ms).trans ?_
  generalize hy : (protoJ E).key q k h = y
  have hy' : runJ (childP E q (some k)) h = y := hy
  rw [hy']; obtain ⟨r, w⟩ := y
  cases r with
  | ok v =>
    dsimp only
    generalize drivePT (protoJ E) v x w = z
    obtain ⟨r, w⟩ := z
    cases r <;> rfl
  | err => rfl
  | panic => rfl

mutual

/-- `<dyn Visitor>::ignore()` touches nothing. -/
theorem drive_ignoreJ : ∀ (x : PT) (h : W), drivePT (protoJ E) VH.ignore x h = (runIgnore x, h)
  | .leaf ev, h => by
    rw [lib_leafJ, runIgnore]
    cases ev.isLeaf <;> rfl
  | .bad p, h => by rw [lib_badJ, runIgnore]
  | .seq xs e, h => by
    have := drive_ignore_elemsJ xs e h
    rw [runIgnore, lib_seqJ]
    simp only [openP, runJ, this]; rfl
  | .map ms e, h => by
    have := drive_ignore_membersJ ms e h
    rw [runIgnore, lib_mapJ]
    simp only [openP, runJ, this]; rfl

theorem drive_ignore_elemsJ : ∀ (xs : List PT) (e : End) (h : W),
    driveElemsPT (protoJ E) BH.ignore xs e h = (runIgnoreElems xs e, h)
  | [], .closed, h => rfl
  | [], .stop p, h => by rw [lib_elems_stopJ, runIgnoreElems]
  | x :: xs, e, h => by
    have h1 := drive_ignoreJ x h
    have h2 := drive_ignore_elemsJ xs e h
    rw [lib_elems_consJ, runIgnoreElems]
    simp only [childP, runJ, h1]
    cases runIgnore x with
    | ok a => exact h2
    | err => rfl
    | panic => rfl

theorem drive_ignore_membersJ : ∀ (ms : List (Bytes × PT)) (e : End) (h : W),
    driveMembersPT (protoJ E) BH.ignore ms e h = (runIgnoreMembers ms e, h)
  | [], .closed, h => rfl
  | [], .stop p, h => by rw [lib_members_stopJ, runIgnoreMembers]
  | (k, x) :: ms, e, h => by
    have h1 := drive_ignoreJ x h
    have h2 := drive_ignore_membersJ ms e h
    rw [lib_members_consJ, runIgnoreMembers]
    simp only [childP, runJ, h1]
    cases runIgnore x with
    | ok a => exact h2
    | err => rfl
    | panic => rfl

end


theorem post_eqv {h h1 h2 : Heap} {m0 : Mem} {p : Ptr} {r : Res Val} (k : Post h m0 p r h1) (e : Eqv h1 h2) : Post h m0 p r h2 := by
  obtain ⟨c, k1, k2⟩ := k.mem
  exact ⟨e.fault.trans k.noFault, Nat.le_trans k.next e.next, c, by rw [e.mem]; exact k1, k2⟩

theorem post_failJ {t p q a core m0} {h : Heap} {w' : W} {isMap : Bool} (ho : Open t p q a core m0 w'.1.mem) (hw : core.WF E isMap)
    (hf : w'.1.fault = false) (hn : h.next ≤ w'.1.next) (r : Res Val) (hr : ∀ v, r ≠ .ok v) : Post h m0 p r (runJ (dropP q) w').2.1 := by
  obtain ⟨w2, e1, e2⟩ := drop_same q (Eqv.refl w'.1)
  rw [e1]
  exact post_eqv (post_fail E ho hw hf hn r hr) e2

theorem finish_postJ {t p q a core m0} {w : W} {isMap : Bool} (ho : Open t p q a core m0 w.1.mem) (hw : core.WF E isMap)
    (hf : w.1.fault = false) : ∃ w', runJ (finishP E q) w = ((finishCore E core).map fun _ => (), w') ∧
      Post w.1 m0 p ((finishCore E core).map (wrap t)) (runJ (dropP q) w').2.1 := by
  obtain ⟨h', e1, e2⟩ := finish_post E (h := w.1) ho hw hf
  obtain ⟨f1, f2⟩ := finish_same E q (Eqv.refl w.1)
  rw [e1] at f1 f2
  obtain ⟨w3, g1, g2⟩ := drop_same q f2
  refine ⟨(runJ (finishP E q) w).2, Prod.ext f1 rfl, ?_⟩
  rw [g1]
  exact post_eqv e2 g2

theorem childJ {t p q a core m0} {w : W} (ho : Open t p q a core m0 w.1.mem) (k : Option Bytes) {out : Ptr}
    (ha : w.1.mem a = some (.builder out core)) {r : Res (Option (Nat × Ty))} {core' : Core} (hc : core.child E k = some (r, core')) :
    ∃ w', runJ (childP E q k) w = (r.map fun o => match o with | some (f, t) => VH.place t ⟨a, f, 0⟩ | none => .ignore, w') ∧
      Eqv (w.1.set a (.builder out core')) w'.1 := by
  have e := open_child E ho k ha hc
  obtain ⟨f1, f2⟩ := child_same E q k (Eqv.refl w.1)
  rw [e] at f1 f2
  exact ⟨_, Prod.ext f1 rfl, f2⟩

mutual

theorem drive_placeJ : ∀ (x : PT) {t : Ty} {p : Ptr} {w : W}, w.1.Good → Valid w.1.mem p →
    ∃ w', drivePT (protoJ E) (VH.place t p) x w = ((run E x t).map fun _ => (), w') ∧ Post w.1 w.1.mem p (run E x t) w'.1
  | .leaf ev, t, p, w, g, hv => by
    obtain ⟨c, hc⟩ := hv
    rw [lib_leafJ, run]
    cases hl : ev.isLeaf with
    | false =>
      exact ⟨w, rfl, g.noFault, Nat.le_refl _, c, write_read hc, nofun⟩
    | true =>
      obtain ⟨f1, f2⟩ := leaf_same E (.place t p) ev (Eqv.refl w.1)
      refine ⟨(runJ (leafP E (.place t p) ev) w).2, ?_, ?_⟩
      · rw [if_pos rfl]
        refine Prod.ext ?_ rfl
        rw [f1]
        simp only [leafAt, hc]
        cases hlv : leafVal E t ev with
        | none => rw [leafOn_none E hlv]; rfl
        | some v => rw [leafOn_some E hlv]; rfl
      · refine post_eqv ?_ f2
        simp only [if_true, leafAt, hc]
        obtain ⟨m', hw, -⟩ := Valid.write ⟨c, hc⟩ (leafOn E t ev c).2
        rw [heap_write_eq hw]
        cases hlv : leafVal E t ev with
        | none => exact ⟨g.noFault, Nat.le_refl _, _, hw, nofun⟩
        | some v =>
          rw [leafOn_some E hlv] at hw
          exact ⟨g.noFault, Nat.le_refl _, _, hw, by intro u hu; cases hu; rfl⟩
  | .bad b, t, p, w, g, hv => by
    obtain ⟨c, hc⟩ := hv
    rw [lib_badJ, run]
    exact ⟨w, by rw [failure_map], g.noFault, Nat.le_refl _, c, write_read hc, fun v hv => absurd hv (failure_ne_ok b v)⟩
  | .seq xs e, t, p, w, g, hv => by
    rw [lib_seqJ, run]
    cases hc : openCore E t false with
    | none =>
      obtain ⟨c, w', e1, e2, e3, e4⟩ := open_noneJ E false hc g hv
      refine ⟨w', ?_, e3, e4, c, e2, nofun⟩
      simp only [openP, e1]; rfl
    | some core =>
      obtain ⟨q, a, m0, c, w1, e1, e2, e3, e4, e5⟩ := open_someJ E false hc g hv
      obtain ⟨w2, f1, f2⟩ := drive_elemsJ xs e e3 (openCore_wf E hc) e4
      refine ⟨(runJ (dropP q) w2).2, ?_, f2.noFault, Nat.le_trans e5 f2.next, ?_⟩
      · simp only [openP, e1]
        rw [f1]
        cases runElems E xs e core <;> rfl
      · obtain ⟨c', hw, hr⟩ := f2.mem
        rw [write_write c' hv e2] at hw
        exact ⟨c', hw, hr⟩
  | .map ms e, t, p, w, g, hv => by
    rw [lib_mapJ, run]
    cases hc : openCore E t true with
    | none =>
      obtain ⟨c, w', e1, e2, e3, e4⟩ := open_noneJ E true hc g hv
      refine ⟨w', ?_, e3, e4, c, e2, nofun⟩
      simp only [openP, e1]; rfl
    | some core =>
      obtain ⟨q, a, m0, c, w1, e1, e2, e3, e4, e5⟩ := open_someJ E true hc g hv
      obtain ⟨w2, f1, f2⟩ := drive_membersJ ms e e3 (openCore_wf E hc) e4
      refine ⟨(runJ (dropP q) w2).2, ?_, f2.noFault, Nat.le_trans e5 f2.next, ?_⟩
      · simp only [openP, e1]
        rw [f1]
        cases runMembers E ms e core <;> rfl
      · obtain ⟨c', hw, hr⟩ := f2.mem
        rw [write_write c' hv e2] at hw
        exact ⟨c', hw, hr⟩

theorem drive_elemsJ : ∀ (xs : List PT) (e : End) {t : Ty} {p : Ptr} {q : BH} {a : Nat} {core : Core} {m0 : Mem} {w : W},
    Open t p q a core m0 w.1.mem → core.WF E false → w.1.Good →
    ∃ w', driveElemsPT (protoJ E) q xs e w = ((runElems E xs e core).map fun _ => (), w') ∧
      Post w.1 m0 p ((runElems E xs e core).map (wrap t)) (runJ (dropP q) w').2.1
  | [], .closed, t, p, q, a, core, m0, w, ho, hw, g => by
    rw [lib_elems_closedJ, runElems]
    exact finish_postJ E ho hw g.noFault
  | [], .stop b, t, p, q, a, core, m0, w, ho, hw, g => by
    rw [lib_elems_stopJ, runElems]
    exact ⟨w, by rw [failure_map], post_failJ E ho hw g.noFault (Nat.le_refl _) _ (by rw [failure_map]; exact failure_ne_ok b)⟩
  | x :: xs, e, t, p, q, a, core, m0, w, ho, hw, g => by
    obtain ⟨out, ha⟩ := ho.at_base
    obtain ⟨r, c', e1, e2, e3, e4⟩ := hw.child E none rfl
    obtain ⟨w1, hch, hq⟩ := childJ E ho none ha e1
    have hm1 : w1.1.mem = w.1.mem.set a (some (.builder out c')) := hq.mem
    have ho1 : Open t p q a c' m0 w1.1.mem := by rw [hm1]; exact ho.update ha c'
    have g1 : w1.1.Good := good_eqv (good_set g (by simp [ha]) _ ha) hq
    have hn1 : w.1.next ≤ w1.1.next := hq.next
    rw [lib_elems_consJ, runElems, e1]
    rw [hch]
    match r, e3, e4 with
    | .err, _, _ => exact ⟨_, rfl, post_failJ E ho1 e2 g1.noFault hn1 .err nofun⟩
    | .ok none, _, _ =>
      simp only [Res.map_ok]
      have hi := drive_ignoreJ E x w1
      rw [hi]
      cases hx : runIgnore x with
      | ok u =>
        obtain ⟨w', f1, f2⟩ := drive_elemsJ xs e (w := w1) ho1 e2 g1
        exact ⟨w', f1, f2.noFault, Nat.le_trans hn1 f2.next, f2.mem⟩
      | err => exact ⟨_, rfl, post_failJ E ho1 e2 g1.noFault hn1 .err nofun⟩
      | panic => exact ⟨_, rfl, post_failJ E ho1 e2 g1.noFault hn1 .panic nofun⟩
    | .ok (some (f, t')), _, e4 =>
      simp only [Res.map_ok]
      have hv : Valid w1.1.mem ⟨a, f, 0⟩ := by
        cases hg : c'.get f with
        | none => exact absurd hg (e4 f t' rfl)
        | some c0 => exact ⟨c0, by simp [Mem.read, hm1, Obj.get, hg, readD]⟩
      obtain ⟨w2, f1, f2⟩ := drive_placeJ x (t := t') g1 hv
      obtain ⟨cx, hwx, hrx⟩ := f2.mem
      have hmem : w2.1.mem = w.1.mem.set a (some (.builder out (c'.put f cx))) := by
        cases hg : c'.get f with
        | none => exact absurd hg (e4 f t' rfl)
        | some c0 =>
          have : w1.1.mem.write ⟨a, f, 0⟩ cx = some (w.1.mem.set a (some (.builder out (c'.put f cx)))) := by
            simp [Mem.write, hm1, Obj.get, hg, writeD, Obj.put, Mem.set_set]
          rw [this] at hwx; exact (Option.some.inj hwx).symm
      have ho2 : Open t p q a (c'.put f cx) m0 w2.1.mem := by rw [hmem]; exact ho.update ha _
      have hg2 : w2.1.Good := g1.of_write hwx f2.noFault f2.next
      have hn2 : w.1.next ≤ w2.1.next := Nat.le_trans hn1 f2.next
      rw [f1]
      cases hx : run E x t' with
      | ok v =>
        have := hrx v hx; subst this
        obtain ⟨w', k1, k2⟩ := drive_elemsJ xs e ho2 (e2.put _ f _) hg2
        exact ⟨w', k1, k2.noFault, Nat.le_trans hn2 k2.next, k2.mem⟩
      | err => exact ⟨_, rfl, post_failJ E ho2 (e2.put _ f _) hg2.noFault hn2 .err nofun⟩
      | panic => exact ⟨_, rfl, post_failJ E ho2 (e2.put _ f _) hg2.noFault hn2 .panic nofun⟩

theorem drive_membersJ : ∀ (ms : List (Bytes × PT)) (e : End) {t : Ty} {p : Ptr} {q : BH} {a : Nat} {core : Core} {m0 : Mem} {w : W},
    Open t p q a core m0 w.1.mem → core.WF E true → w.1.Good →
    ∃ w', driveMembersPT (protoJ E) q ms e w = ((runMembers E ms e core).map fun _ => (), w') ∧
      Post w.1 m0 p ((runMembers E ms e core).map (wrap t)) (runJ (dropP q) w').2.1
  | [], .closed, t, p, q, a, core, m0, w, ho, hw, g => by
    rw [lib_members_closedJ, runMembers]
    exact finish_postJ E ho hw g.noFault
  | [], .stop b, t, p, q, a, core, m0, w, ho, hw, g => by
    rw [lib_members_stopJ, runMembers]
    exact ⟨w, by rw [failure_map], post_failJ E ho hw g.noFault (Nat.le_refl _) _ (by rw [failure_map]; exact failure_ne_ok b)⟩
  | (k, x) :: ms, e, t, p, q, a, core, m0, w, ho, hw, g => by
    obtain ⟨out, ha⟩ := ho.at_base
    obtain ⟨r, c', e1, e2, e3, e4⟩ := hw.child E (some k) rfl
    obtain ⟨w1, hch, hq⟩ := childJ E ho (some k) ha e1
    have hm1 : w1.1.mem = w.1.mem.set a (some (.builder out c')) := hq.mem
    have ho1 : Open t p q a c' m0 w1.1.mem := by rw [hm1]; exact ho.update ha c'
    have g1 : w1.1.Good := good_eqv (good_set g (by simp [ha]) _ ha) hq
    have hn1 : w.1.next ≤ w1.1.next := hq.next
    rw [lib_members_consJ, runMembers, e1]
    rw [hch]
    match r, e3, e4 with
    | .err, _, _ => exact ⟨_, rfl, post_failJ E ho1 e2 g1.noFault hn1 .err nofun⟩
    | .ok none, _, _ =>
      simp only [Res.map_ok]
      have hi := drive_ignoreJ E x w1
      rw [hi]
      cases hx : runIgnore x with
      | ok u =>
        obtain ⟨w', f1, f2⟩ := drive_membersJ ms e (w := w1) ho1 e2 g1
        exact ⟨w', f1, f2.noFault, Nat.le_trans hn1 f2.next, f2.mem⟩
      | err => exact ⟨_, rfl, post_failJ E ho1 e2 g1.noFault hn1 .err nofun⟩
      | panic => exact ⟨_, rfl, post_failJ E ho1 e2 g1.noFault hn1 .panic nofun⟩
    | .ok (some (f, t')), _, e4 =>
      simp only [Res.map_ok]
      have hv : Valid w1.1.mem ⟨a, f, 0⟩ := by
        cases hg : c'.get f with
        | none => exact absurd hg (e4 f t' rfl)
        | some c0 => exact ⟨c0, by simp [Mem.read, hm1, Obj.get, hg, readD]⟩
      obtain ⟨w2, f1, f2⟩ := drive_placeJ x (t := t') g1 hv
      obtain ⟨cx, hwx, hrx⟩ := f2.mem
      have hmem : w2.1.mem = w.1.mem.set a (some (.builder out (c'.put f cx))) := by
        cases hg : c'.get f with
        | none => exact absurd hg (e4 f t' rfl)
        | some c0 =>
          have : w1.1.mem.write ⟨a, f, 0⟩ cx = some (w.1.mem.set a (some (.builder out (c'.put f cx)))) := by
            simp [Mem.write, hm1, Obj.get, hg, writeD, Obj.put, Mem.set_set]
          rw [this] at hwx; exact (Option.some.inj hwx).symm
      have ho2 : Open t p q a (c'.put f cx) m0 w2.1.mem := by rw [hmem]; exact ho.update ha _
      have hg2 : w2.1.Good := g1.of_write hwx f2.noFault f2.next
      have hn2 : w.1.next ≤ w2.1.next := Nat.le_trans hn1 f2.next
      rw [f1]
      cases hx : run E x t' with
      | ok v =>
        have := hrx v hx; subst this
        obtain ⟨w', k1, k2⟩ := drive_membersJ ms e ho2 (e2.put _ f _) hg2
        exact ⟨w', k1, k2.noFault, Nat.le_trans hn2 k2.next, k2.mem⟩
      | err => exact ⟨_, rfl, post_failJ E ho2 (e2.put _ f _) hg2.noFault hn2 .err nofun⟩
      | panic => exact ⟨_, rfl, post_failJ E ho2 (e2.put _ f _) hg2.noFault hn2 .panic nofun⟩

end

end Miniserde.Threads
