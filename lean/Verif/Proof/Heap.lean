import Verif.Proof.Mem

/-!
# The heap implementation refines the pure run
-/

namespace Miniserde
variable (E : Env)

/-- Neither `Option` nor `Box`. -/
def Ty.isBase : Ty → Bool
  | .opt _ => false
  | .box _ => false
  | _ => true

theorem wrap_base {t : Ty} (h : t.isBase = true) (v : Val) : wrap t v = v := by cases t <;> first | rfl | cases h
theorem openCore_base {t : Ty} (h : t.isBase = true) (m : Bool) : openCore E t m = t.core E m := by
  cases t <;> first | rfl | cases h
theorem openPlace_base {t : Ty} (h : t.isBase = true) (p : Ptr) (m : Bool) (hp : Heap) :
    openPlace E t p m hp = match t.core E m with
      | some core => (.ok (.at (hp.alloc (.builder p core)).1), (hp.alloc (.builder p core)).2)
      | none => (.err, hp) := by
  cases t <;> first | rfl | cases h

/-- Not faulted, and nothing lives at or above `next`. -/
structure Heap.Good (h : Heap) : Prop where
  noFault : h.fault = false
  fresh : ∀ a, h.next ≤ a → h.mem a = none

theorem Heap.Good.of_write {h h' : Heap} {p : Ptr} {c : Option Val} (g : h.Good) (hw : h.mem.write p c = some h'.mem)
    (hf : h'.fault = false) (hn : h.next ≤ h'.next) : h'.Good :=
  ⟨hf, fun a ha => (write_none hw a).2 (g.fresh a (Nat.le_trans hn ha))⟩

/-- A builder chain is open on the place `p` of type `t`: `q` is its handle, `a` the address of the innermost builder, whose
state is `core`; `m0` is the memory without the chain. -/
inductive Open : Ty → Ptr → BH → Nat → Core → Mem → Mem → Prop
  | base {t p a core m0 m} (hb : t.isBase = true) (hv : Valid m0 p) (ha : m0 a = none)
      (hm : m = m0.set a (some (.builder p core))) : Open t p (.at a) a core m0 m
  | opt {t p q a core m0 m x} (hr : m0.read p = some (someOpt x)) (h : Open t p.deref q a core m0 m) :
      Open (.opt t) p q a core m0 m
  | box {t p q' a core m0 m s b c} (hv : Valid m0 p) (hs : m0 s = none) (hb : m0 b = none) (hsb : s ≠ b) (hq : q' < b)
      (h : Open t ⟨s, 0, 0⟩ (.at q') a core
        ((m0.set s (some (.slot c))).set b (some (.boxB p s (.at q')))) m) :
      Open (.box t) p (.at b) a core m0 m

namespace Open

theorem valid {t p q a core m0 m} (h : Open t p q a core m0 m) : Valid m0 p := by
  cases h with
  | base hb hv ha hm => exact hv
  | opt hr h => exact ⟨_, hr⟩
  | box hv hs hb hsb hq h => exact hv

/-- The chain only adds objects. -/
theorem agree {t p q a core m0 m} (h : Open t p q a core m0 m) : ∀ x, m0 x ≠ none → m x = m0 x := by
  induction h with
  | base hb hv ha hm =>
    intro x hx; subst hm
    exact Mem.set_ne _ _ (by rintro rfl; exact hx ha)
  | opt hr h ih => exact ih
  | @box t p q' a core m0 m s b c hv hs hb hsb hq h ih =>
    intro x hx
    have h1 : x ≠ s := by rintro rfl; exact hx hs
    have h2 : x ≠ b := by rintro rfl; exact hx hb
    have h3 : ((m0.set s (some (.slot c))).set b (some (.boxB p s (.at q')))) x = m0 x := by
      rw [Mem.set_ne _ _ h2, Mem.set_ne _ _ h1]
    rw [ih x (by rw [h3]; exact hx), h3]

theorem fresh_base {t p q a core m0 m} (h : Open t p q a core m0 m) : m0 a = none := by
  induction h with
  | base hb hv ha hm => exact ha
  | opt hr h ih => exact ih
  | @box t p q' a core m0 m s b c hv hs hb hsb hq h ih =>
    by_cases h2 : a = b
    · subst h2; exact hb
    · by_cases h1 : a = s
      · subst h1; exact hs
      · rwa [Mem.set_ne _ _ h2, Mem.set_ne _ _ h1] at ih

theorem is_at {t p q a core m0 m} (h : Open t p q a core m0 m) : ∃ b, q = .at b := by
  induction h with
  | base => exact ⟨_, rfl⟩
  | opt hr h ih => exact ih
  | box => exact ⟨_, rfl⟩

theorem at_base {t p q a core m0 m} (h : Open t p q a core m0 m) : ∃ out, m a = some (.builder out core) := by
  induction h with
  | base hb hv ha hm => subst hm; exact ⟨_, Mem.set_same ..⟩
  | opt hr h ih => exact ih
  | box hv hs hb hsb hq h ih => exact ih

theorem update {t p q a core m0 m} (h : Open t p q a core m0 m) {out : Ptr} (ho : m a = some (.builder out core))
    (core' : Core) : Open t p q a core' m0 (m.set a (some (.builder out core'))) := by
  induction h with
  | base hb hv ha hm =>
    subst hm
    rw [Mem.set_same] at ho; cases ho
    exact .base hb hv ha (Mem.set_set ..)
  | opt hr h ih => exact .opt hr (ih ho)
  | box hv hs hb hsb hq h ih => exact .box hv hs hb hsb hq (ih ho)

/-- Framing: an object elsewhere. -/
theorem frame {t p q a core m0 m} (h : Open t p q a core m0 m) {x : Nat} (o : Obj) (hx : m x = none) :
    Open t p q a core (m0.set x (some o)) (m.set x (some o)) := by
  have key : ∀ {m0 m : Mem} {t p q a core}, Open t p q a core m0 m → m x = none → m0 x = none := by
    intro m0 m t p q a core h hx
    by_cases h0 : m0 x = none
    · exact h0
    · rw [← h.agree x h0, hx]
  induction h with
  | @base t p a core m0 m hb hv ha hm =>
    have h0 := key (.base hb hv ha hm) hx
    have hxp : x ≠ p.addr := by rintro rfl; exact hv.live h0
    have hxa : x ≠ a := by rintro rfl; subst hm; simp at hx
    refine .base hb (hv.set _ hxp) (by rw [Mem.set_ne _ _ (Ne.symm hxa)]; exact ha) ?_
    subst hm; rw [Mem.set_comm _ _ _ hxa]
  | @opt t p q a core m0 m y hr h ih =>
    have h0 := key h hx
    have hxp : x ≠ p.addr := by rintro rfl; exact Valid.live (p := p) ⟨_, hr⟩ h0
    exact .opt (by rw [read_set _ hxp]; exact hr) (ih hx)
  | @box t p q' a core m0 m s b c hv hs hb hsb hq h ih =>
    have h0 := key (.box hv hs hb hsb hq h) hx
    have h1 := key h hx
    have hxb : x ≠ b := by rintro rfl; simp at h1
    have hxs : x ≠ s := by rintro rfl; rw [Mem.set_ne _ _ hxb, Mem.set_same] at h1; cases h1
    have hxp : x ≠ p.addr := by rintro rfl; exact hv.live h0
    refine .box (c := c) (hv.set _ hxp) (by rw [Mem.set_ne _ _ (Ne.symm hxs)]; exact hs)
      (by rw [Mem.set_ne _ _ (Ne.symm hxb)]; exact hb) hsb hq ?_
    have := ih hx
    rwa [Mem.set_comm _ _ _ (Ne.symm hxb), Mem.set_comm m0 _ _ (Ne.symm hxs)] at this

end Open

theorem slot_write {m : Mem} {s : Nat} {c : Option Val} (c' : Option Val) (h : m s = some (.slot c)) :
    m.write ⟨s, 0, 0⟩ c' = some (m.set s (some (.slot c'))) := by
  simp [Mem.write, h, Obj.get, writeD, Obj.put]

theorem slot_read {m : Mem} {s : Nat} {c : Option Val} (h : m s = some (.slot c)) : m.read ⟨s, 0, 0⟩ = some c := by
  simp [Mem.read, h, Obj.get, readD]

/-! ## Opening -/

theorem alloc_good {h : Heap} (g : h.Good) (o : Obj) : (h.alloc o).2.Good :=
  ⟨g.noFault, fun a ha => by
    simp only [Heap.alloc] at ha ⊢
    rw [Mem.set_ne _ _ (by omega)]
    exact g.fresh a (by omega)⟩

theorem heap_write_eq {h : Heap} {p : Ptr} {c : Option Val} {m : Mem} (hw : h.mem.write p c = some m) :
    h.write p c = { h with mem := m } := by simp only [Heap.write, hw]

/-- `seq`/`map` on a place of a type without such a method: `Err`; at most the place itself was written. -/
theorem open_none (isMap : Bool) {t : Ty} : ∀ {p : Ptr} {h : Heap}, openCore E t isMap = none → h.Good → Valid h.mem p →
    ∃ c h', openPlace E t p isMap h = (.err, h') ∧ h.mem.write p c = some h'.mem ∧ h'.fault = false ∧ h.next ≤ h'.next := by
  induction t with
  | opt t ih =>
    intro p h hc g hv
    obtain ⟨m1, hw, hr⟩ := hv.write (some .optNone)
    have hr' : m1.read p = some (someOpt none) := hr
    have g1 : ({ h with mem := m1 } : Heap).Good := g.of_write (p := p) (c := some .optNone) hw g.noFault (Nat.le_refl _)
    obtain ⟨c, h', e1, e2, e3, e4⟩ := ih (p := p.deref) (h := { h with mem := m1 }) hc g1 ⟨_, deref_read hr'⟩
    refine ⟨someOpt c, h', ?_, ?_, e3, e4⟩
    · rw [openPlace, heap_write_eq hw]; exact e1
    · rw [← write_write (someOpt c) hv hw, ← deref_write c hr']; exact e2
  | box t ih =>
    intro p h hc g hv
    have hfr := g.fresh h.next (Nat.le_refl _)
    obtain ⟨c, h', e1, e2, e3, e4⟩ := ih (p := ⟨h.next, 0, 0⟩) (h := (h.alloc (.slot none)).2) hc (alloc_good g _)
      ⟨none, slot_read (Mem.set_same ..)⟩
    obtain ⟨c0, hc0⟩ := hv
    have hm : h'.mem = h.mem.set h.next (some (.slot c)) := by
      have : (h.alloc (.slot none)).2.mem.write ⟨h.next, 0, 0⟩ c = some (h.mem.set h.next (some (.slot c))) := by
        simp only [Heap.alloc]
        rw [slot_write (c := none) c (Mem.set_same ..), Mem.set_set]
      rw [this] at e2; exact (Option.some.inj e2).symm
    refine ⟨c0, h'.free h.next, ?_, ?_, ?_, ?_⟩
    · rw [openPlace]
      have e1' : openPlace E t ⟨(h.alloc (.slot none)).1, 0, 0⟩ isMap (h.alloc (.slot none)).2 = (.err, h') := e1
      simp only [e1']
      rfl
    · rw [write_read hc0]
      simp only [Heap.free, hm, Mem.set_same]
      rw [Mem.set_set, Mem.set_eq_self _ hfr]
    · simp only [Heap.free, hm, Mem.set_same]; exact e3
    · simp only [Heap.free, hm, Mem.set_same]; simp only [Heap.alloc] at e4; omega
  | _ =>
    intro p h hc g hv
    obtain ⟨c0, hc0⟩ := hv
    rw [openCore_base E rfl] at hc
    refine ⟨c0, h, ?_, write_read hc0, g.noFault, Nat.le_refl _⟩
    rw [openPlace_base E rfl, hc]

/-- `seq`/`map` on a place: the chain of builders is open. -/
theorem open_some (isMap : Bool) {t : Ty} : ∀ {p : Ptr} {h : Heap} {core : Core}, openCore E t isMap = some core → h.Good →
    Valid h.mem p →
    ∃ q a m0 c h', openPlace E t p isMap h = (.ok q, h') ∧ h.mem.write p c = some m0 ∧ Open t p q a core m0 h'.mem ∧
      h'.Good ∧ h.next ≤ h'.next := by
  induction t with
  | opt t ih =>
    intro p h core hc g hv
    obtain ⟨m1, hw, hr⟩ := hv.write (some .optNone)
    have hr' : m1.read p = some (someOpt none) := hr
    have g1 : ({ h with mem := m1 } : Heap).Good := g.of_write (p := p) (c := some .optNone) hw g.noFault (Nat.le_refl _)
    obtain ⟨q, a, m0, c, h', e1, e2, e3, e4, e5⟩ := ih (p := p.deref) (h := { h with mem := m1 }) hc g1 ⟨_, deref_read hr'⟩
    have e2' : h.mem.write p (someOpt c) = some m0 := by
      rw [← write_write (someOpt c) hv hw, ← deref_write c hr']; exact e2
    obtain ⟨m0', hw', hr''⟩ := hv.write (someOpt c)
    rw [hw'] at e2'; cases e2'
    refine ⟨q, a, m0, someOpt c, h', ?_, hw', .opt hr'' e3, e4, e5⟩
    rw [openPlace, heap_write_eq hw]; exact e1
  | box t ih =>
    intro p h core hc g hv
    have hfr := g.fresh h.next (Nat.le_refl _)
    obtain ⟨q, a, m0, c, h', e1, e2, e3, e4, e5⟩ := ih (p := ⟨h.next, 0, 0⟩) (h := (h.alloc (.slot none)).2) hc
      (alloc_good g _) ⟨none, slot_read (Mem.set_same ..)⟩
    have hm : m0 = h.mem.set h.next (some (.slot c)) := by
      have : (h.alloc (.slot none)).2.mem.write ⟨h.next, 0, 0⟩ c = some (h.mem.set h.next (some (.slot c))) := by
        simp only [Heap.alloc]
        rw [slot_write (c := none) c (Mem.set_same ..), Mem.set_set]
      rw [this] at e2; exact (Option.some.inj e2).symm
    obtain ⟨q', rfl⟩ := e3.is_at
    subst hm
    obtain ⟨c0, hc0⟩ := hv
    have hb : h'.mem h'.next = none := e4.fresh _ (Nat.le_refl _)
    have hq : q' < h'.next := by
      apply Nat.lt_of_not_le; intro hle
      have h0 := e4.fresh _ hle
      clear ih e1 e2
      have : ∀ {t p q a core m0 m}, Open t p q a core m0 m → q = .at q' → m q' ≠ none := by
        intro t p q a core m0 m ho
        induction ho with
        | base hb hv ha hm => rintro ⟨⟩; subst hm; simp
        | opt hr h ih => exact ih
        | box hv hs hb hsb hq h ih => rintro ⟨⟩; rw [h.agree _ (by simp)]; simp
      exact this e3 rfl h0
    have hne : h.next ≠ h'.next := by simp only [Heap.alloc] at e5; omega
    have hm0b : h.mem h'.next = none := g.fresh _ (by simp only [Heap.alloc] at e5; omega)
    refine ⟨.at h'.next, a, h.mem, c0, (h'.alloc (.boxB p h.next (.at q'))).2, ?_, write_read hc0, ?_, alloc_good e4 _, ?_⟩
    · rw [openPlace]
      have e1' : openPlace E t ⟨(h.alloc (.slot none)).1, 0, 0⟩ isMap (h.alloc (.slot none)).2 = (.ok (.at q'), h') := e1
      simp only [e1']
      rfl
    · exact .box (c := c) ⟨_, hc0⟩ hfr hm0b hne hq (e3.frame _ hb)
    · simp only [Heap.alloc] at e5 ⊢; omega
  | _ =>
    intro p h core hc g hv
    obtain ⟨c0, hc0⟩ := hv
    rw [openCore_base E rfl] at hc
    refine ⟨_, _, h.mem, c0, (h.alloc (.builder p core)).2, ?_, write_read hc0,
      .base (a := h.next) rfl ⟨_, hc0⟩ (g.fresh _ (Nat.le_refl _)) rfl, alloc_good g _, by simp [Heap.alloc]⟩
    rw [openPlace_base E rfl, hc]; rfl

/-! ## element / key -/

theorem open_child {t p q a core m0} {h : Heap} (ho : Open t p q a core m0 h.mem) (k : Option Bytes) {out : Ptr}
    (ha : h.mem a = some (.builder out core)) {r : Res (Option (Nat × Ty))} {core' : Core} (hc : core.child E k = some (r, core')) :
    childB E q k h = (r.map fun o => match o with | some (f, t) => VH.place t ⟨a, f, 0⟩ | none => .ignore,
      h.set a (.builder out core')) := by
  generalize hm : h.mem = m at ho
  induction ho with
  | base hb hv ha' hm' =>
    rw [childB, childAt, ha]
    simp only [hc]
    rcases r with (_ | ⟨f, t⟩) | _ | _ <;> rfl
  | opt hr h ih => exact ih ha hc hm
  | @box t p q' a core m0 m s b c hv hs hb hsb hq ho ih =>
    have := ih ha hc hm
    rw [childB, childAt]
    have hb' : h.mem b = some (.boxB p s (.at q')) := by
      rw [hm, ho.agree b (by simp)]; simp
    simp only [hb', hq, if_true]
    exact this

/-! ## drop -/

theorem open_drop {t p q a core m0 m} (ho : Open t p q a core m0 m) (hd : core.dropOk = true) : ∀ {h : Heap}, h.mem = m →
    h.fault = false → (dropB q h).mem = m0 ∧ (dropB q h).fault = false ∧ (dropB q h).next = h.next := by
  induction ho with
  | @base t p a core m0 m hb hv ha hm' =>
    intro h hm hf
    subst hm'
    rw [dropB, dropAt]
    have : h.mem a = some (.builder p core) := by rw [hm]; simp
    simp only [this, Heap.free, hd, hf, Bool.not_true, Bool.or_self, and_true]
    rw [hm, Mem.set_set, Mem.set_eq_self _ ha]
  | opt hr h ih => exact ih hd
  | @box t p q' a core m0 m s b c hv hs hb hsb hq ho ih =>
    intro h hm hf
    obtain ⟨e1, e2, e3⟩ := ih hd hm hf
    have hb' : h.mem b = some (.boxB p s (.at q')) := by
      rw [hm, ho.agree b (by simp)]; simp
    rw [dropB, dropAt]
    simp only [hb', hq, if_true]
    simp only [dropB] at e1 e2 e3
    have h1 : (dropAt q' h).mem s = some (.slot c) := by rw [e1, Mem.set_ne _ _ hsb]; simp
    have h2 : ((dropAt q' h).free s).mem b = some (.boxB p s (.at q')) := by
      simp only [Heap.free, h1]; rw [Mem.set_ne _ _ (Ne.symm hsb), e1]; simp
    have h3 : (((dropAt q' h).free s).free b) =
        { (dropAt q' h) with mem := ((dropAt q' h).mem.set s none).set b none } := by
      rw [Heap.free]; simp only [h2]; simp only [Heap.free, h1]
    rw [h3]
    refine ⟨?_, e2, e3⟩
    show ((dropAt q' h).mem.set s none).set b none = m0
    rw [e1]
    funext x
    by_cases hxb : x = b
    · subst hxb; simp [hb]
    · by_cases hxs : x = s
      · subst hxs; rw [Mem.set_ne _ _ hxb, Mem.set_same, hs]
      · rw [Mem.set_ne _ _ hxb, Mem.set_ne _ _ hxs, Mem.set_ne _ _ hxb, Mem.set_ne _ _ hxs]

/-! ## finish -/

theorem open_finish_ok {t p q a core m0 m} (ho : Open t p q a core m0 m) {v : Val} {core' : Core}
    (hc : core.finish E = some (.ok v, core')) (hd : core'.dropOk = true) : ∀ {h : Heap}, h.mem = m → h.fault = false →
    ∃ h', finishB E q h = (.ok (), h') ∧ m0.write p (some (wrap t v)) = some (dropB q h').mem ∧ (dropB q h').fault = false ∧
      (dropB q h').next = h.next := by
  induction ho with
  | @base t p a core m0 m hb hv ha hm' =>
    intro h hm hf
    subst hm'
    have hap : a ≠ p.addr := by rintro rfl; exact hv.live ha
    have h1 : h.mem a = some (.builder p core) := by rw [hm]; simp
    obtain ⟨m1, hw, -⟩ := hv.write (some v)
    have hw' : (h.set a (.builder p core')).mem.write p (some v) = some (m1.set a (some (.builder p core'))) := by
      simp only [Heap.set, hm, Mem.set_set]
      rw [write_set _ _ hap, hw]; rfl
    refine ⟨(h.set a (.builder p core')).write p (some v), ?_, ?_⟩
    · rw [finishB, finishAt, h1]; simp only [hc]
    · rw [heap_write_eq hw']
      have hma : m1 a = none := (write_none hw a).2 ha
      have h2 : ({ h.set a (.builder p core') with mem := m1.set a (some (.builder p core')) } : Heap).mem a =
        some (.builder p core') := Mem.set_same ..
      rw [dropB, dropAt]
      simp only [Heap.free, hd, Heap.set, Mem.set_same, hf, Bool.not_true, Bool.or_self, and_true]
      rw [wrap_base hb, hw, Mem.set_set, Mem.set_eq_self _ hma]
  | @opt t p q a core m0 m x hr ho ih =>
    intro h hm hf
    obtain ⟨h', e1, e2, e3⟩ := ih hc hm hf
    refine ⟨h', e1, ?_, e3⟩
    rw [deref_write _ hr] at e2
    exact e2
  | @box t p q' a core m0 m s b c hv hs hb hsb hq ho ih =>
    intro h hm hf
    obtain ⟨h1, e1, e2, e3, e4⟩ := ih hc hm hf
    have hb' : h.mem b = some (.boxB p s (.at q')) := by
      rw [hm, ho.agree b (by simp)]; simp
    have hsp : s ≠ p.addr := by rintro rfl; exact hv.live hs
    have hbp : b ≠ p.addr := by rintro rfl; exact hv.live hb
    simp only [finishB, dropB] at e1 e2 e3 e4
    -- memory after dropping the inner builder
    have hm2 : (dropAt q' h1).mem =
        (m0.set s (some (.slot (some (wrap t v))))).set b (some (.boxB p s (.at q'))) := by
      have hmem : ((m0.set s (some (.slot c))).set b (some (.boxB p s (.at q')))) s = some (.slot c) := by
        rw [Mem.set_ne _ _ hsb]; simp
      rw [slot_write _ hmem] at e2
      rw [← Option.some.inj e2, Mem.set_comm _ _ _ (Ne.symm hsb), Mem.set_set]
    obtain ⟨m1, hw, -⟩ := hv.write (some (.box (wrap t v)))
    have hm3 : ((dropAt q' h1).set b (.boxB p s .ignore)).mem =
        (m0.set s (some (.slot (some (wrap t v))))).set b (some (.boxB p s .ignore)) := by
      simp only [Heap.set, hm2, Mem.set_set]
    have hrd : ((dropAt q' h1).set b (.boxB p s .ignore)).mem.read ⟨s, 0, 0⟩ = some (some (wrap t v)) := by
      rw [hm3]
      exact slot_read (by rw [Mem.set_ne _ _ hsb]; simp)
    have hw1 : ((dropAt q' h1).set b (.boxB p s .ignore)).mem.write ⟨s, 0, 0⟩ none =
        some ((m0.set s (some (.slot none))).set b (some (.boxB p s .ignore))) := by
      rw [hm3, slot_write (c := some (wrap t v)) none (by rw [Mem.set_ne _ _ hsb]; simp),
        Mem.set_comm _ _ _ (Ne.symm hsb), Mem.set_set]
    have hw2 : ((m0.set s (some (.slot none))).set b (some (.boxB p s .ignore))).write p (some (.box (wrap t v))) =
        some ((m1.set s (some (.slot none))).set b (some (.boxB p s .ignore))) := by
      rw [write_set _ _ hbp, write_set _ _ hsp, hw]; rfl
    refine ⟨{ (dropAt q' h1) with mem := (m1.set s (some (.slot none))).set b (some (.boxB p s .ignore)) }, ?_, ?_⟩
    · rw [finishB, finishAt, hb']
      simp only [hq, if_true, e1]
      have hbl : (dropAt q' h1).mem b = some (.boxB p s (.at q')) := by rw [hm2]; simp
      rw [boxFinish, hbl]
      simp only [hrd]
      rw [heap_write_eq hw1]
      have := heap_write_eq (h := { (dropAt q' h1).set b (.boxB p s .ignore) with
        mem := (m0.set s (some (.slot none))).set b (some (.boxB p s .ignore)) }) hw2
      rw [this]; rfl
    · have hms : m1 s = none := (write_none hw s).2 hs
      have hmb : m1 b = none := (write_none hw b).2 hb
      generalize hH : ({ (dropAt q' h1) with mem := (m1.set s (some (.slot none))).set b (some (.boxB p s .ignore)) } : Heap) = H
      have hHm : H.mem = (m1.set s (some (.slot none))).set b (some (.boxB p s .ignore)) := by subst hH; rfl
      have hHb : H.mem b = some (.boxB p s .ignore) := by rw [hHm]; simp
      have hHs : H.mem s = some (.slot none) := by rw [hHm, Mem.set_ne _ _ hsb]; simp
      have h2 : (H.free s).mem b = some (.boxB p s .ignore) := by
        simp only [Heap.free, hHs]; rw [Mem.set_ne _ _ (Ne.symm hsb), hHb]
      have h3 : ((H.free s).free b) = { H with mem := (H.mem.set s none).set b none } := by
        rw [Heap.free]; simp only [h2]; simp only [Heap.free, hHs]
      have h4 : dropB (.at b) H = { H with mem := (H.mem.set s none).set b none } := by
        rw [dropB, dropAt, hHb]; exact h3
      rw [h4]
      refine ⟨?_, ?_, ?_⟩
      · show _ = some ((H.mem.set s none).set b none)
        rw [show wrap (.box t) v = .box (wrap t v) from rfl, hw, hHm]
        congr 1
        funext x
        by_cases hxb : x = b
        · subst hxb; simp [hmb]
        · by_cases hxs : x = s
          · subst hxs; rw [Mem.set_ne _ _ hxb, Mem.set_same, hms]
          · rw [Mem.set_ne _ _ hxb, Mem.set_ne _ _ hxs, Mem.set_ne _ _ hxb, Mem.set_ne _ _ hxs]
      · subst hH; exact e3
      · subst hH; exact e4

theorem open_finish_err {t p q a core m0 m} (ho : Open t p q a core m0 m) {core' : Core}
    (hc : core.finish E = some (.err, core')) (hd : core'.dropOk = true) : ∀ {h : Heap}, h.mem = m → h.fault = false →
    ∃ h', finishB E q h = (.err, h') ∧ (dropB q h').mem = m0 ∧ (dropB q h').fault = false ∧
      (dropB q h').next = h.next := by
  have key : ∃ out, m a = some (.builder out core) ∧
      ∀ {h : Heap}, h.mem = m → finishB E q h = (.err, h.set a (.builder out core')) := by
    clear hd
    induction ho with
    | @base t p a core m0 m hb hv ha hm' =>
      refine ⟨p, by rw [hm']; simp, ?_⟩
      intro h hm
      rw [finishB, finishAt, hm, hm']; simp only [Mem.set_same, hc]
    | opt hr ho ih => exact ih hc
    | @box t p q' a core m0 m s b c hv hs hb hsb hq ho ih =>
      obtain ⟨out, ho1, ho2⟩ := ih hc
      refine ⟨out, ho1, ?_⟩
      intro h hm
      have hb' : h.mem b = some (.boxB p s (.at q')) := by
        rw [hm, ho.agree b (by simp)]; simp
      rw [finishB, finishAt, hb']
      simp only [hq, if_true]
      have := ho2 hm
      simp only [finishB] at this
      rw [this]
  intro h hm hf
  obtain ⟨out, k1, k2⟩ := key
  refine ⟨_, k2 hm, ?_⟩
  have := open_drop (ho.update k1 core') hd (h := h.set a (.builder out core')) (by simp [Heap.set, hm]) hf
  exact this

end Miniserde
