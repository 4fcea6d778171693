import Verif.Proof.Run

/-!
# Laws of the heap model
-/

namespace Miniserde

@[simp] theorem Mem.set_same (m : Mem) (a : Nat) (o : Option Obj) : m.set a o a = o := by simp [Mem.set]
theorem Mem.set_ne (m : Mem) {a b : Nat} (o : Option Obj) (h : b ≠ a) : m.set a o b = m b := by simp [Mem.set, h]
theorem Mem.set_set (m : Mem) (a : Nat) (o o' : Option Obj) : (m.set a o).set a o' = m.set a o' := by
  funext b; by_cases h : b = a <;> simp [Mem.set, h]
theorem Mem.set_comm (m : Mem) {a b : Nat} (o o' : Option Obj) (h : a ≠ b) :
    (m.set a o).set b o' = (m.set b o').set a o := by
  funext c
  by_cases h1 : c = a
  · simp [Mem.set, h1, h]
  · by_cases h2 : c = b
    · simp [Mem.set, h2, Ne.symm h]
    · simp [Mem.set, h1, h2]
theorem Mem.set_eq_self (m : Mem) {a : Nat} {o : Option Obj} (h : m a = o) : m.set a o = m := by
  funext b; by_cases hb : b = a <;> simp [Mem.set, hb, h]

theorem readD_writeD {d : Nat} : ∀ {c x : Option Val} (new : Option Val), readD d c = some x →
    ∃ c', writeD d new c = some c' ∧ readD d c' = some new := by
  induction d with
  | zero => intro c x new h; exact ⟨new, rfl, rfl⟩
  | succ d ih =>
    intro c x new h
    match c, h with
    | some .optNone, h =>
      obtain ⟨c', h1, h2⟩ := ih (c := none) new h
      refine ⟨someOpt c', by simp only [writeD, h1, Option.map_some], ?_⟩
      cases c' <;> exact h2
    | some (.optSome v), h =>
      obtain ⟨c', h1, h2⟩ := ih (c := some v) new h
      refine ⟨someOpt c', by simp only [writeD, h1, Option.map_some], ?_⟩
      cases c' <;> exact h2

theorem writeD_readD {d : Nat} : ∀ {c x : Option Val}, readD d c = some x → writeD d x c = some c := by
  induction d with
  | zero => intro c x h; simp only [readD] at h; simpa [writeD] using h.symm
  | succ d ih =>
    intro c x h
    match c, h with
    | some .optNone, h => simp only [readD] at h; simp only [writeD, ih h, Option.map_some]; rfl
    | some (.optSome v), h => simp only [readD] at h; simp only [writeD, ih h, Option.map_some]; rfl

theorem writeD_writeD {d : Nat} : ∀ {c c1 n1 : Option Val} (n2 : Option Val), writeD d n1 c = some c1 →
    writeD d n2 c1 = writeD d n2 c := by
  induction d with
  | zero => intro c c1 n1 n2 h; rfl
  | succ d ih =>
    intro c c1 n1 n2 h
    match c, h with
    | some .optNone, h =>
      simp only [writeD, Option.map_eq_some_iff] at h
      obtain ⟨c', h1, rfl⟩ := h
      have := ih n2 h1
      cases c' <;> simp only [someOpt, writeD, this]
    | some (.optSome v), h =>
      simp only [writeD, Option.map_eq_some_iff] at h
      obtain ⟨c', h1, rfl⟩ := h
      have := ih n2 h1
      cases c' <;> simp only [someOpt, writeD, this]

/-- Below a `Some` slot there is a place, and writing there is writing `someOpt`. -/
theorem readD_deref {d : Nat} : ∀ {c x : Option Val}, readD d c = some (someOpt x) → readD (d + 1) c = some x := by
  induction d with
  | zero => intro c x h; simp only [readD, Option.some.injEq] at h; subst h; cases x <;> rfl
  | succ d ih =>
    intro c x h
    match c, h with
    | some .optNone, h => exact ih (c := none) h
    | some (.optSome v), h => exact ih (c := some v) h

theorem writeD_deref {d : Nat} : ∀ {c x : Option Val} (new : Option Val), readD d c = some (someOpt x) →
    writeD (d + 1) new c = writeD d (someOpt new) c := by
  induction d with
  | zero => intro c x new h; simp only [readD, Option.some.injEq] at h; subst h; cases x <;> rfl
  | succ d ih =>
    intro c x new h
    match c, h with
    | some .optNone, h =>
      simp only [readD] at h
      have := ih (c := none) new h
      rw [writeD, this, writeD]
    | some (.optSome v), h =>
      simp only [readD] at h
      have := ih (c := some v) new h
      rw [writeD, this, writeD]

theorem Core.get_put {c : Core} {f : Nat} {x : Option Val} (new : Option Val) (h : c.get f = some x) :
    (c.put f new).get f = some new := by
  cases c with
  | strct i fs =>
    simp only [Core.get] at h
    have : f < fs.length := by
      rcases List.getElem?_eq_some_iff.1 h with ⟨h, -⟩; exact h
    simp [Core.get, Core.put, this]
  | tup a b x y => rcases f with _ | _ | f <;> first | rfl | cases h
  | _ => cases f <;> first | rfl | cases h

theorem Core.put_get {c : Core} {f : Nat} {x : Option Val} (h : c.get f = some x) : c.put f x = c := by
  cases c with
  | strct i fs =>
    simp only [Core.get] at h
    obtain ⟨h1, h2⟩ := List.getElem?_eq_some_iff.1 h
    subst h2
    simp [Core.put]
  | tup a b x y => rcases f with _ | _ | f <;> simp only [Core.get, Option.some.injEq, reduceCtorEq] at h <;> subst h <;> rfl
  | _ => cases f <;> simp only [Core.get, Option.some.injEq, reduceCtorEq] at h <;> subst h <;> rfl

theorem Core.put_put (c : Core) (f : Nat) (x y : Option Val) : (c.put f x).put f y = c.put f y := by
  cases c with
  | strct i fs => simp [Core.put]
  | tup a b x y => rcases f with _ | _ | f <;> rfl
  | _ => cases f <;> rfl

theorem Obj.get_put {o : Obj} {f : Nat} {x : Option Val} (new : Option Val) (h : o.get f = some x) :
    (o.put f new).get f = some new := by
  cases o with
  | slot c => cases f <;> first | rfl | cases h
  | builder out c => exact Core.get_put new h
  | boxB => cases h

theorem Obj.put_get {o : Obj} {f : Nat} {x : Option Val} (h : o.get f = some x) : o.put f x = o := by
  cases o with
  | slot c => cases f <;> simp only [Obj.get, Option.some.injEq, reduceCtorEq] at h <;> subst h <;> rfl
  | builder out c => simp only [Obj.put, Core.put_get (c := c) h]
  | boxB => cases h

theorem Obj.put_put (o : Obj) (f : Nat) (x y : Option Val) : (o.put f x).put f y = o.put f y := by
  cases o with
  | slot c => cases f <;> rfl
  | builder out c => simp only [Obj.put, Core.put_put]
  | boxB => rfl

/-- The place is live and well-typed. -/
def Valid (m : Mem) (p : Ptr) : Prop := ∃ c, m.read p = some c

theorem read_unfold {m : Mem} {p : Ptr} {c : Option Val} (h : m.read p = some c) :
    ∃ o c0, m p.addr = some o ∧ o.get p.field = some c0 ∧ readD p.depth c0 = some c := by
  simp only [Mem.read, Option.bind_eq_some_iff] at h
  obtain ⟨c0, ⟨o, h1, h2⟩, h3⟩ := h
  exact ⟨o, c0, h1, h2, h3⟩

theorem read_intro {m : Mem} {p : Ptr} {c c0 : Option Val} {o : Obj} (h1 : m p.addr = some o)
    (h2 : o.get p.field = some c0) (h3 : readD p.depth c0 = some c) : m.read p = some c := by
  simp only [Mem.read, h1, h2, h3, Option.bind_some]

theorem write_intro {m : Mem} {p : Ptr} {c c0 c1 : Option Val} {o : Obj} (h1 : m p.addr = some o)
    (h2 : o.get p.field = some c0) (h3 : writeD p.depth c c0 = some c1) :
    m.write p c = some (m.set p.addr (some (o.put p.field c1))) := by
  simp only [Mem.write, h1, h2, h3, Option.bind_some, Option.map_some]

theorem write_unfold {m m' : Mem} {p : Ptr} {c : Option Val} (h : m.write p c = some m') :
    ∃ o c0 c1, m p.addr = some o ∧ o.get p.field = some c0 ∧ writeD p.depth c c0 = some c1 ∧
      m' = m.set p.addr (some (o.put p.field c1)) := by
  simp only [Mem.write, Option.bind_eq_some_iff, Option.map_eq_some_iff] at h
  obtain ⟨o, h1, c0, h2, c1, h3, h4⟩ := h
  exact ⟨o, c0, c1, h1, h2, h3, h4.symm⟩

/-- Writing through a live place succeeds. -/
theorem Valid.write {m : Mem} {p : Ptr} (h : Valid m p) (c : Option Val) :
    ∃ m', m.write p c = some m' ∧ m'.read p = some c := by
  obtain ⟨x, hx⟩ := h
  obtain ⟨o, c0, h1, h2, h3⟩ := read_unfold hx
  obtain ⟨c1, h4, h5⟩ := readD_writeD c h3
  exact ⟨_, write_intro h1 h2 h4, read_intro (Mem.set_same ..) (Obj.get_put c1 h2) h5⟩

theorem write_read {m : Mem} {p : Ptr} {c : Option Val} (h : m.read p = some c) : m.write p c = some m := by
  obtain ⟨o, c0, h1, h2, h3⟩ := read_unfold h
  rw [write_intro h1 h2 (writeD_readD h3), Obj.put_get h2, Mem.set_eq_self m h1]

theorem write_write {m m' : Mem} {p : Ptr} {c : Option Val} (c' : Option Val) (hv : Valid m p) (h : m.write p c = some m') :
    m'.write p c' = m.write p c' := by
  obtain ⟨o, c0, c1, h1, h2, h3, rfl⟩ := write_unfold h
  obtain ⟨x, hx⟩ := hv
  obtain ⟨o', c0', h1', h2', h3'⟩ := read_unfold hx
  rw [h1] at h1'; cases h1'; rw [h2] at h2'; cases h2'
  obtain ⟨c2, h4, -⟩ := readD_writeD c' h3'
  have h5 : writeD p.depth c' c1 = some c2 := by rw [writeD_writeD c' h3, h4]
  rw [write_intro h1 h2 h4, write_intro (Mem.set_same ..) (Obj.get_put c1 h2) h5, Mem.set_set, Obj.put_put]

theorem write_ne {m m' : Mem} {p : Ptr} {c : Option Val} (h : m.write p c = some m') {a : Nat} (ha : a ≠ p.addr) :
    m' a = m a := by
  obtain ⟨o, c0, c1, h1, h2, h3, rfl⟩ := write_unfold h
  exact Mem.set_ne _ _ ha

theorem write_none {m m' : Mem} {p : Ptr} {c : Option Val} (h : m.write p c = some m') (a : Nat) :
    m' a = none ↔ m a = none := by
  by_cases ha : a = p.addr
  · obtain ⟨o, c0, c1, h1, h2, h3, rfl⟩ := write_unfold h
    subst ha; simp [h1]
  · rw [write_ne h ha]

theorem Valid.live {m : Mem} {p : Ptr} (h : Valid m p) : m p.addr ≠ none := by
  obtain ⟨x, hx⟩ := h
  obtain ⟨o, c0, h1, -⟩ := read_unfold hx
  simp [h1]

theorem write_set {m : Mem} {p : Ptr} {a : Nat} (o : Option Obj) (c : Option Val) (ha : a ≠ p.addr) :
    (m.set a o).write p c = (m.write p c).map (·.set a o) := by
  simp only [Mem.write, Mem.set_ne m o (Ne.symm ha)]
  cases m p.addr with
  | none => rfl
  | some ob =>
    simp only [Option.bind_some]
    cases ob.get p.field with
    | none => rfl
    | some c0 =>
      simp only [Option.bind_some]
      cases writeD p.depth c c0 with
      | none => rfl
      | some c1 => simp only [Option.map_some]; rw [Mem.set_comm _ _ _ ha]

theorem read_set {m : Mem} {p : Ptr} {a : Nat} (o : Option Obj) (ha : a ≠ p.addr) : (m.set a o).read p = m.read p := by
  simp only [Mem.read, Mem.set_ne m o (Ne.symm ha)]

theorem Valid.set {m : Mem} {p : Ptr} {a : Nat} (o : Option Obj) (h : Valid m p) (ha : a ≠ p.addr) :
    Valid (m.set a o) p := by
  obtain ⟨x, hx⟩ := h; exact ⟨x, by rw [read_set o ha, hx]⟩

/-- The place behind a `Some`. -/
theorem deref_read {m : Mem} {p : Ptr} {x : Option Val} (h : m.read p = some (someOpt x)) : m.read p.deref = some x := by
  obtain ⟨o, c0, h1, h2, h3⟩ := read_unfold h
  exact read_intro (p := p.deref) h1 h2 (readD_deref h3)

theorem deref_write {m : Mem} {p : Ptr} {x : Option Val} (c : Option Val) (h : m.read p = some (someOpt x)) :
    m.write p.deref c = m.write p (someOpt c) := by
  obtain ⟨o, c0, h1, h2, h3⟩ := read_unfold h
  have hw := writeD_deref c h3
  obtain ⟨c1, h4, -⟩ := readD_writeD (someOpt c) h3
  rw [write_intro h1 h2 h4, write_intro (p := p.deref) h1 h2 (hw.trans h4)]; rfl

end Miniserde
