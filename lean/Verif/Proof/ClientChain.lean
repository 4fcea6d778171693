import Verif.Proof.ClientCore

/-!
# Builders called by arbitrary programs: places and chains of builders
-/

namespace Miniserde

/-- `Option<...Option<t>...>` -/
def optN : Nat → Ty → Ty
  | 0, t => t
  | d + 1, t => optN d (.opt t)

theorem optN_succ : ∀ (d : Nat) (t : Ty), optN (d + 1) t = .opt (optN d t)
  | 0, _ => rfl
  | d + 1, t => optN_succ d (.opt t)

theorem optN_small : ∀ (d : Nat) (t : Ty), (optN d t).Small ↔ t.Small
  | 0, _ => Iff.rfl
  | d + 1, t => optN_small d (.opt t)

variable {E : Env}

theorem readD_content : ∀ {d : Nat} {t : Ty} {c x : Option Val}, Content E (optN d t) c → readD d c = some x → Content E t x
  | 0, _, _, _, h, e => by cases e; exact h
  | d + 1, t, c, x, h, e => by
    rw [optN_succ] at h
    match c, h, e with
    | some .optNone, _, e => exact readD_content (d := d) (Content.none _) e
    | some (.optSome v), h, e =>
      have := h _ rfl
      cases this with
      | some hv => exact readD_content (d := d) (Content.some hv) e

theorem writeD_content : ∀ {d : Nat} {t : Ty} {c x new : Option Val}, Content E (optN d t) c → readD d c = some x → Content E t new →
    ∃ c', writeD d new c = some c' ∧ Content E (optN d t) c'
  | 0, _, _, _, new, _, _, hn => ⟨new, rfl, hn⟩
  | d + 1, t, c, x, new, h, e, hn => by
    rw [optN_succ] at h ⊢
    match c, h, e with
    | some .optNone, _, e =>
      obtain ⟨c', h1, h2⟩ := writeD_content (d := d) (c := none) (Content.none _) e hn
      exact ⟨someOpt c', by simp [writeD, h1], someOpt_typed h2⟩
    | some (.optSome v), h, e =>
      have := h _ rfl
      cases this with
      | some hv =>
        obtain ⟨c', h1, h2⟩ := writeD_content (d := d) (c := some v) (Content.some hv) e hn
        exact ⟨someOpt c', by simp [writeD, h1], someOpt_typed h2⟩

theorem readD_shallow : ∀ {d : Nat} {c x : Option Val}, readD (d + 1) c = some x → ∃ y, readD d c = some y
  | 0, c, _, _ => ⟨c, rfl⟩
  | d + 1, c, x, e => by
    match c, e with
    | some .optNone, e => exact readD_shallow (d := d) (c := none) e
    | some (.optSome v), e => exact readD_shallow (d := d) (c := some v) e

/-- The type of the field of an object; `g` gives the types of the slots. -/
def Obj.fieldTy (E : Env) (g : Nat → Ty) (a : Nat) : Obj → Nat → Option Ty
  | .slot _, 0 => some (g a)
  | .builder _ core, f => core.fieldTy E f
  | _, _ => none

/-- `p` points to an `Option<t>`. -/
def PlaceOk (E : Env) (m : Mem) (g : Nat → Ty) (p : Ptr) (t : Ty) : Prop :=
  ∃ o c x, m p.addr = some o ∧ o.fieldTy E g p.addr p.field = some (optN p.depth t) ∧ o.get p.field = some c ∧
    Content E (optN p.depth t) c ∧ readD p.depth c = some x

namespace PlaceOk
variable {m : Mem} {g : Nat → Ty} {p : Ptr} {t : Ty}

theorem congr (h : PlaceOk E m g p t) {m' : Mem} {g' : Nat → Ty} (h1 : m' p.addr = m p.addr) (h2 : g' p.addr = g p.addr) : PlaceOk E m' g' p t := by
  obtain ⟨o, c, x, a1, a2, a3, a4, a5⟩ := h
  refine ⟨o, c, x, by rw [h1, a1], ?_, a3, a4, a5⟩
  rw [← a2]
  cases o with
  | slot c0 => cases hf : p.field <;> simp [Obj.fieldTy, h2]
  | builder => rfl
  | boxB => rfl

theorem live (h : PlaceOk E m g p t) : m p.addr ≠ none := by
  obtain ⟨o, c, x, a1, -⟩ := h
  rw [a1]; simp

theorem read (h : PlaceOk E m g p t) : ∃ x, m.read p = some x ∧ Content E t x := by
  obtain ⟨o, c, x, a1, a2, a3, a4, a5⟩ := h
  exact ⟨x, read_intro a1 a3 a5, readD_content a4 a5⟩

theorem valid (h : PlaceOk E m g p t) : Valid m p := by
  obtain ⟨x, h, -⟩ := h.read; exact ⟨x, h⟩

/-- A write of a `t` to the place. -/
theorem write (h : PlaceOk E m g p t) {c : Option Val} (hc : Content E t c) :
    ∃ o c0 T, m p.addr = some o ∧ o.fieldTy E g p.addr p.field = some T ∧ Content E T c0 ∧
      m.write p c = some (m.set p.addr (some (o.put p.field c0))) ∧
      PlaceOk E (m.set p.addr (some (o.put p.field c0))) g p t := by
  obtain ⟨o, c0, x, a1, a2, a3, a4, a5⟩ := h
  obtain ⟨c1, b1, b2⟩ := writeD_content a4 a5 hc
  obtain ⟨c2, b3, b4⟩ : ∃ c', writeD p.depth c c0 = some c' ∧ readD p.depth c' = some c := by
    have := readD_writeD c a5; exact this
  rw [b1] at b3; cases b3
  refine ⟨o, c1, _, a1, a2, b2, write_intro a1 a3 b1, o.put p.field c1, c1, c, Mem.set_same .., ?_, Obj.get_put c1 a3, b2, b4⟩
  rw [← a2]
  cases o with
  | slot c0 => cases hf : p.field <;> simp [Obj.fieldTy, Obj.put]
  | builder out core =>
    simp only [Obj.fieldTy, Obj.put]
    cases core with
    | vec => cases p.field <;> rfl
    | arr => cases p.field <;> rfl
    | tup =>
      match p.field with
      | 0 => rfl
      | 1 => rfl
      | _ + 2 => rfl
    | map => cases p.field <;> rfl
    | strct => rfl
  | boxB => rfl

theorem after (h : PlaceOk E m g p t) {c : Option Val} (hc : Content E t c) {m1 : Mem} (hw : m.write p c = some m1) :
    PlaceOk E m1 g p t ∧ m1.read p = some c := by
  obtain ⟨o, c0, T, -, -, -, h1, h2⟩ := h.write hc
  rw [hw] at h1; cases h1
  refine ⟨h2, ?_⟩
  obtain ⟨m', e1, e2⟩ := h.valid.write c
  rw [hw] at e1; cases e1; exact e2

theorem deref {x : Option Val} (h : PlaceOk E m g p (.opt t)) (hr : m.read p = some (someOpt x)) : PlaceOk E m g p.deref t := by
  obtain ⟨o, c, y, a1, a2, a3, a4, a5⟩ := h
  have : m.read p = some y := read_intro a1 a3 a5
  rw [hr] at this; cases this
  exact ⟨o, c, x, a1, a2, a3, a4, readD_deref a5⟩

theorem underef (h : PlaceOk E m g p.deref t) : PlaceOk E m g p (.opt t) := by
  obtain ⟨o, c, y, a1, a2, a3, a4, a5⟩ := h
  obtain ⟨z, hz⟩ := readD_shallow a5
  exact ⟨o, c, z, a1, a2, a3, a4, hz⟩

end PlaceOk

/-- Reading at a `deref`ed place means that the place has `Some`. -/
theorem readD_someOpt : ∀ {d : Nat} {c x : Option Val}, readD (d + 1) c = some x → readD d c = some (someOpt x)
  | 0, c, x, e => by
    match c, e with
    | some .optNone, e => cases e; rfl
    | some (.optSome v), e => cases e; rfl
  | d + 1, c, x, e => by
    match c, e with
    | some .optNone, e => exact readD_someOpt (d := d) (c := none) e
    | some (.optSome v), e => exact readD_someOpt (d := d) (c := some v) e

theorem read_someOpt {m : Mem} {p : Ptr} {x : Option Val} (h : m.read p.deref = some x) : m.read p = some (someOpt x) := by
  obtain ⟨o, c, h1, h2, h3⟩ := read_unfold h
  exact read_intro h1 h2 (readD_someOpt h3)

/-- An open chain of builders on a place: all destructors can run, all pointers are good.  `fp` are the addresses of its objects. -/
inductive Chain (E : Env) (m : Mem) (g : Nat → Ty) : Ty → Bool → Ptr → BH → Nat → List Nat → Prop
  | base {t k p a core} (hb : t.isBase = true) (hm : m a = some (.builder p core)) (hc : CoreOk E t k core) (hp : PlaceOk E m g p t) :
      Chain E m g t k p (.at a) a [a]
  | opt {t k p q a fp} (h : Chain E m g t k p.deref q a fp) : Chain E m g (.opt t) k p q a fp
  | box {t k p b s q' a fp c} (hm : m b = some (.boxB p s (.at q'))) (hq : q' < b) (hs : m s = some (.slot c)) (hg : g s = t) (hp : PlaceOk E m g p (.box t))
      (h : Chain E m g t k ⟨s, 0, 0⟩ (.at q') a fp) : Chain E m g (.box t) k p (.at b) a (b :: s :: fp)

/-- The builder of a `Box` that has finished. -/
inductive Closed (E : Env) (m : Mem) (g : Nat → Ty) : Ty → Ptr → BH → List Nat → Prop
  | box {t p b s} (hm : m b = some (.boxB p s .ignore)) (hs : m s = some (.slot none)) (hp : PlaceOk E m g p (.box t)) :
      Closed E m g (.box t) p (.at b) [b, s]
  | opt {t p q fp} (h : Closed E m g t p.deref q fp) : Closed E m g (.opt t) p q fp

namespace Chain
variable {m : Mem} {g : Nat → Ty} {t : Ty} {k : Bool} {p : Ptr} {q : BH} {a : Nat} {fp : List Nat}

theorem place (h : Chain E m g t k p q a fp) : PlaceOk E m g p t := by
  induction h with
  | base _ _ _ hp => exact hp
  | opt _ ih => exact ih.underef
  | box _ _ _ _ hp _ _ => exact hp

theorem congr (h : Chain E m g t k p q a fp) {m' : Mem} {g' : Nat → Ty} (h1 : ∀ x ∈ fp, m' x = m x ∧ g' x = g x)
    (h2 : m' p.addr = m p.addr ∧ g' p.addr = g p.addr) : Chain E m' g' t k p q a fp := by
  induction h with
  | base hb hm hc hp => exact .base hb (by rw [(h1 _ (by simp)).1, hm]) hc (hp.congr h2.1 h2.2)
  | opt _ ih => exact .opt (ih h1 h2)
  | box hm hq hs hg hp h ih =>
    refine .box (by rw [(h1 _ (by simp)).1, hm]) hq (by rw [(h1 _ (by simp)).1, hs]) (by rw [(h1 _ (by simp)).2, hg]) (hp.congr h2.1 h2.2) ?_
    exact ih (fun x hx => h1 x (by simp [hx])) (h1 _ (by simp))

theorem is_at (h : Chain E m g t k p q a fp) : ∃ b, q = .at b ∧ b ∈ fp := by
  induction h with
  | base => exact ⟨_, rfl, by simp⟩
  | opt _ ih => exact ih
  | box => exact ⟨_, rfl, by simp⟩

theorem live (h : Chain E m g t k p q a fp) : ∀ x ∈ fp, m x ≠ none := by
  induction h with
  | base hb hm => intro x hx; cases List.mem_singleton.1 hx; rw [hm]; simp
  | opt _ ih => exact ih
  | box hm hq hs hg hp h ih =>
    intro x hx
    rcases List.mem_cons.1 hx with rfl | hx
    · rw [hm]; simp
    · rcases List.mem_cons.1 hx with rfl | hx
      · rw [hs]; simp
      · exact ih x hx

theorem at_base (h : Chain E m g t k p q a fp) : a ∈ fp ∧ ∃ T out core, m a = some (.builder out core) ∧ CoreOk E T k core ∧ (t.Small → T.Small) := by
  induction h with
  | base hb hm hc => exact ⟨by simp, _, _, _, hm, hc, id⟩
  | opt _ ih => exact ih
  | box hm hq hs hg hp h ih => exact ⟨by simp [ih.1], ih.2⟩

/-- The innermost builder changes. -/
theorem update (h : Chain E m g t k p q a fp) (hn : fp.Nodup) (hpa : p.addr ∉ fp) {T : Ty} {out : Ptr} {core : Core}
    (ho : m a = some (.builder out core)) (hT : CoreOk E T k core)
    {core' : Core} (hc : ∀ T, CoreOk E T k core → CoreOk E T k core') : Chain E (m.set a (some (.builder out core'))) g t k p q a fp := by
  induction h with
  | base hb hm hc' hp =>
    rw [hm] at ho; cases ho
    refine .base hb (Mem.set_same ..) (hc _ hc') (hp.congr (Mem.set_ne _ _ (fun e => hpa (by simp [e]))) rfl)
  | opt _ ih => exact .opt (ih hn hpa ho hT hc)
  | @box t k p b s q' a fp c hm hq hs hg hp h ih =>
    have ha := h.at_base.1
    simp only [List.nodup_cons, List.mem_cons, not_or] at hn hpa
    have hab : b ≠ a := by rintro rfl; exact hn.1.2 ha
    have has : s ≠ a := by rintro rfl; exact hn.2.1 ha
    have hap : p.addr ≠ a := by intro e; exact hpa.2.2 (e ▸ ha)
    exact .box (by rw [Mem.set_ne _ _ hab, hm]) hq (by rw [Mem.set_ne _ _ has, hs]) hg
      (hp.congr (Mem.set_ne _ _ hap) rfl) (ih hn.2.2 hn.2.1 ho hT hc)

end Chain

namespace Closed
variable {m : Mem} {g : Nat → Ty} {t : Ty} {p : Ptr} {q : BH} {fp : List Nat}

theorem place (h : Closed E m g t p q fp) : PlaceOk E m g p t := by
  induction h with
  | box _ _ hp => exact hp
  | opt _ ih => exact ih.underef

theorem congr (h : Closed E m g t p q fp) {m' : Mem} {g' : Nat → Ty} (h1 : ∀ x ∈ fp, m' x = m x)
    (h2 : m' p.addr = m p.addr ∧ g' p.addr = g p.addr) : Closed E m' g' t p q fp := by
  induction h with
  | box hm hs hp => exact .box (by rw [h1 _ (by simp), hm]) (by rw [h1 _ (by simp), hs]) (hp.congr h2.1 h2.2)
  | opt _ ih => exact .opt (ih h1 h2)

theorem live (h : Closed E m g t p q fp) : ∀ x ∈ fp, m x ≠ none := by
  induction h with
  | box hm hs hp =>
    intro x hx
    simp only [List.mem_cons, List.not_mem_nil, or_false] at hx
    rcases hx with rfl | rfl
    · rw [hm]; simp
    · rw [hs]; simp
  | opt _ ih => exact ih

theorem is_at (h : Closed E m g t p q fp) : ∃ b s p', q = .at b ∧ fp = [b, s] ∧ m b = some (.boxB p' s .ignore) ∧ m s = some (.slot none) := by
  induction h with
  | box hm hs => exact ⟨_, _, _, rfl, rfl, hm, hs⟩
  | opt _ ih => exact ih

end Closed

/-- A chain of builders, open or finished. -/
inductive Live' (E : Env) (m : Mem) (g : Nat → Ty) (t : Ty) (k : Bool) (p : Ptr) (q : BH) : List Nat → Bool → Prop
  | chain {a fp} (h : Chain E m g t k p q a fp) (fin : Bool) : Live' E m g t k p q fp fin
  | closed {fp} (h : Closed E m g t p q fp) : Live' E m g t k p q fp true

namespace Live'
variable {m : Mem} {g : Nat → Ty} {t : Ty} {k : Bool} {p : Ptr} {q : BH} {fp : List Nat} {fin : Bool}

theorem place (h : Live' E m g t k p q fp fin) : PlaceOk E m g p t := by
  cases h with
  | chain h => exact h.place
  | closed h => exact h.place

theorem live (h : Live' E m g t k p q fp fin) : ∀ x ∈ fp, m x ≠ none := by
  cases h with
  | chain h => exact h.live
  | closed h => exact h.live

theorem congr (h : Live' E m g t k p q fp fin) {m' : Mem} {g' : Nat → Ty} (h1 : ∀ x ∈ fp, m' x = m x ∧ g' x = g x)
    (h2 : m' p.addr = m p.addr ∧ g' p.addr = g p.addr) : Live' E m' g' t k p q fp fin := by
  cases h with
  | chain h => exact .chain (h.congr h1 h2) fin
  | closed h => exact .closed (h.congr (fun x hx => (h1 x hx).1) h2)

end Live'

/-! ## drop -/

/-- The objects in `fp` are gone. -/
def Mem.without (m : Mem) (fp : List Nat) : Mem := fun x => if x ∈ fp then none else m x

theorem chain_drop {m : Mem} {g : Nat → Ty} {t : Ty} {k : Bool} {p : Ptr} {q : BH} {a : Nat} {fp : List Nat} (hc : Chain E m g t k p q a fp) :
    fp.Nodup → ∀ {h : Heap}, h.mem = m → h.fault = false →
    (dropB q h).mem = m.without fp ∧ (dropB q h).fault = false ∧ (dropB q h).next = h.next := by
  induction hc with
  | @base t k p a core hb hm hc hp =>
    intro _ h e hf
    rw [dropB, dropAt]
    have : h.mem a = some (.builder p core) := by rw [e]; exact hm
    simp only [this, Heap.free, core_dropOk hc, hf, Bool.not_true, Bool.or_self, and_true]
    rw [e]
    funext x
    simp only [Mem.set, Mem.without, List.mem_singleton]
  | opt _ ih => exact ih
  | @box t k p b s q' a fp c hm hq hs hg hp hc ih =>
    intro hn h e hf
    simp only [List.nodup_cons, List.mem_cons, not_or] at hn
    obtain ⟨e1, e2, e3⟩ := ih hn.2.2 e hf
    have hb' : h.mem b = some (.boxB p s (.at q')) := by rw [e]; exact hm
    rw [dropB, dropAt]
    simp only [hb', hq, if_true]
    simp only [dropB] at e1 e2 e3
    have h1 : (dropAt q' h).mem s = some (.slot c) := by rw [e1]; simp only [Mem.without, hn.2.1, if_false]; exact hs
    have h2 : ((dropAt q' h).free s).mem b = some (.boxB p s (.at q')) := by
      simp only [Heap.free, h1]; rw [Mem.set_ne _ _ hn.1.1, e1]; simp only [Mem.without, hn.1.2, if_false]; exact hm
    have h3 : (((dropAt q' h).free s).free b) =
        { (dropAt q' h) with mem := ((dropAt q' h).mem.set s none).set b none } := by
      rw [Heap.free]; simp only [h2]; simp only [Heap.free, h1]
    rw [h3]
    refine ⟨?_, e2, e3⟩
    show ((dropAt q' h).mem.set s none).set b none = _
    rw [e1]
    funext x
    simp only [Mem.set, Mem.without, List.mem_cons]
    by_cases hxb : x = b
    · simp [hxb]
    · by_cases hxs : x = s <;> simp [hxb, hxs]

theorem closed_drop {m : Mem} {g : Nat → Ty} {t : Ty} {p : Ptr} {q : BH} {fp : List Nat} (hc : Closed E m g t p q fp) :
    fp.Nodup → ∀ {h : Heap}, h.mem = m → h.fault = false →
    (dropB q h).mem = m.without fp ∧ (dropB q h).fault = false ∧ (dropB q h).next = h.next := by
  intro hn h e hf
  obtain ⟨b, s, p', rfl, rfl, h1, h2⟩ := hc.is_at
  simp only [List.nodup_cons, List.mem_cons, List.not_mem_nil, or_false, not_false_eq_true, List.nodup_nil, and_true] at hn
  rw [← e] at h1 h2
  rw [dropB, dropAt, h1]
  have h3 : (h.free s).mem b = some (.boxB p' s .ignore) := by
    simp only [Heap.free, h2]; rw [Mem.set_ne _ _ hn, h1]
  have h4 : ((h.free s).free b) = { h with mem := (h.mem.set s none).set b none } := by
    rw [Heap.free]; simp only [h3]; simp only [Heap.free, h2]
  simp only [h4]
  refine ⟨?_, hf, trivial⟩
  rw [e]
  funext x
  simp only [Mem.set, Mem.without, List.mem_cons, List.not_mem_nil, or_false]
  by_cases hxb : x = b
  · simp [hxb]
  · by_cases hxs : x = s <;> simp [hxb, hxs]

theorem live_drop {m : Mem} {g : Nat → Ty} {t : Ty} {k : Bool} {p : Ptr} {q : BH} {fp : List Nat} {fin : Bool} (hc : Live' E m g t k p q fp fin)
    (hn : fp.Nodup) {h : Heap} (e : h.mem = m) (hf : h.fault = false) :
    (dropB q h).mem = m.without fp ∧ (dropB q h).fault = false ∧ (dropB q h).next = h.next := by
  cases hc with
  | chain hc => exact chain_drop hc hn e hf
  | closed hc => exact closed_drop hc hn e hf

/-! ## element / key -/

theorem chain_child {m : Mem} {g : Nat → Ty} {t : Ty} {k : Bool} {p : Ptr} {q : BH} {a : Nat} {fp : List Nat} (hc : Chain E m g t k p q a fp)
    (s : Option Bytes) {out : Ptr} {core core' : Core} (ha : m a = some (.builder out core)) {r : Res (Option (Nat × Ty))}
    (hr : core.child E s = some (r, core')) : ∀ {h : Heap}, h.mem = m →
    childB E q s h = (r.map fun o => match o with | some (f, t) => VH.place t ⟨a, f, 0⟩ | none => .ignore,
      h.set a (.builder out core')) := by
  induction hc with
  | base hb hm hc hp =>
    intro h e
    rw [childB, childAt, e, ha]
    simp only [hr]
    rcases r with (_ | ⟨f, t⟩) | _ | _ <;> rfl
  | opt _ ih => exact ih ha
  | @box t k p b s q' a fp c hm hq hs hg hp hc ih =>
    intro h e
    have := ih ha e
    rw [childB, childAt]
    simp only [e, hm, hq, if_true]
    exact this

theorem closed_child {m : Mem} {g : Nat → Ty} {t : Ty} {p : Ptr} {q : BH} {fp : List Nat} (hc : Closed E m g t p q fp)
    (s : Option Bytes) {h : Heap} (e : h.mem = m) : childB E q s h = (.ok .ignore, h) := by
  obtain ⟨b, s, p', rfl, rfl, h1, h2⟩ := hc.is_at
  rw [childB, childAt, e, h1]

/-! ## finish -/

theorem closed_finish {m : Mem} {g : Nat → Ty} {t : Ty} {p : Ptr} {q : BH} {fp : List Nat} (hc : Closed E m g t p q fp)
    (hn : fp.Nodup) {h : Heap} (e : h.mem = m) : finishB E q h = (.panic, h) := by
  obtain ⟨b, s, p', rfl, rfl, h1, h2⟩ := hc.is_at
  simp only [List.nodup_cons, List.mem_cons, List.not_mem_nil, or_false, not_false_eq_true, List.nodup_nil, and_true] at hn
  rw [finishB, finishAt, e, h1]
  have h3 : h.set b (.boxB p' s .ignore) = h := by
    simp only [Heap.set]; rw [Mem.set_eq_self _ (by rw [e, h1])]
  simp only [boxFinish, h3, e, h1, slot_read h2]

theorem chain_finish (hE : E.Lawful) {m : Mem} {g : Nat → Ty} {t : Ty} {k : Bool} {p : Ptr} {q : BH} {a : Nat} {fp : List Nat} (hc : Chain E m g t k p q a fp) :
    fp.Nodup → p.addr ∉ fp → ∀ {h : Heap}, h.mem = m → h.fault = false →
    ∃ r h' fp' c m1, finishB E q h = (r, h') ∧ r ≠ .panic ∧ h'.fault = false ∧ h'.next = h.next ∧ Content E t c ∧ m.write p c = some m1 ∧
      (r = .ok () → c.isSome = true) ∧ (r ≠ .ok () → Chain E h'.mem g t k p q a fp ∧ fp' = fp) ∧ Live' E h'.mem g t k p q fp' true ∧
      fp'.Nodup ∧ (∀ x ∈ fp', x ∈ fp) ∧ (∀ x, x ∉ fp → h'.mem x = m1 x) ∧ (∀ x ∈ fp, x ∉ fp' → h'.mem x = none) := by
  induction hc with
  | @base t k p a core hb hm hc hp =>
    intro hn hpa h e hf
    have hpa' : p.addr ≠ a := by simpa using hpa
    obtain ⟨r, core', h1, h2, h3, h4⟩ := core_finish hE hc
    rw [finishB, finishAt, e, hm]
    simp only [h1]
    have hset : ∀ x, x ≠ a → (m.set a (some (.builder p core'))) x = m x := fun x hx => Mem.set_ne _ _ hx
    have hp' : PlaceOk E (m.set a (some (.builder p core'))) g p t := hp.congr (hset _ hpa') rfl
    cases r with
    | panic => exact absurd rfl h3
    | err =>
      obtain ⟨c, hc1, hc2⟩ := hp.read
      have ch : Chain E (h.set a (.builder p core')).mem g t k p (.at a) a [a] :=
        .base hb (Mem.set_same ..) h2 (by simp only [Heap.set, e]; exact hp')
      refine ⟨.err, _, [a], c, m, rfl, by simp, hf, rfl, hc2, write_read hc1, by simp, fun _ => ⟨ch, rfl⟩, .chain ch true, by simp, by simp, ?_, ?_⟩
      · intro x hx; simp only [Heap.set, e]; exact hset x (by simpa using hx)
      · intro x hx hx'; exact absurd hx hx'
    | ok v =>
      have hcv : Content E t (some v) := Content.some (h4 v rfl)
      obtain ⟨o, c0, T, w1, w2, w3, w4, w5⟩ := hp.write hcv
      have w4' : (h.set a (.builder p core')).mem.write p (some v) =
          some ((m.set p.addr (some (o.put p.field c0))).set a (some (.builder p core'))) := by
        simp only [Heap.set, e]; rw [write_set _ _ (Ne.symm hpa'), w4]; rfl
      have ch : Chain E ((m.set p.addr (some (o.put p.field c0))).set a (some (.builder p core'))) g t k p (.at a) a [a] :=
        .base hb (Mem.set_same ..) h2 (w5.congr (Mem.set_ne _ _ hpa') rfl)
      refine ⟨.ok (), _, [a], some v, _, rfl, by simp, ?_, ?_, hcv, w4, by simp, by simp, .chain (a := a) (by rw [heap_write_eq w4']; exact ch) true,
        by simp, by simp, ?_, ?_⟩
      · rw [heap_write_eq w4']; exact hf
      · rw [heap_write_eq w4']; rfl
      · intro x hx; rw [heap_write_eq w4']; exact Mem.set_ne _ _ (by simpa using hx)
      · intro x hx hx'; exact absurd hx hx'
  | @opt t k p q a fp hc ih =>
    intro hn hpa h e hf
    obtain ⟨r, h', fp', c, m1, e1, e2, e3, e4, e5, e6, e7, e8, e9, e10⟩ := ih hn hpa e hf
    obtain ⟨x, hx, -⟩ := hc.place.read
    refine ⟨r, h', fp', someOpt c, m1, e1, e2, e3, e4, someOpt_typed e5, ?_, ?_, ?_, ?_, e10⟩
    · rw [← deref_write c (read_someOpt hx)]; exact e6
    · intro _; cases c <;> rfl
    · intro hr; exact ⟨.opt (e8 hr).1, (e8 hr).2⟩
    · cases e9 with
      | chain h _ => exact .chain (.opt h) true
      | closed h => exact .closed (.opt h)
  | @box t k p b s q' a fp c0 hm hq hs hg hp hc ih =>
    intro hn hpa h e hf
    simp only [List.nodup_cons, List.mem_cons, not_or] at hn hpa
    obtain ⟨r, h1, fp', c, m1, e1, e2, e3, e4, e5, e6, e7, e8, e9, e10, e11, e12, e13⟩ := ih hn.2.2 (by simpa using hn.2.1) e hf
    rw [slot_write c hs] at e6
    have hm1 : m1 = m.set s (some (.slot c)) := (Option.some.inj e6).symm
    subst hm1
    rw [finishB, finishAt, e, hm]
    simp only [hq, if_true]
    rw [finishB] at e1
    rw [e1]
    have hb1 : h1.mem b = some (.boxB p s (.at q')) := by rw [e12 b hn.1.2, Mem.set_ne _ _ hn.1.1, hm]
    have hs1 : h1.mem s = some (.slot c) := by rw [e12 s hn.2.1, Mem.set_same]
    have hp1 : h1.mem p.addr = m p.addr := by rw [e12 _ hpa.2.2, Mem.set_ne _ _ hpa.2.1]
    cases r with
    | panic => exact absurd rfl e2
    | err =>
      obtain ⟨x, hx1, hx2⟩ := hp.read
      obtain ⟨ch1, rfl⟩ := e8 (by simp)
      have ch : Chain E h1.mem g (.box t) k p (.at b) a (b :: s :: fp') := .box hb1 hq hs1 hg (hp.congr hp1 rfl) ch1
      refine ⟨.err, h1, _, x, m, rfl, by simp, e3, e4, hx2, write_read hx1, by simp, fun _ => ⟨ch, rfl⟩, .chain ch true, by simp [hn],
        fun _ h => h, ?_, fun x hx hx' => absurd hx hx'⟩
      intro x hx
      simp only [List.mem_cons, not_or] at hx
      rw [e12 x hx.2.2, Mem.set_ne _ _ hx.2.1]
    | ok u =>
      have hsome := e7 rfl
      cases c with
      | none => cases hsome
      | some v =>
      have hv : HasTy E t v := e5 v rfl
      obtain ⟨d1, d2, d3⟩ := live_drop e9 e10 rfl e3
      simp only [dropB] at d1 d2 d3
      have hbfp' : b ∉ fp' := fun h => hn.1.2 (e11 b h)
      have hsfp' : s ∉ fp' := fun h => hn.2.1 (e11 s h)
      have hpfp' : p.addr ∉ fp' := fun h => hpa.2.2 (e11 _ h)
      generalize hD : dropAt q' h1 = D at d1 d2 d3
      have hDs : (D.set b (.boxB p s .ignore)).mem s = some (.slot (some v)) := by
        simp only [Heap.set]; rw [Mem.set_ne _ _ (Ne.symm hn.1.1), d1]; simp only [Mem.without, hsfp', if_false]; exact hs1
      have hDp : ∀ x, x ≠ b → x ∉ fp' → (D.set b (.boxB p s .ignore)).mem x = h1.mem x := by
        intro x hx hx'
        simp only [Heap.set]; rw [Mem.set_ne _ _ hx, d1]; simp only [Mem.without, hx', if_false]
      have hDp2 : ∀ x, x ≠ b → x ∈ fp' → (D.set b (.boxB p s .ignore)).mem x = none := by
        intro x hx hx'
        simp only [Heap.set]; rw [Mem.set_ne _ _ hx, d1]; simp only [Mem.without, hx', if_true]
      have hDb : (D.set b (.boxB p s .ignore)).mem b = some (.boxB p s .ignore) := Mem.set_same ..
      generalize hDD : D.set b (.boxB p s .ignore) = DD at hDs hDp hDp2 hDb
      have hw1 : DD.mem.write ⟨s, 0, 0⟩ none = some (DD.mem.set s (some (.slot none))) := slot_write none hDs
      have hcv : Content E (.box t) (some (.box v)) := Content.some (.box hv)
      have hpD : PlaceOk E (DD.mem.set s (some (.slot none))) g p (.box t) :=
        hp.congr (by rw [Mem.set_ne _ _ hpa.2.1, hDp _ hpa.1 hpfp', hp1]) rfl
      obtain ⟨o, c1, T, w1, w2, w3, w4, w5⟩ := hpD.write hcv
      obtain ⟨o', c1', T', v1, v2, v3, v4, v5⟩ := hp.write hcv
      have hoo : o'.put p.field c1' = o.put p.field c1 := by
        have h2 : ∀ (M : Mem), M p.addr = m p.addr → ∀ M', M.write p (some (.box v)) = some M' → M' p.addr = some (o'.put p.field c1') := by
          intro M hM M' hM'
          simp only [Mem.write, hM, v1, Option.bind_some] at hM'
          simp only [Mem.write, v1, Option.bind_some] at v4
          cases hg : o'.get p.field with
          | none => rw [hg] at v4; cases v4
          | some c2 =>
            rw [hg] at v4 hM'
            simp only [Option.bind_some] at v4 hM'
            cases hwd : writeD p.depth (some (.box v)) c2 with
            | none => rw [hwd] at v4; cases v4
            | some c3 =>
              rw [hwd] at v4 hM'
              simp only [Option.map_some, Option.some.injEq] at v4 hM'
              subst hM'
              rw [Mem.set_same]
              have := congrFun v4 p.addr
              rw [Mem.set_same, Mem.set_same] at this
              exact this
        have h3 := h2 _ (by rw [Mem.set_ne _ _ hpa.2.1, hDp _ hpa.1 hpfp', hp1]) _ w4
        rw [Mem.set_same] at h3
        exact (Option.some.inj h3).symm
      have hfin : boxFinish b p s D = (.ok (), { DD with mem := (DD.mem.set s (some (.slot none))).set p.addr (some (o.put p.field c1)) }) := by
        have hDl : D.mem b = some (.boxB p s (.at q')) := by
          rw [d1]; simp only [Mem.without, hbfp', if_false]; exact hb1
        rw [boxFinish, hDl, hDD, slot_read hDs]
        simp only
        rw [heap_write_eq hw1]
        have := heap_write_eq (h := { DD with mem := DD.mem.set s (some (.slot none)) }) w4
        rw [this]
      simp only [hfin, hD]
      have clo : Closed E ((DD.mem.set s (some (.slot none))).set p.addr (some (o.put p.field c1))) g (.box t) p (.at b) [b, s] := by
        refine .box ?_ ?_ w5
        · rw [Mem.set_ne _ _ (Ne.symm hpa.1), Mem.set_ne _ _ hn.1.1, hDb]
        · rw [Mem.set_ne _ _ (Ne.symm hpa.2.1), Mem.set_same]
      refine ⟨.ok (), _, [b, s], some (.box v), _, rfl, by simp, ?_, ?_, hcv, v4, by simp, by simp, .closed clo, ?_, ?_, ?_, ?_⟩
      · show DD.fault = false
        rw [← hDD]; exact d2
      · show DD.next = h.next
        rw [← hDD, ← e4]; exact d3
      · simp [hn.1.1]
      · intro x hx
        simp only [List.mem_cons, List.not_mem_nil, or_false] at hx
        rcases hx with rfl | rfl <;> simp
      · intro x hx
        simp only [List.mem_cons, not_or] at hx
        dsimp only
        by_cases hxp : x = p.addr
        · subst hxp; rw [Mem.set_same, Mem.set_same, hoo]
        · rw [Mem.set_ne _ _ hxp, Mem.set_ne _ _ hxp, Mem.set_ne _ _ hx.2.1, hDp x hx.1 (fun h => hx.2.2 (e11 x h)), e12 x hx.2.2, Mem.set_ne _ _ hx.2.1]
      · intro x hx hx'
        simp only [List.mem_cons, List.not_mem_nil, or_false, not_or] at hx hx'
        have hxf : x ∈ fp := by
          rcases hx with h | h | h
          · exact absurd h hx'.1
          · exact absurd h hx'.2
          · exact h
        have hxp : x ≠ p.addr := by rintro rfl; exact hpa.2.2 hxf
        dsimp only
        rw [Mem.set_ne _ _ hxp, Mem.set_ne _ _ hx'.2]
        by_cases h' : x ∈ fp'
        · exact hDp2 x hx'.1 h'
        · rw [hDp x hx'.1 h']; exact e13 x hxf h'

/-! ## seq / map -/

theorem chain_open (isMap : Bool) : ∀ (t : Ty) {p : Ptr} {h : Heap} {g : Nat → Ty}, h.fault = false → (∀ x, h.next ≤ x → h.mem x = none) →
    PlaceOk E h.mem g p t →
    ∃ r h' g' c m1, openPlace E t p isMap h = (r, h') ∧ h'.fault = false ∧ h.next ≤ h'.next ∧ Content E t c ∧ h.mem.write p c = some m1 ∧
      (∀ x, x < h.next → g' x = g x) ∧ r ≠ .panic ∧
      ((r = .err ∧ h'.mem = m1) ∨ ∃ q a fp, r = .ok q ∧ Chain E h'.mem g' t isMap p q a fp ∧ fp.Nodup ∧ (∀ x ∈ fp, h.next ≤ x ∧ x < h'.next) ∧
        ∀ x, x ∉ fp → h'.mem x = m1 x) := by
  have base : ∀ (t : Ty), t.isBase = true → ∀ {p : Ptr} {h : Heap} {g : Nat → Ty}, h.fault = false → (∀ x, h.next ≤ x → h.mem x = none) →
      PlaceOk E h.mem g p t →
      ∃ r h' g' c m1, openPlace E t p isMap h = (r, h') ∧ h'.fault = false ∧ h.next ≤ h'.next ∧ Content E t c ∧ h.mem.write p c = some m1 ∧
        (∀ x, x < h.next → g' x = g x) ∧ r ≠ .panic ∧
        ((r = .err ∧ h'.mem = m1) ∨ ∃ q a fp, r = .ok q ∧ Chain E h'.mem g' t isMap p q a fp ∧ fp.Nodup ∧ (∀ x ∈ fp, h.next ≤ x ∧ x < h'.next) ∧
          ∀ x, x ∉ fp → h'.mem x = m1 x) := by
    intro t hb p h g hf hfr hp
    obtain ⟨c, hc1, hc2⟩ := hp.read
    rw [openPlace_base E hb]
    cases hco : t.core E isMap with
    | none => exact ⟨.err, h, g, c, h.mem, rfl, hf, Nat.le_refl _, hc2, write_read hc1, fun _ _ => rfl, by simp, .inl ⟨rfl, rfl⟩⟩
    | some core =>
      have hne : p.addr ≠ h.next := by
        intro e; exact hp.live (hfr _ (by omega))
      refine ⟨_, _, g, c, h.mem, rfl, hf, by simp [Heap.alloc], hc2, write_read hc1, fun _ _ => rfl, by simp, .inr ⟨_, h.next, [h.next], rfl,
        .base hb (Mem.set_same ..) (core_open hco) (hp.congr (Mem.set_ne _ _ hne) rfl), by simp, ?_, ?_⟩⟩
      · intro x hx; cases List.mem_singleton.1 hx; simp [Heap.alloc]
      · intro x hx; exact Mem.set_ne _ _ (by simpa using hx)
  intro t
  induction t with
  | opt t ih =>
    intro p h g hf hfr hp
    obtain ⟨o, c0, T, w1, w2, w3, w4, w5⟩ := hp.write (c := some .optNone) (Content.some (.none t))
    have hrd := (hp.after (c := some .optNone) (Content.some (.none t)) w4).2
    generalize h.mem.set p.addr (some (o.put p.field c0)) = m1 at w4 w5 hrd
    have hrd' : m1.read p = some (someOpt none) := hrd
    obtain ⟨r, h', g', c, m2, e1, e2, e3, e4, e5, e6, e7, e8⟩ := ih (p := p.deref) (h := { h with mem := m1 }) (g := g) hf
      (fun x hx => by rw [write_none w4 x]; exact hfr x hx) (w5.deref hrd')
    refine ⟨r, h', g', someOpt c, m2, ?_, e2, e3, someOpt_typed e4, ?_, e6, e7, ?_⟩
    · rw [openPlace, heap_write_eq w4]; exact e1
    · rw [← write_write (someOpt c) hp.valid w4, ← deref_write c hrd']; exact e5
    · rcases e8 with e8 | ⟨q, a, fp, f1, f2, f3⟩
      · exact .inl e8
      · exact .inr ⟨q, a, fp, f1, .opt f2, f3⟩
  | box t ih =>
    intro p h g hf hfr hp
    obtain ⟨c0, hc1, hc2⟩ := hp.read
    have hpn : p.addr < h.next := by
      rcases Nat.lt_or_ge p.addr h.next with h1 | h1
      · exact h1
      · exact absurd (hfr _ h1) hp.live
    have hfr1 : ∀ x, (h.alloc (.slot none)).2.next ≤ x → (h.alloc (.slot none)).2.mem x = none := by
      intro x hx
      simp only [Heap.alloc] at hx ⊢
      rw [Mem.set_ne _ _ (by omega)]; exact hfr x (by omega)
    have hp1 : PlaceOk E (h.alloc (.slot none)).2.mem (fun x => if x = h.next then t else g x) ⟨h.next, 0, 0⟩ t :=
      ⟨.slot none, none, none, Mem.set_same .., by simp [Obj.fieldTy, optN], rfl, Content.none _, rfl⟩
    obtain ⟨r, h2, g2, c, m1, e1, e2, e3, e4, e5, e6, e7, e8⟩ := ih (p := ⟨h.next, 0, 0⟩) (h := (h.alloc (.slot none)).2)
      (g := fun x => if x = h.next then t else g x) hf hfr1 hp1
    have hm1 : m1 = h.mem.set h.next (some (.slot c)) := by
      have : (h.alloc (.slot none)).2.mem.write ⟨h.next, 0, 0⟩ c = some (h.mem.set h.next (some (.slot c))) := by
        simp only [Heap.alloc]
        rw [slot_write (c := none) c (Mem.set_same ..), Mem.set_set]
      rw [this] at e5; exact (Option.some.inj e5).symm
    subst hm1
    have hn1 : h.next + 1 ≤ h2.next := e3
    have hg2 : ∀ x, x < h.next → g2 x = g x := by
      intro x hx
      rw [e6 x (by simp [Heap.alloc]; omega), if_neg (by omega)]
    have e1' : openPlace E t ⟨(h.alloc (.slot none)).1, 0, 0⟩ isMap (h.alloc (.slot none)).2 = (r, h2) := e1
    rw [openPlace]
    simp only [e1']
    rcases e8 with ⟨rfl, hm⟩ | ⟨q, a, fp, rfl, ch, f1, f2, f3⟩
    · have hfree : h2.free h.next = { h2 with mem := h.mem } := by
        simp only [Heap.free, hm, Mem.set_same]
        rw [Mem.set_set, Mem.set_eq_self _ (hfr _ (Nat.le_refl _))]
      refine ⟨.err, h2.free h.next, g, c0, h.mem, rfl, by rw [hfree]; exact e2, by rw [hfree]; show h.next ≤ h2.next; omega, hc2, write_read hc1,
        fun _ _ => rfl, by simp, .inl ⟨rfl, by rw [hfree]⟩⟩
    · obtain ⟨q', rfl, hq'⟩ := ch.is_at
      have hfp : ∀ x ∈ fp, h.next + 1 ≤ x ∧ x < h2.next := f2
      have hs : h.next ∉ fp := fun hx => by have := hfp _ hx; omega
      have hb : h2.next ∉ fp := fun hx => by have := hfp _ hx; omega
      have hs2 : h2.mem h.next = some (.slot c) := by rw [f3 _ hs, Mem.set_same]
      refine ⟨_, _, g2, c0, h.mem, rfl, e2, by simp only [Heap.alloc]; omega, hc2, write_read hc1, hg2, by simp,
        .inr ⟨_, a, h2.next :: h.next :: fp, rfl, ?_, ?_, ?_, ?_⟩⟩
      · refine .box (c := c) (Mem.set_same ..) (hfp _ hq').2 ?_ ?_ ?_ (ch.congr ?_ ?_)
        · simp only [Heap.alloc]; rw [Mem.set_ne _ _ (by omega), hs2]
        · rw [e6 _ (by simp [Heap.alloc]), if_pos rfl]
        · refine hp.congr ?_ (hg2 _ hpn)
          simp only [Heap.alloc]; rw [Mem.set_ne _ _ (by omega), f3 _ (fun hx => by have := hfp _ hx; omega), Mem.set_ne _ _ (by omega)]
        · intro x hx
          have := hfp x hx
          exact ⟨Mem.set_ne _ _ (by omega), rfl⟩
        · exact ⟨Mem.set_ne _ _ (show h.next ≠ h2.next by omega), rfl⟩
      · simp only [List.nodup_cons, List.mem_cons, not_or]
        exact ⟨⟨by omega, hb⟩, hs, f1⟩
      · intro x hx
        simp only [Heap.alloc]
        rcases List.mem_cons.1 hx with rfl | hx
        · omega
        · rcases List.mem_cons.1 hx with rfl | hx
          · omega
          · have := hfp x hx; omega
      · intro x hx
        simp only [List.mem_cons, not_or] at hx
        simp only [Heap.alloc]
        rw [Mem.set_ne _ _ hx.1, f3 x hx.2.2, Mem.set_ne _ _ hx.2.1]
  | _ => exact base _ rfl

end Miniserde
