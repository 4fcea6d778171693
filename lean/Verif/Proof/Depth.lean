import Verif.Spec.Depth
import Verif.Proof.CheckNum

/-!
# Call depth: the limited implementations behave like the real ones
-/

namespace Miniserde

/-! ## Deserialization -/

/-- Where a builder forwards calls to. -/
def fwd : Option Obj → Option Nat
  | some (.boxB _ _ (.at a)) => some a
  | _ => none

/-- A call to the builder at `a` makes at most `d` nested calls. -/
def ChainLe (m : Mem) : Nat → Nat → Prop
  | 0, _ => False
  | d + 1, a => ∀ a', fwd (m a) = some a' → a' < a → ChainLe m d a'

theorem ChainLe.mono {m : Mem} : ∀ {d d' a : Nat}, d ≤ d' → ChainLe m d a → ChainLe m d' a
  | 0, _, _, _, h => h.elim
  | d + 1, d' + 1, a, hd, h => fun a' hf hl => ChainLe.mono (by omega) (h a' hf hl)

theorem ChainLe.le {m m' : Mem} (hm : ∀ a, fwd (m' a) = fwd (m a) ∨ fwd (m' a) = none) : ∀ {d a : Nat}, ChainLe m d a → ChainLe m' d a
  | 0, _, h => h.elim
  | d + 1, a, h => fun a' hf hl => by
    rcases hm a with e | e
    · exact ChainLe.le hm (h a' (e ▸ hf) hl)
    · rw [e] at hf; cases hf

/-- Only lower addresses matter. -/
theorem ChainLe.below {m m' : Mem} {n : Nat} (hm : ∀ a < n, m' a = m a) : ∀ {d a : Nat}, a < n → ChainLe m d a → ChainLe m' d a
  | 0, _, _, h => h.elim
  | d + 1, a, hn, h => fun a' hf hl => ChainLe.below hm (by omega) (h a' (by rw [← hm a hn]; exact hf) hl)

/-- The types in a builder. -/
def Core.Fits (B : Nat) : Core → Prop
  | .vec t _ _ => t.maxWraps ≤ B
  | .arr t _ _ _ _ => t.maxWraps ≤ B
  | .tup a b _ _ => a.maxWraps ≤ B ∧ b.maxWraps ≤ B
  | .map _ t _ _ _ => t.maxWraps ≤ B
  | .strct _ _ => True

def FitsM (B : Nat) (m : Mem) : Prop := ∀ a out core, m a = some (.builder out core) → core.Fits B

def FreshM (h : Heap) : Prop := ∀ a, h.next ≤ a → h.mem a = none

structure Inv (B : Nat) (h : Heap) : Prop where
  fresh : FreshM h
  chain : ∀ a, ChainLe h.mem (B + 1) a
  fits : FitsM B h.mem

/-- A step that allocates nothing. -/
structure Stays (B : Nat) (h h' : Heap) : Prop where
  next : h'.next = h.next
  fwd : ∀ a, fwd (h'.mem a) = fwd (h.mem a) ∨ fwd (h'.mem a) = none
  fresh : FreshM h → FreshM h'
  fits : FitsM B h.mem → FitsM B h'.mem

theorem Stays.refl {B : Nat} {h : Heap} : Stays B h h := ⟨rfl, fun _ => .inl rfl, id, id⟩

theorem Stays.trans {B : Nat} {h h' h'' : Heap} (s : Stays B h h') (s' : Stays B h' h'') : Stays B h h'' :=
  ⟨s'.next.trans s.next, fun a => by
    rcases s'.fwd a with e | e
    · rcases s.fwd a with e' | e'
      · exact .inl (e.trans e')
      · exact .inr (e.trans e')
    · exact .inr e, fun f => s'.fresh (s.fresh f), fun f => s'.fits (s.fits f)⟩

theorem Inv.stays {B : Nat} {h h' : Heap} (i : Inv B h) (s : Stays B h h') : Inv B h' :=
  ⟨s.fresh i.fresh, fun a => (i.chain a).le s.fwd, s.fits i.fits⟩

theorem stays_bad {B : Nat} (h : Heap) : Stays B h h.bad := ⟨rfl, fun _ => .inl rfl, id, id⟩

theorem Core.put_fits {B : Nat} (c : Core) (f : Nat) (x : Option Val) (h : c.Fits B) : (c.put f x).Fits B := by
  unfold Core.put
  split <;> exact h

theorem stays_write {B : Nat} (h : Heap) (p : Ptr) (c : Option Val) : Stays B h (h.write p c) := by
  unfold Heap.write
  cases hw : h.mem.write p c with
  | none => exact stays_bad h
  | some m =>
    unfold Mem.write at hw
    simp only [Option.bind_eq_some_iff, Option.map_eq_some_iff] at hw
    obtain ⟨o, ho, c0, -, c', -, rfl⟩ := hw
    refine ⟨rfl, ?_, ?_, ?_⟩
    · intro a
      refine .inl ?_
      show fwd (if a = p.addr then _ else h.mem a) = _
      split
      · rename_i e
        rw [e, ho]
        cases o with
        | slot s => unfold Obj.put; split <;> first | rfl | (rename_i e; cases e; rfl) | rfl
        | builder out core => rfl
        | boxB out value inner => rfl
      · rfl
    · intro hf a ha
      show (if a = p.addr then _ else h.mem a) = _
      split
      · rename_i e
        rw [hf p.addr (e ▸ ha)] at ho; cases ho
      · exact hf a ha
    · intro hf a out core ha
      have ha' : (if a = p.addr then some (o.put p.field c') else h.mem a) = some (.builder out core) := ha
      split at ha'
      · cases o with
        | slot s => unfold Obj.put at ha'; split at ha' <;> cases ha' <;> contradiction
        | builder out' core' =>
          cases ha'
          exact Core.put_fits _ _ _ (hf _ _ _ ho)
        | boxB out value inner => cases ha'
      · exact hf a out core ha'

theorem stays_free {B : Nat} (h : Heap) (a : Nat) : Stays B h (h.free a) := by
  have key : ∀ h' : Heap, h'.next = h.next → h'.mem = h.mem.set a none → Stays B h h' := by
    intro h' hn hm
    refine ⟨hn, ?_, ?_, ?_⟩
    · intro x
      rw [hm]
      show fwd (if x = a then none else h.mem x) = _ ∨ _
      by_cases e : x = a
      · right; simp [Mem.set, e, fwd]
      · left; simp [e]
    · intro hf x hx
      rw [hm]
      show (if x = a then none else h.mem x) = _
      split
      · rfl
      · exact hf x (hn ▸ hx)
    · intro hf x out core hx
      rw [hm] at hx
      have hx' : (if x = a then none else h.mem x) = some (.builder out core) := hx
      split at hx'
      · cases hx'
      · exact hf x out core hx'
  unfold Heap.free
  split
  · exact key _ rfl rfl
  · exact key _ rfl rfl
  · exact stays_bad h

theorem stays_set {B : Nat} (h : Heap) (a : Nat) (o : Obj) (ha : a < h.next) (hf : fwd (some o) = fwd (h.mem a) ∨ fwd (some o) = none)
    (hc : FitsM B h.mem → ∀ out core, o = .builder out core → core.Fits B) : Stays B h (h.set a o) := by
  refine ⟨rfl, ?_, ?_, ?_⟩
  · intro x
    show fwd (if x = a then some o else h.mem x) = _ ∨ fwd (if x = a then some o else h.mem x) = none
    by_cases e : x = a
    · rw [if_pos e, e]; exact hf
    · rw [if_neg e]; exact .inl rfl
  · intro hfr x hx
    have hx' : h.next ≤ x := hx
    show (if x = a then some o else h.mem x) = _
    rw [if_neg (by omega)]
    exact hfr x hx'
  · intro hff x out core hx
    have hx' : (if x = a then some o else h.mem x) = some (.builder out core) := hx
    split at hx'
    · cases hx'; exact hc hff _ _ rfl
    · exact hff x out core hx'

theorem live_lt {h : Heap} (hf : FreshM h) {a : Nat} {o : Obj} (ha : h.mem a = some o) : a < h.next := by
  rcases Nat.lt_or_ge a h.next with h' | h'
  · exact h'
  · rw [hf a h'] at ha; cases ha

/-! ### Leaf calls -/

theorem leafOnL_eq (E : Env) : ∀ (d : Nat) (t : Ty) (ev : Event) (c : Option Val), t.wraps < d → leafOnL E d t ev c = leafOn E t ev c
  | 0, _, _, _, h => absurd h (Nat.not_lt_zero _)
  | d + 1, .opt t, ev, c, h => by
    have ih := leafOnL_eq E d t ev none (by simp [Ty.wraps] at h; omega)
    cases ev <;> simp only [leafOnL, leafOn, ih]
  | d + 1, .box t, ev, c, h => by
    have ih := leafOnL_eq E d t ev none (by simp [Ty.wraps] at h; omega)
    simp only [leafOnL, leafOn, ih]
    generalize leafOn E t ev none = x
    obtain ⟨r, c'⟩ := x
    cases r <;> cases c' <;> rfl
  | d + 1, .unit, ev, c, _ => rfl
  | d + 1, .bool, ev, c, _ => rfl
  | d + 1, .string, ev, c, _ => rfl
  | d + 1, .int _ _, ev, c, _ => rfl
  | d + 1, .f32, ev, c, _ => rfl
  | d + 1, .f64, ev, c, _ => rfl
  | d + 1, .number, ev, c, _ => rfl
  | d + 1, .value, ev, c, _ => rfl
  | d + 1, .array, ev, c, _ => rfl
  | d + 1, .object, ev, c, _ => rfl
  | d + 1, .tup _ _, ev, c, _ => rfl
  | d + 1, .vec _, ev, c, _ => rfl
  | d + 1, .arr _ _, ev, c, _ => rfl
  | d + 1, .hmap _ _, ev, c, _ => rfl
  | d + 1, .bmap _ _, ev, c, _ => rfl
  | d + 1, .strct _, ev, c, _ => rfl
  | d + 1, .enm _, ev, c, _ => rfl

theorem Ty.wraps_le : ∀ t : Ty, t.wraps ≤ t.maxWraps
  | .box t => Nat.le_max_left _ _
  | .opt t => Nat.le_max_left _ _
  | .unit | .bool | .string | .int _ _ | .f32 | .f64 | .number | .value | .array | .object | .tup _ _ | .vec _ | .arr _ _ | .hmap _ _ | .bmap _ _
  | .strct _ | .enm _ => Nat.zero_le _

/-- The types of the handles. -/
def VH.Fits (B : Nat) : VH → Prop
  | .ignore => True
  | .place t _ => t.maxWraps ≤ B

theorem leafAtL_eq (E : Env) {B : Nat} {v : VH} (hv : v.Fits B) (ev : Event) (h : Heap) : leafAtL E (B + 1) v ev h = leafAt E v ev h := by
  cases v with
  | ignore => rfl
  | place t p =>
    have := Ty.wraps_le t
    have hv' : t.maxWraps ≤ B := hv
    unfold leafAtL leafAt
    simp only [leafOnL_eq E (B + 1) t ev _ (by omega)]
    cases h.mem.read p <;> rfl

theorem leafAt_stays (E : Env) {B : Nat} (v : VH) (ev : Event) (h : Heap) : Stays B h (leafAt E v ev h).2 := by
  cases v with
  | ignore => exact .refl
  | place t p =>
    unfold leafAt
    simp only
    split
    · exact stays_write _ _ _
    · exact stays_bad h

/-! ### `seq`, `map` -/

theorem alloc_inv {B : Nat} {h : Heap} (i : Inv B h) (o : Obj) (hf : ∀ a', fwd (some o) = some a' → a' < h.next → ChainLe h.mem B a')
    (hc : ∀ out core, o = .builder out core → core.Fits B) : Inv B (h.alloc o).2 := by
  have hbelow : ∀ a < h.next, (h.alloc o).2.mem a = h.mem a := by
    intro a ha
    show (if a = h.next then some o else h.mem a) = _
    rw [if_neg (by omega)]
  have hat : (h.alloc o).2.mem h.next = some o := by
    show (if h.next = h.next then some o else h.mem h.next) = _
    rw [if_pos rfl]
  have habove : ∀ a, h.next < a → (h.alloc o).2.mem a = none := by
    intro a ha
    show (if a = h.next then some o else h.mem a) = _
    rw [if_neg (by omega)]
    exact i.fresh a (by omega)
  refine ⟨fun a ha => habove a ha, ?_, ?_⟩
  · intro a
    rcases Nat.lt_trichotomy a h.next with hl | he | hg
    · exact (i.chain a).below hbelow hl
    · subst he
      intro a' ha' hl
      rw [hat] at ha'
      exact (hf a' ha' hl).below hbelow hl
    · intro a' ha' _
      rw [habove a hg] at ha'
      cases ha'
  · intro a out core ha
    rcases Nat.lt_trichotomy a h.next with hl | he | hg
    · rw [hbelow a hl] at ha; exact i.fits a out core ha
    · rw [he, hat] at ha
      cases ha
      exact hc _ _ rfl
    · rw [habove a hg] at ha; cases ha

theorem core_fits (E : Env) {B : Nat} {t : Ty} (ht : t.maxWraps ≤ B) {isMap : Bool} {core : Core} (h : t.core E isMap = some core) : core.Fits B := by
  cases t <;> cases isMap <;> simp only [Ty.core, Option.some.injEq, reduceCtorEq] at h <;> subst h <;>
    simp only [Ty.maxWraps] at ht <;> simp only [Core.Fits, Ty.maxWraps] <;> omega

/-- Result of opening a place: the limited version agrees, the invariant is kept, and the new builder's chain is as long as the type has wrappers. -/
theorem openPlace_ok (E : Env) {B : Nat} : ∀ (t : Ty) (p : Ptr) (isMap : Bool) (h : Heap) (d : Nat), t.maxWraps ≤ B → t.wraps < d → Inv B h →
    openPlaceL E d t p isMap h = openPlace E t p isMap h ∧ Inv B (openPlace E t p isMap h).2 ∧
    ∀ a, (openPlace E t p isMap h).1 = .ok (.at a) → ChainLe (openPlace E t p isMap h).2.mem (t.wraps + 1) a := by
  have base : ∀ (t : Ty) (p : Ptr) (isMap : Bool) (h : Heap), t.maxWraps ≤ B → Inv B h →
      (∀ core, t.core E isMap = some core → Inv B (h.alloc (.builder p core)).2 ∧
        ∀ n, ChainLe (h.alloc (.builder p core)).2.mem (n + 1) (h.alloc (.builder p core)).1) := by
    intro t p isMap h ht i core hc
    refine ⟨alloc_inv i _ (fun a' ha' => by cases ha') fun out core' e => by cases e; exact core_fits E ht hc, ?_⟩
    intro n a' ha' _
    have : (h.alloc (.builder p core)).2.mem (h.alloc (.builder p core)).1 = some (.builder p core) := by
      show (if h.next = h.next then _ else _) = _
      rw [if_pos rfl]
    rw [this] at ha'
    cases ha'
  intro t
  induction t with
  | opt t ih =>
    intro p isMap h d hB hd i
    simp only [Ty.wraps, Ty.maxWraps] at hB hd
    obtain ⟨d, rfl⟩ : ∃ k, d = k + 1 := ⟨d - 1, by omega⟩
    obtain ⟨h1, h2, h3⟩ := ih p.deref isMap (h.write p (some .optNone)) d (by omega) (by omega) (i.stays (stays_write _ _ _))
    refine ⟨?_, ?_, ?_⟩
    · simp only [openPlaceL, openPlace]; exact h1
    · simpa only [openPlace] using h2
    · intro a ha
      simp only [openPlace] at ha ⊢
      exact (h3 a ha).mono (by simp [Ty.wraps])
  | box t ih =>
    intro p isMap h d hB hd i
    simp only [Ty.wraps, Ty.maxWraps] at hB hd
    obtain ⟨d, rfl⟩ : ∃ k, d = k + 1 := ⟨d - 1, by omega⟩
    have i0 : Inv B (h.alloc (.slot none)).2 := alloc_inv i _ (fun a' ha' => by cases ha') fun out core e => by cases e
    obtain ⟨h1, h2, h3⟩ := ih ⟨(h.alloc (.slot none)).1, 0, 0⟩ isMap (h.alloc (.slot none)).2 d (by omega) (by omega) i0
    simp only [openPlaceL, openPlace, h1]
    generalize hx : openPlace E t ⟨(h.alloc (.slot none)).1, 0, 0⟩ isMap (h.alloc (.slot none)).2 = x at h2 h3
    obtain ⟨r, h'⟩ := x
    cases r with
    | err => exact ⟨rfl, h2.stays (stays_free _ _), fun a ha => by cases ha⟩
    | panic => exact ⟨rfl, h2.stays (stays_free _ _), fun a ha => by cases ha⟩
    | ok q =>
      refine ⟨rfl, ?_, ?_⟩
      · refine alloc_inv h2 _ ?_ fun out core e => by cases e
        intro a' ha' hl
        cases q with
        | ignore => cases ha'
        | «at» a =>
          cases ha'
          exact (h3 _ rfl).mono (by have := hB; omega)
      · intro a ha
        simp only [Res.ok.injEq, BH.at.injEq] at ha
        subst ha
        have hat : (h'.alloc (.boxB p (h.alloc (.slot none)).1 q)).2.mem (h'.alloc (.boxB p (h.alloc (.slot none)).1 q)).1 =
            some (.boxB p (h.alloc (.slot none)).1 q) := by
          show (if h'.next = h'.next then _ else _) = _
          rw [if_pos rfl]
        intro a' ha' hl
        rw [hat] at ha'
        cases q with
        | ignore => cases ha'
        | «at» a =>
          cases ha'
          refine (h3 _ rfl).below (n := h'.next) ?_ hl
          intro x hx
          show (if x = h'.next then _ else h'.mem x) = _
          rw [if_neg (by omega)]
  | _ =>
    intro p isMap h d hB hd i
    obtain ⟨d, rfl⟩ : ∃ k, d = k + 1 := ⟨d - 1, by omega⟩
    have b := base _ p isMap h hB i
    simp only [openPlaceL, openPlace]
    generalize Ty.core E _ isMap = x at b
    cases x with
    | some core =>
      refine ⟨rfl, (b core rfl).1, ?_⟩
      intro a ha
      simp only [Res.ok.injEq, BH.at.injEq] at ha
      subst ha
      exact (b core rfl).2 _
    | none => exact ⟨rfl, i, fun a ha => by cases ha⟩

theorem openV_ok (E : Env) {B : Nat} {v : VH} (hv : v.Fits B) (isMap : Bool) {h : Heap} (i : Inv B h) :
    openVL E (B + 1) v isMap h = openV E v isMap h ∧ Inv B (openV E v isMap h).2 := by
  cases v with
  | ignore => exact ⟨rfl, i⟩
  | place t p =>
    have hv' : t.maxWraps ≤ B := hv
    have := Ty.wraps_le t
    obtain ⟨h1, h2, -⟩ := openPlace_ok E t p isMap h (B + 1) hv' (by omega) i
    exact ⟨h1, h2⟩

/-! ### `element`, `key`, `finish` and drop -/

theorem child_fits (E : Env) {B : Nat} (hE : ∀ i, ∀ f ∈ E.fields i, f.2.maxWraps ≤ B) {core core' : Core} (hc : core.Fits B) {k? : Option Bytes}
    {r : Res (Option (Nat × Ty))} (h : core.child E k? = some (r, core')) : core'.Fits B ∧ ∀ f t, r = .ok (some (f, t)) → t.maxWraps ≤ B := by
  cases core with
  | vec t done el =>
    cases k? with
    | none =>
      simp only [Core.child, Option.some.injEq, Prod.mk.injEq] at h
      obtain ⟨rfl, rfl⟩ := h
      exact ⟨hc, fun f t' e => by cases e; exact hc⟩
    | some k => cases h
  | arr t n slots len el =>
    cases k? with
    | none =>
      simp only [Core.child, shiftArr] at h
      have hc' : t.maxWraps ≤ B := hc
      cases el with
      | none => simp at h; obtain ⟨rfl, rfl⟩ := h; exact ⟨hc, fun f t' e => by cases e; exact hc'⟩
      | some e =>
        simp only at h
        cases hs : slots[len]? with
        | none => rw [hs] at h; simp at h; obtain ⟨rfl, rfl⟩ := h; exact ⟨hc, fun f t' e => by cases e⟩
        | some x =>
          rw [hs] at h
          cases x with
          | none => simp at h; obtain ⟨rfl, rfl⟩ := h; exact ⟨hc, fun f t' e => by cases e; exact hc'⟩
          | some v => simp at h
    | some k => cases h
  | tup a b x y =>
    cases k? with
    | none =>
      cases x <;> cases y <;> simp only [Core.child, Option.some.injEq, Prod.mk.injEq] at h <;> obtain ⟨rfl, rfl⟩ := h <;>
        refine ⟨hc, fun f t' e => ?_⟩ <;> cases e <;> first | exact hc.1 | exact hc.2
    | some k => cases h
  | map kind t m key val =>
    cases k? with
    | none => cases h
    | some k =>
      simp only [Core.child] at h
      cases hk : kind.parse E k with
      | none => rw [hk] at h; simp at h; obtain ⟨rfl, rfl⟩ := h; exact ⟨hc, fun f t' e => by cases e⟩
      | some k' => rw [hk] at h; simp at h; obtain ⟨rfl, rfl⟩ := h; exact ⟨hc, fun f t' e => by cases e; exact hc⟩
  | strct i fs =>
    cases k? with
    | none => cases h
    | some k =>
      simp only [Core.child] at h
      cases hk : (E.fields i).findIdx? (fun f => f.1 == k) with
      | none => rw [hk] at h; simp at h; obtain ⟨rfl, rfl⟩ := h; exact ⟨hc, fun f t' e => by cases e⟩
      | some j =>
        rw [hk] at h
        simp only at h
        cases hj : (E.fields i)[j]? with
        | none => rw [hj] at h; cases h
        | some f =>
          rw [hj] at h
          simp only [Option.some.injEq, Prod.mk.injEq] at h
          obtain ⟨rfl, rfl⟩ := h
          exact ⟨hc, fun f' t' e => by cases e; exact hE i f (List.mem_of_getElem? hj)⟩

theorem finish_fits (E : Env) {B : Nat} {core core' : Core} (hc : core.Fits B) {r : Res Val} (h : core.finish E = some (r, core')) : core'.Fits B := by
  cases core with
  | vec t done el => simp only [Core.finish, Option.some.injEq, Prod.mk.injEq] at h; obtain ⟨-, rfl⟩ := h; exact hc
  | arr t n slots len el =>
    have key : ∀ x, shiftArr t n slots len el = some x → ∃ slots' len' el', x.2 = .arr t n slots' len' el' := by
      intro x hx
      unfold shiftArr at hx
      split at hx
      · cases hx; exact ⟨_, _, _, rfl⟩
      · split at hx
        · cases hx; exact ⟨_, _, _, rfl⟩
        · cases hx; exact ⟨_, _, _, rfl⟩
        · cases hx
    simp only [Core.finish] at h
    cases hs : shiftArr t n slots len el with
    | none => rw [hs] at h; cases h
    | some x =>
      rw [hs] at h
      obtain ⟨r', c⟩ := x
      obtain ⟨s', l', e', hk⟩ := key _ hs
      simp only at hk
      subst hk
      cases r' with
      | ok u =>
        simp only at h
        split at h
        · cases h; exact hc
        · split at h
          · cases h; exact hc
          · cases h
      | err => simp only at h; cases h; exact hc
      | panic => simp only at h; cases h; exact hc
  | tup a b x y => cases x <;> cases y <;> simp only [Core.finish, Option.some.injEq, Prod.mk.injEq] at h <;> obtain ⟨-, rfl⟩ := h <;> exact hc
  | map kind t m key val => simp only [Core.finish, Option.some.injEq, Prod.mk.injEq] at h; obtain ⟨-, rfl⟩ := h; exact hc
  | strct i fs =>
    simp only [Core.finish] at h
    split at h <;> (simp only [Option.some.injEq, Prod.mk.injEq] at h; obtain ⟨-, rfl⟩ := h; trivial)

theorem stays_setB {B : Nat} {h : Heap} (hf : FreshM h) {a : Nat} {out : Ptr} {core core' : Core} (ha : h.mem a = some (.builder out core))
    (hc : core.Fits B → core'.Fits B) : Stays B h (h.set a (.builder out core')) :=
  stays_set h a _ (live_lt hf ha) (.inl (by rw [ha]; rfl)) fun hff out' core'' e => by cases e; exact hc (hff _ _ _ ha)

theorem childAt_ok (E : Env) {B : Nat} (hE : ∀ i, ∀ f ∈ E.fields i, f.2.maxWraps ≤ B) (k? : Option Bytes) : ∀ (d a : Nat) (h : Heap), FreshM h → FitsM B h.mem →
    ChainLe h.mem d a → childAtL E d a k? h = childAt E a k? h ∧ Stays B h (childAt E a k? h).2 ∧ ∀ v, (childAt E a k? h).1 = .ok v → v.Fits B
  | 0, _, _, _, _, hc => hc.elim
  | d + 1, a, h, hf, hff, hc => by
    unfold childAtL
    rw [childAt.eq_def]
    cases hm : h.mem a with
    | none => exact ⟨rfl, stays_bad h, fun v hv => by cases hv⟩
    | some o =>
      cases o with
      | slot c => exact ⟨rfl, stays_bad h, fun v hv => by cases hv⟩
      | builder out core =>
        simp only
        cases hch : core.child E k? with
        | none => exact ⟨rfl, stays_bad h, fun v hv => by cases hv⟩
        | some x =>
          obtain ⟨r, core'⟩ := x
          have hfit := child_fits E hE (hff _ _ _ hm) hch
          have hst : Stays B h (h.set a (.builder out core')) := stays_setB hf hm fun _ => hfit.1
          cases r with
          | ok o =>
            cases o with
            | none => exact ⟨rfl, hst, fun v hv => by cases hv; trivial⟩
            | some ft => obtain ⟨f, t⟩ := ft; exact ⟨rfl, hst, fun v hv => by cases hv; exact hfit.2 f t rfl⟩
          | err => exact ⟨rfl, hst, fun v hv => by cases hv⟩
          | panic => exact ⟨rfl, hst, fun v hv => by cases hv⟩
      | boxB out value inner =>
        cases inner with
        | ignore => exact ⟨rfl, .refl, fun v hv => by cases hv; trivial⟩
        | «at» a' =>
          simp only
          by_cases hl : a' < a
          · rw [if_pos hl, if_pos hl]
            exact childAt_ok E hE k? d a' h hf hff (hc a' (by rw [hm]; rfl) hl)
          · rw [if_neg hl, if_neg hl]
            exact ⟨rfl, stays_bad h, fun v hv => by cases hv⟩

theorem dropAt_ok {B : Nat} : ∀ (d a : Nat) (h : Heap), ChainLe h.mem d a → dropAtL d a h = dropAt a h ∧ Stays B h (dropAt a h)
  | 0, _, _, hc => hc.elim
  | d + 1, a, h, hc => by
    unfold dropAtL
    rw [dropAt.eq_def]
    cases hm : h.mem a with
    | none => exact ⟨rfl, stays_bad h⟩
    | some o =>
      cases o with
      | slot c => exact ⟨rfl, stays_bad h⟩
      | builder out core => exact ⟨rfl, stays_free h a⟩
      | boxB out value inner =>
        cases inner with
        | ignore => exact ⟨rfl, (stays_free h value).trans (stays_free _ a)⟩
        | «at» a' =>
          simp only
          by_cases hl : a' < a
          · rw [if_pos hl, if_pos hl]
            obtain ⟨h1, h2⟩ := dropAt_ok (B := B) d a' h (hc a' (by rw [hm]; rfl) hl)
            rw [h1]
            exact ⟨rfl, (h2.trans (stays_free _ value)).trans (stays_free _ a)⟩
          · rw [if_neg hl, if_neg hl]
            exact ⟨rfl, stays_bad h⟩

theorem boxFinish_stays {B : Nat} (a : Nat) (out : Ptr) (value : Nat) (h : Heap) (ha : a < h.next) : Stays B h (boxFinish a out value h).2 := by
  have hs : Stays B h (h.set a (.boxB out value .ignore)) := stays_set h a _ ha (.inr rfl) fun _ _ _ e => by cases e
  unfold boxFinish
  split
  · exact stays_bad h
  split
  · exact (hs.trans (stays_write _ _ _)).trans (stays_write _ _ _)
  · exact hs
  · exact hs.trans (stays_bad _)

theorem finishAt_ok (E : Env) {B : Nat} : ∀ (d a : Nat) (h : Heap), FreshM h → FitsM B h.mem → ChainLe h.mem d a →
    finishAtL E d a h = finishAt E a h ∧ Stays B h (finishAt E a h).2
  | 0, _, _, _, _, hc => hc.elim
  | d + 1, a, h, hf, hff, hc => by
    unfold finishAtL
    rw [finishAt.eq_def]
    cases hm : h.mem a with
    | none => exact ⟨rfl, stays_bad h⟩
    | some o =>
      cases o with
      | slot c => exact ⟨rfl, stays_bad h⟩
      | builder out core =>
        simp only
        cases hch : core.finish E with
        | none => exact ⟨rfl, stays_bad h⟩
        | some x =>
          obtain ⟨r, core'⟩ := x
          have hst : Stays B h (h.set a (.builder out core')) := stays_setB hf hm fun hc => finish_fits E hc hch
          cases r with
          | ok v => exact ⟨rfl, hst.trans (stays_write _ _ _)⟩
          | err => exact ⟨rfl, hst⟩
          | panic => exact ⟨rfl, hst⟩
      | boxB out value inner =>
        cases inner with
        | ignore => exact ⟨rfl, boxFinish_stays a out value h (live_lt hf hm)⟩
        | «at» a' =>
          simp only
          by_cases hl : a' < a
          · rw [if_pos hl, if_pos hl]
            have hc' := hc a' (by rw [hm]; rfl) hl
            obtain ⟨h1, h2⟩ := finishAt_ok E d a' h hf hff hc'
            rw [h1]
            generalize finishAt E a' h = x at h2
            obtain ⟨r, h'⟩ := x
            cases r with
            | ok u =>
              simp only
              obtain ⟨h3, h4⟩ := dropAt_ok (B := B) d a' h' (hc'.le h2.fwd)
              rw [h3]
              have h5 := h2.trans h4
              exact ⟨rfl, h5.trans (boxFinish_stays a out value _ (by rw [h5.next]; exact live_lt hf hm))⟩
            | err => exact ⟨rfl, h2⟩
            | panic => exact ⟨rfl, h2⟩
          · rw [if_neg hl, if_neg hl]
            exact ⟨rfl, stays_bad h⟩

/-! ### All methods -/

section
variable (E : Env) {B : Nat} (hE : ∀ i, ∀ f ∈ E.fields i, f.2.maxWraps ≤ B)

theorem childB_ok (hE : ∀ i, ∀ f ∈ E.fields i, f.2.maxWraps ≤ B) (q : BH) (k? : Option Bytes) {h : Heap} (i : Inv B h) :
    onBuilder q (.ok .ignore, h) (fun a => childAtL E (B + 1) a k? h) = childB E q k? h ∧ Inv B (childB E q k? h).2 ∧
    ∀ v, (childB E q k? h).1 = .ok v → v.Fits B := by
  cases q with
  | ignore => exact ⟨rfl, i, fun v hv => by cases hv; trivial⟩
  | «at» a =>
    obtain ⟨h1, h2, h3⟩ := childAt_ok E hE k? (B + 1) a h i.fresh i.fits (i.chain a)
    exact ⟨h1, i.stays h2, h3⟩

theorem finishB_ok (q : BH) {h : Heap} (i : Inv B h) :
    onBuilder q (.ok (), h) (fun a => finishAtL E (B + 1) a h) = finishB E q h ∧ Inv B (finishB E q h).2 := by
  cases q with
  | ignore => exact ⟨rfl, i⟩
  | «at» a =>
    obtain ⟨h1, h2⟩ := finishAt_ok E (B + 1) a h i.fresh i.fits (i.chain a)
    exact ⟨h1, i.stays h2⟩

theorem dropB_ok (q : BH) {h : Heap} (i : Inv B h) : onBuilder q h (fun a => dropAtL (B + 1) a h) = dropB q h ∧ Inv B (dropB q h) := by
  cases q with
  | ignore => exact ⟨rfl, i⟩
  | «at» a =>
    obtain ⟨h1, h2⟩ := dropAt_ok (B := B) (B + 1) a h (i.chain a)
    exact ⟨h1, i.stays h2⟩

theorem leafCall_ok {v : VH} (hv : v.Fits B) (ev : Event) {h : Heap} (i : Inv B h) :
    leafCall (libL E (B + 1)) v ev h = leafCall (lib E) v ev h ∧ Inv B (leafCall (lib E) v ev h).2 := by
  cases ev with
  | seqStart => exact ⟨rfl, i⟩
  | mapStart => exact ⟨rfl, i⟩
  | null => exact ⟨leafAtL_eq E hv _ h, i.stays (leafAt_stays E v _ h)⟩
  | bool x => exact ⟨leafAtL_eq E hv _ h, i.stays (leafAt_stays E v _ h)⟩
  | str x => exact ⟨leafAtL_eq E hv _ h, i.stays (leafAt_stays E v _ h)⟩
  | negative x => exact ⟨leafAtL_eq E hv _ h, i.stays (leafAt_stays E v _ h)⟩
  | nonnegative x => exact ⟨leafAtL_eq E hv _ h, i.stays (leafAt_stays E v _ h)⟩
  | float x => exact ⟨leafAtL_eq E hv _ h, i.stays (leafAt_stays E v _ h)⟩

mutual

theorem drivePT_depth (hE : ∀ i, ∀ f ∈ E.fields i, f.2.maxWraps ≤ B) : ∀ (t : PT) (v : VH) (w : Heap), v.Fits B → Inv B w →
    drivePT (libL E (B + 1)) v t w = drivePT (lib E) v t w ∧ Inv B (drivePT (lib E) v t w).2
  | .leaf ev, v, w, hv, i => by simp only [drivePT]; exact leafCall_ok E hv ev i
  | .bad _, v, w, hv, i => ⟨by simp only [drivePT], by simpa only [drivePT] using i⟩
  | .seq xs e, v, w, hv, i => by
    simp only [drivePT]
    obtain ⟨h1, h2⟩ := openV_ok E hv false i
    have h1' : (libL E (B + 1)).seq v w = openV E v false w := h1
    rw [h1', show (lib E).seq v w = openV E v false w from rfl]
    generalize openV E v false w = x at h2
    obtain ⟨r, w'⟩ := x
    cases r with
    | ok q =>
      simp only
      obtain ⟨h3, h4⟩ := driveElemsPT_depth hE xs e q w' h2
      rw [h3]
      obtain ⟨h5, h6⟩ := dropB_ok q h4
      exact ⟨congrArg _ h5, h6⟩
    | err => exact ⟨rfl, h2⟩
    | panic => exact ⟨rfl, h2⟩
  | .map xs e, v, w, hv, i => by
    simp only [drivePT]
    obtain ⟨h1, h2⟩ := openV_ok E hv true i
    have h1' : (libL E (B + 1)).map v w = openV E v true w := h1
    rw [h1', show (lib E).map v w = openV E v true w from rfl]
    generalize openV E v true w = x at h2
    obtain ⟨r, w'⟩ := x
    cases r with
    | ok q =>
      simp only
      obtain ⟨h3, h4⟩ := driveMembersPT_depth hE xs e q w' h2
      rw [h3]
      obtain ⟨h5, h6⟩ := dropB_ok q h4
      exact ⟨congrArg _ h5, h6⟩
    | err => exact ⟨rfl, h2⟩
    | panic => exact ⟨rfl, h2⟩

theorem driveElemsPT_depth (hE : ∀ i, ∀ f ∈ E.fields i, f.2.maxWraps ≤ B) : ∀ (xs : List PT) (e : End) (q : BH) (w : Heap), Inv B w →
    driveElemsPT (libL E (B + 1)) q xs e w = driveElemsPT (lib E) q xs e w ∧ Inv B (driveElemsPT (lib E) q xs e w).2
  | [], .closed, q, w, i => by simp only [driveElemsPT]; exact finishB_ok E q i
  | [], .stop _, q, w, i => ⟨by simp only [driveElemsPT], by simpa only [driveElemsPT] using i⟩
  | x :: xs, e, q, w, i => by
    simp only [driveElemsPT]
    obtain ⟨h1, h2, h3⟩ := childB_ok E hE q none i
    have h1' : (libL E (B + 1)).element q w = childB E q none w := h1
    rw [h1', show (lib E).element q w = childB E q none w from rfl]
    generalize childB E q none w = x' at h2 h3
    obtain ⟨r, w'⟩ := x'
    cases r with
    | ok v =>
      simp only
      obtain ⟨h4, h5⟩ := drivePT_depth hE x v w' (h3 v rfl) h2
      rw [h4]
      generalize drivePT (lib E) v x w' = y at h5
      obtain ⟨r, w''⟩ := y
      cases r with
      | ok u => exact driveElemsPT_depth hE xs e q w'' h5
      | err => exact ⟨rfl, h5⟩
      | panic => exact ⟨rfl, h5⟩
    | err => exact ⟨rfl, h2⟩
    | panic => exact ⟨rfl, h2⟩

theorem driveMembersPT_depth (hE : ∀ i, ∀ f ∈ E.fields i, f.2.maxWraps ≤ B) : ∀ (xs : List (Bytes × PT)) (e : End) (q : BH) (w : Heap), Inv B w →
    driveMembersPT (libL E (B + 1)) q xs e w = driveMembersPT (lib E) q xs e w ∧ Inv B (driveMembersPT (lib E) q xs e w).2
  | [], .closed, q, w, i => by simp only [driveMembersPT]; exact finishB_ok E q i
  | [], .stop _, q, w, i => ⟨by simp only [driveMembersPT], by simpa only [driveMembersPT] using i⟩
  | (k, x) :: xs, e, q, w, i => by
    simp only [driveMembersPT]
    obtain ⟨h1, h2, h3⟩ := childB_ok E hE q (some k) i
    have h1' : (libL E (B + 1)).key q k w = childB E q (some k) w := h1
    rw [h1', show (lib E).key q k w = childB E q (some k) w from rfl]
    generalize childB E q (some k) w = x' at h2 h3
    obtain ⟨r, w'⟩ := x'
    cases r with
    | ok v =>
      simp only
      obtain ⟨h4, h5⟩ := drivePT_depth hE x v w' (h3 v rfl) h2
      rw [h4]
      generalize drivePT (lib E) v x w' = y at h5
      obtain ⟨r, w''⟩ := y
      cases r with
      | ok u => exact driveMembersPT_depth hE xs e q w'' h5
      | err => exact ⟨rfl, h5⟩
      | panic => exact ⟨rfl, h5⟩
    | err => exact ⟨rfl, h2⟩
    | panic => exact ⟨rfl, h2⟩

end

theorem inv_init : Inv B Heap.init := by
  refine ⟨?_, ?_, ?_⟩
  · intro a ha
    have ha' : 1 ≤ a := ha
    show (if a = 0 then _ else none) = _
    rw [if_neg (by omega)]
  · intro a a' ha' _
    have ha'' : fwd (if a = 0 then some (.slot none) else none) = some a' := ha'
    split at ha'' <;> cases ha''
  · intro a out core ha
    have ha' : (if a = 0 then some (Obj.slot none) else none) = some (.builder out core) := ha
    split at ha' <;> cases ha'

theorem fromStrL_eq (hE : ∀ i, ∀ f ∈ E.fields i, f.2.maxWraps ≤ B) {t : Ty} (ht : t.maxWraps ≤ B) (j : Bytes) :
    fromStrL E (B + 1) t j = fromStr E t j := by
  have key : fromStrImpl (libL E (B + 1)) j (.place t ⟨0, 0, 0⟩) Heap.init = fromStrImpl (lib E) j (.place t ⟨0, 0, 0⟩) Heap.init := by
    obtain ⟨x, o, p⟩ := (parse_total (initDe j).rem).1 (initDe j) (Nat.le_refl _)
    unfold fromStrImpl
    have h1 := fromStrImpl_eq (lib E) p (j.length + 1) (Nat.lt_succ_self _) (.place t ⟨0, 0, 0⟩) Heap.init
    have h2 := fromStrImpl_eq (libL E (B + 1)) p (j.length + 1) (Nat.lt_succ_self _) (.place t ⟨0, 0, 0⟩) Heap.init
    rw [h1, h2]
    have := (drivePT_depth E hE x (.place t ⟨0, 0, 0⟩) Heap.init ht inv_init).1
    rw [this]
  unfold fromStrL fromStr
  rw [key]
  cases fromStrImpl (lib E) j (.place t ⟨0, 0, 0⟩) Heap.init with
  | none => rfl
  | some rh =>
    obtain ⟨r, h⟩ := rh
    simp only [Option.map_some]
    cases r with
    | err => rfl
    | panic => rfl
    | ok u =>
      simp only
      cases h.mem.read ⟨0, 0, 0⟩ with
      | none => rfl
      | some c => cases c <;> rfl

end

/-! ## Serialization -/

/-- The types in a stream. -/
def Stream.Fits (E : Env) (B : Nat) : Stream → Prop
  | .slice t _ => t.maxWraps ≤ B
  | .tuple a b _ _ _ => a.maxWraps ≤ B ∧ b.maxWraps ≤ B
  | .map _ t _ => t.maxWraps ≤ B
  | .object _ => True
  | .strct i _ _ => ∀ f ∈ E.fields i, f.2.maxWraps ≤ B

def SFits (E : Env) (B : Nat) (h : SHeap) : Prop := ∀ q s, h.cells q = some s → s.Fits E B

section
variable {E : Env} {B : Nat} (order : Nat → List (Bytes × Val) → List (Bytes × Val))

theorem SFits.alloc {h : SHeap} (hf : SFits E B h) {s : Stream} (hs : s.Fits E B) : SFits E B (h.alloc s).2 := by
  intro q s' hq
  have hq' : (if q = h.next then some s else h.cells q) = some s' := hq
  split at hq'
  · cases hq'; exact hs
  · exact hf q s' hq'

theorem SFits.set {h : SHeap} (hf : SFits E B h) {s : Stream} (hs : s.Fits E B) (q : Nat) : SFits E B (h.set q s) := by
  intro q' s' hq
  have hq' : (if q' = q then some s else h.cells q') = some s' := hq
  split at hq'
  · cases hq'; exact hs
  · exact hf q' s' hq'

theorem SFits.free {h : SHeap} (hf : SFits E B h) (q : Nat) : SFits E B (h.free q) := by
  unfold SHeap.free
  split
  · intro q' s' hq
    have hq' : (if q' = q then none else h.cells q') = some s' := hq
    split at hq'
    · cases hq'
    · exact hf q' s' hq'
  · exact hf

theorem beginValL_eq : ∀ (d : Nat) (t : Ty) (v : Val) (h : SHeap), t.wraps < d → beginValL E order d t v h = beginVal E order t v h
  | 0, _, _, _, hd => absurd hd (Nat.not_lt_zero _)
  | d + 1, t, v, h, hd => by
    unfold beginValL
    split
    · rename_i e; cases e
    · rename_i e; cases e
      simp only [Ty.wraps] at hd
      rw [beginVal]
      exact beginValL_eq d _ _ _ (by omega)
    · rename_i e; cases e
      simp only [Ty.wraps] at hd
      rw [beginVal]
      exact beginValL_eq d _ _ _ (by omega)
    · rfl

theorem beginVal_fits (hE : ∀ i, ∀ f ∈ E.fields i, f.2.maxWraps ≤ B) : ∀ (t : Ty) (v : Val) (h : SHeap), t.maxWraps ≤ B → SFits E B h →
    SFits E B (beginVal E order t v h).2 := by
  intro t v h
  fun_induction beginVal E order t v h <;> intro ht hf <;> (try simp only [Ty.maxWraps] at ht) <;>
    first
    | exact hf
    | (rename_i ih; exact ih (by omega) hf)
    | (refine hf.alloc ?_; first | trivial | exact hE _ | exact ht | (simp only [Stream.Fits, Ty.maxWraps]; omega))

theorem seqNextLib_fits {q : Nat} {h : SHeap} (hf : SFits E B h) :
    SFits E B (seqNextLib q h).2 ∧ ∀ t v, (seqNextLib q h).1 = some (some (t, v)) → t.maxWraps ≤ B := by
  unfold seqNextLib
  split
  · rename_i hq
    exact ⟨hf.set (by have := hf _ _ hq; exact this) q, fun t v e => by cases e; exact hf _ _ hq⟩
  · rename_i hq
    exact ⟨hf.set (by have := hf _ _ hq; exact this) q, fun t v e => by cases e⟩
  · rename_i hq
    have hs := hf _ _ hq
    simp only
    split
    · exact ⟨hf.set (by exact hs) q, fun t v e => by cases e; exact hs.1⟩
    · split
      · exact ⟨hf.set (by exact hs) q, fun t v e => by cases e; exact hs.2⟩
      · exact ⟨hf.set (by exact hs) q, fun t v e => by cases e⟩
  · exact ⟨hf, fun t v e => by cases e⟩

theorem mapNextLib_fits {q : Nat} {h : SHeap} (hf : SFits E B h) :
    SFits E B (mapNextLib E q h).2 ∧ ∀ k t v, (mapNextLib E q h).1 = some (some (k, (t, v))) → t.maxWraps ≤ B := by
  unfold mapNextLib
  split
  · rename_i hq
    exact ⟨hf.set (by have := hf _ _ hq; exact this) q, fun k t v e => by cases e; exact hf _ _ hq⟩
  · rename_i hq
    exact ⟨hf.set (by have := hf _ _ hq; exact this) q, fun k t v e => by cases e⟩
  · rename_i hq
    exact ⟨hf.set (s := .object _) trivial q, fun k t v e => by cases e; exact Nat.zero_le _⟩
  · rename_i hq
    exact ⟨hf.set (s := .object _) trivial q, fun k t v e => by cases e⟩
  · rename_i hq
    have hs := hf _ _ hq
    simp only
    split
    · rename_i f hfi
      split
      · exact ⟨hf.set (by exact hs) q, fun k t v e => by cases e; exact hs f (List.mem_of_getElem? hfi)⟩
      · exact ⟨hf.set (by exact hs) q, fun k t v e => by cases e⟩
    · exact ⟨hf.set (by exact hs) q, fun k t v e => by cases e⟩
  · exact ⟨hf, fun k t v e => by cases e⟩

/-- The same layer, of the limited implementation. -/
def layerL (d : Nat) : SLayer (serLib E order) → SLayer (serLibL E order d)
  | .seq q => .seq q
  | .map m => .map m

/-- The same fragment. -/
def fragL (f : Frag (serLib E order).Q (serLib E order).M) (d : Nat) : Frag (serLibL E order d).Q (serLibL E order d).M := f

/-- The same state. -/
def exitL (d : Nat) : SExit (serLib E order) → SExit (serLibL E order d)
  | .running st => .running ⟨st.out, st.stack.map (layerL order d), fragL order st.frag d, st.w⟩
  | .finished o w => .finished o w

/-- The heap of a state. -/
def exitW : SExit (serLib E order) → SHeap
  | .running st => st.w
  | .finished _ w => w

theorem dropLayersL (d : Nat) : ∀ (st : List (SLayer (serLib E order))) (w : SHeap), dropLayers (st.map (layerL order d)) w = dropLayers st w
  | [], w => rfl
  | .seq q :: st, w => dropLayersL d st (w.free q)
  | .map q :: st, w => dropLayersL d st (w.free q)

theorem dropLayers_fits : ∀ (st : List (SLayer (serLib E order))) (w : SHeap), SFits E B w → SFits E B (dropLayers st w)
  | [], w, h => h
  | .seq q :: st, w, h => dropLayers_fits st (w.free q) (h.free q)
  | .map q :: st, w, h => dropLayers_fits st (w.free q) (h.free q)

theorem beginWithL (hE : ∀ i, ∀ f ∈ E.fields i, f.2.maxWraps ≤ B) (out : Bytes) (st : List (SLayer (serLib E order))) (t : Ty) (v : Val) (w : SHeap)
    (ht : t.maxWraps ≤ B) (hw : SFits E B w) :
    beginWith (P := serLibL E order (B + 1)) out (st.map (layerL order (B + 1))) (t, v) w = exitL order (B + 1) (beginWith (P := serLib E order) out st (t, v) w) ∧
      SFits E B (exitW order (beginWith (P := serLib E order) out st (t, v) w)) := by
  have hb := beginVal_fits order hE t v w ht hw
  unfold beginWith
  rw [show (serLibL E order (B + 1)).begin (t, v) w = beginVal E order t v w from beginValL_eq order _ t v w (by have := Ty.wraps_le t; omega),
    show (serLib E order).begin (t, v) w = beginVal E order t v w from rfl]
  generalize beginVal E order t v w = x at hb
  obtain ⟨r, w'⟩ := x
  cases r with
  | none => exact ⟨by simp only [exitL, dropLayersL], dropLayers_fits order st w' hb⟩
  | some f => exact ⟨rfl, hb⟩

theorem advanceL (hE : ∀ i, ∀ f ∈ E.fields i, f.2.maxWraps ≤ B) : ∀ (st : List (SLayer (serLib E order))) (out : Bytes) (w : SHeap), SFits E B w →
    advance (P := serLibL E order (B + 1)) out (st.map (layerL order (B + 1))) w = exitL order (B + 1) (advance (P := serLib E order) out st w) ∧
      SFits E B (exitW order (advance (P := serLib E order) out st w))
  | [], out, w, hw => ⟨rfl, hw⟩
  | .seq q :: st, out, w, hw => by
    obtain ⟨h1, h2⟩ := seqNextLib_fits (q := q) hw
    simp only [List.map_cons, layerL, advance]
    rw [show (serLibL E order (B + 1)).seqNext q w = seqNextLib q w from rfl, show (serLib E order).seqNext q w = seqNextLib q w from rfl]
    generalize seqNextLib q w = x at h1 h2
    obtain ⟨r, w'⟩ := x
    cases r with
    | none => exact ⟨by simpa only [exitL, List.map_cons, layerL] using congrArg (SExit.finished (P := serLibL E order (B + 1)) none) (dropLayersL order (B + 1) (.seq q :: st) w'),
        dropLayers_fits order (.seq q :: st) w' h1⟩
    | some o =>
      cases o with
      | none => exact advanceL hE st _ _ (h1.free q)
      | some tv => exact beginWithL order hE _ (.seq q :: st) tv.1 tv.2 w' (h2 _ _ rfl) h1
  | .map q :: st, out, w, hw => by
    obtain ⟨h1, h2⟩ := mapNextLib_fits (q := q) hw
    simp only [List.map_cons, layerL, advance]
    rw [show (serLibL E order (B + 1)).mapNext q w = mapNextLib E q w from rfl, show (serLib E order).mapNext q w = mapNextLib E q w from rfl]
    generalize mapNextLib E q w = x at h1 h2
    obtain ⟨r, w'⟩ := x
    have hd : ∀ w', (SExit.finished none (dropLayers (P := serLibL E order (B + 1)) (.map q :: st.map (layerL order (B + 1))) w') : SExit (serLibL E order (B + 1))) =
        exitL order (B + 1) (.finished none (dropLayers (P := serLib E order) (.map q :: st) w')) := fun w' =>
      congrArg (SExit.finished (P := serLibL E order (B + 1)) none) (dropLayersL order (B + 1) (.map q :: st) w')
    cases r with
    | none => exact ⟨hd w', dropLayers_fits order (.map q :: st) w' h1⟩
    | some o =>
      cases o with
      | none => exact advanceL hE st _ _ (h1.free q)
      | some tv =>
        obtain ⟨k, t, v⟩ := tv
        simp only
        cases escapeStr k (out ++ [b(',')]) with
        | none => exact ⟨hd w', dropLayers_fits order (.map q :: st) w' h1⟩
        | some out' => exact beginWithL order hE _ (.map q :: st) t v w' (h2 _ _ _ rfl) h1

theorem stepSL (hE : ∀ i, ∀ f ∈ E.fields i, f.2.maxWraps ≤ B) (ryu : F64 → Bytes) (st : SSt (serLib E order)) (hw : SFits E B st.w) :
    stepS (P := serLibL E order (B + 1)) ryu ⟨st.out, st.stack.map (layerL order (B + 1)), fragL order st.frag (B + 1), st.w⟩ =
      exitL order (B + 1) (stepS ryu st) ∧ SFits E B (exitW order (stepS ryu st)) := by
  obtain ⟨out, stack, f, w⟩ := st
  have hd : ∀ w', (SExit.finished none (dropLayers (P := serLibL E order (B + 1)) (stack.map (layerL order (B + 1))) w') : SExit (serLibL E order (B + 1))) =
        exitL order (B + 1) (.finished none (dropLayers (P := serLib E order) stack w')) := fun w' =>
      congrArg (SExit.finished (P := serLibL E order (B + 1)) none) (dropLayersL order (B + 1) stack w')
  unfold stepS fragL
  cases f with
  | null => exact advanceL order hE stack _ w hw
  | bool b => exact advanceL order hE stack _ w hw
  | u64 b => exact advanceL order hE stack _ w hw
  | i64 b => exact advanceL order hE stack _ w hw
  | f64 b => exact advanceL order hE stack _ w hw
  | str s =>
    simp only
    cases escapeStr s out with
    | none => exact ⟨hd w, dropLayers_fits order stack w hw⟩
    | some out' => exact advanceL order hE stack _ w hw
  | seq q =>
    have hw' : SFits E B w := hw
    obtain ⟨h1, h2⟩ := seqNextLib_fits (q := q) hw'
    simp only
    rw [show (serLibL E order (B + 1)).seqNext q w = seqNextLib q w from rfl, show (serLib E order).seqNext q w = seqNextLib q w from rfl]
    generalize seqNextLib q w = x at h1 h2
    obtain ⟨r, w'⟩ := x
    cases r with
    | none => exact ⟨hd (w'.free q), dropLayers_fits order stack _ (h1.free q)⟩
    | some o =>
      cases o with
      | none => exact advanceL order hE stack _ _ (h1.free q)
      | some tv => exact beginWithL order hE _ (.seq q :: stack) tv.1 tv.2 w' (h2 _ _ rfl) h1
  | map q =>
    have hw' : SFits E B w := hw
    obtain ⟨h1, h2⟩ := mapNextLib_fits (q := q) hw'
    simp only
    rw [show (serLibL E order (B + 1)).mapNext q w = mapNextLib E q w from rfl, show (serLib E order).mapNext q w = mapNextLib E q w from rfl]
    generalize mapNextLib E q w = x at h1 h2
    obtain ⟨r, w'⟩ := x
    cases r with
    | none => exact ⟨hd (w'.free q), dropLayers_fits order stack _ (h1.free q)⟩
    | some o =>
      cases o with
      | none => exact advanceL order hE stack _ _ (h1.free q)
      | some tv =>
        obtain ⟨k, t, v⟩ := tv
        simp only
        cases escapeStr k (out ++ [b('{')]) with
        | none => exact ⟨hd (w'.free q), dropLayers_fits order stack _ (h1.free q)⟩
        | some out' => exact beginWithL order hE _ (.map q :: stack) t v w' (h2 _ _ _ rfl) h1

theorem runSL (hE : ∀ i, ∀ f ∈ E.fields i, f.2.maxWraps ≤ B) (ryu : F64 → Bytes) : ∀ (n : Nat) (x : SExit (serLib E order)), SFits E B (exitW order x) →
    runS ryu n (exitL order (B + 1) x) = exitL order (B + 1) (runS ryu n x)
  | 0, _, _ => rfl
  | n + 1, .finished o w, _ => rfl
  | n + 1, .running st, hw => by
    obtain ⟨h1, h2⟩ := stepSL order hE ryu st hw
    show runS ryu n (stepS ryu _) = exitL order (B + 1) (runS ryu n (stepS ryu st))
    rw [h1]
    exact runSL hE ryu n _ h2

theorem toStringNL (hE : ∀ i, ∀ f ∈ E.fields i, f.2.maxWraps ≤ B) (ryu : F64 → Bytes) (n : Nat) {t : Ty} (ht : t.maxWraps ≤ B) (v : Val) :
    toStringN (serLibL E order (B + 1)) ryu n (t, v) SHeap.empty = exitL order (B + 1) (toStringN (serLib E order) ryu n (t, v) SHeap.empty) := by
  unfold toStringN
  obtain ⟨h1, h2⟩ := beginWithL order hE [] [] t v SHeap.empty ht (fun q s hq => by cases hq)
  rw [show beginWith [] [] (t, v) SHeap.empty = exitL order (B + 1) (beginWith (P := serLib E order) [] [] (t, v) SHeap.empty) from h1]
  exact runSL order hE ryu n _ h2

theorem toStringNL_finished (hE : ∀ i, ∀ f ∈ E.fields i, f.2.maxWraps ≤ B) (ryu : F64 → Bytes) (n : Nat) {t : Ty} (ht : t.maxWraps ≤ B) (v : Val)
    (o : Option Bytes) (h : SHeap) : toStringN (serLibL E order (B + 1)) ryu n (t, v) SHeap.empty = .finished o h ↔
      toStringN (serLib E order) ryu n (t, v) SHeap.empty = .finished o h := by
  rw [toStringNL order hE ryu n ht v]
  cases toStringN (serLib E order) ryu n (t, v) SHeap.empty with
  | running st => exact ⟨fun e => (by cases e), fun e => (by cases e)⟩
  | finished o' h' => exact ⟨fun e => by cases e; rfl, fun e => by cases e; rfl⟩

end

end Miniserde
