import Verif.Proof.DriverBorrows

/-!
# The driver of `from_str` follows Stacked Borrows: the invariant
-/

namespace Miniserde.SB

open BoxAlias (locate_ptr guarded_new write_top)

/-! ## What the driver does before and after a call -/

/-- The topmost entry is `t`, a reference; `s`: the end of the view. -/
structure Top (Q : Nat → Prop) (r0 : Run) (B s : List Item) (cs : List Nat) (r : Run) (t : Nat) : Prop where
  rel : Rel B r
  steps : Steps r0 r
  mine : r.mine = r0.mine
  calls : r.view.calls = cs
  items : ∃ p up, r.view.items = ⟨t, .unique, p⟩ :: (up ++ s) ∧ Q t ∧ ∀ j ∈ up, Q j.tag

theorem Rel.tag_eq {B : List Item} {r : Run} (h : Rel B r) : r.real.tag = r.view.tag := by
  have := h.real
  rw [this]; rfl

theorem Top.first {Q : Nat → Prop} {r0 r : Run} {B s : List Item} {cs : List Nat} {t : Nat} {a b : List Item} {g : Item} {prot : Bool} (hQ : ∀ n, r0.view.tag ≤ n → Q n)
    (hr : Rel B r) (hs : Steps r0 r) (hm : r.mine = r0.mine) (hc : r.view.calls = cs) (hl : locate true t r.view.items = some (a, g, b))
    (hpc : prot = true → cs ≠ []) (hg : (popped g a).any (·.guarded cs) = false) (hup : ∃ up, keep g a ++ g :: b = up ++ s ∧ ∀ j ∈ up, Q j.tag) : Top Q r0 B s cs (r.reb t prot).1 (r.reb t prot).2 := by
  have e : r.view.write t = { r.view with items := keep g a ++ g :: b } := by
    simp only [Loc.write, hr.vlive, hl, hc, hg]
    rfl
  have ha : (r.view.act (.reborrow .unique t prot)).ub = false := by
    simp only [Loc.act, e, Loc.push]
    exact hr.ub
  obtain ⟨h1, h2, h3⟩ := hr.lib ha (fun p t e => by cases e; rw [hc]; exact hpc rfl)
  obtain ⟨up, eup, hup⟩ := hup
  refine ⟨h1, hs.trans h2, h3.trans hm, ?_, (if prot = true then r.view.calls.head? else none), up, ?_, ?_, hup⟩
  · show (r.view.act _).calls = cs
    simp only [Loc.act, e, Loc.push, hc]
  · show (r.view.act _).items = _
    simp only [Loc.act, e, Loc.push, eup]
    simp [Run.reb, hr.tag_eq]
  · simp only [Run.reb, hr.tag_eq]
    exact hQ _ hs.tag

theorem Top.write_eq {Q : Nat → Prop} {r0 r : Run} {B s : List Item} {cs : List Nat} {t : Nat} (h : Top Q r0 B s cs r t) : r.view.write t = r.view := by
  obtain ⟨p, up, e, -, -⟩ := h.items
  have hv := h.rel.vlive
  have hu := h.rel.ub
  obtain ⟨real, ⟨items, calls, tag, call, live, ub⟩, un, mi⟩ := r
  simp only at *
  subst e hv hu
  exact write_top ..

theorem Top.reb {Q : Nat → Prop} {r0 r : Run} {B s : List Item} {cs : List Nat} {t : Nat} (hQ : ∀ n, r0.view.tag ≤ n → Q n) (h : Top Q r0 B s cs r t) (prot : Bool)
    (hc : prot = true → cs ≠ []) : Top Q r0 B s cs (r.reb t prot).1 (r.reb t prot).2 := by
  have ha : (r.view.act (.reborrow .unique t prot)).ub = false := by
    simp only [Loc.act, h.write_eq, Loc.push]
    exact h.rel.ub
  obtain ⟨h1, h2, h3⟩ := h.rel.lib ha (fun p t e => by rw [h.calls]; cases e; exact hc rfl)
  obtain ⟨p, up, e, ht, hup⟩ := h.items
  refine ⟨h1, h.steps.trans h2, h3.trans h.mine, ?_, (if prot = true then cs.head? else none), ⟨t, .unique, p⟩ :: up, ?_, ?_, ?_⟩
  · show (r.view.act _).calls = cs
    simp only [Loc.act, h.write_eq, Loc.push, h.calls]
  · show (r.view.act _).items = _
    simp only [Loc.act, h.write_eq, Loc.push, e, h.calls]
    simp [Run.reb, h.rel.tag_eq]
  · simp only [Run.reb, h.rel.tag_eq]
    exact hQ _ h.steps.tag
  · intro j hj
    rcases List.mem_cons.1 hj with rfl | hj
    · exact ht
    · exact hup j hj

theorem Top.reb_items {Q : Nat → Prop} {r0 r : Run} {B s : List Item} {cs : List Nat} {t : Nat} (h : Top Q r0 B s cs r t) (prot : Bool) :
    ∃ i, (r.reb t prot).1.view.items = i :: r.view.items := by
  refine ⟨⟨r.view.tag, .unique, if prot = true then r.view.calls.head? else none⟩, ?_⟩
  show (r.view.act _).items = _
  simp only [Loc.act, h.write_eq, Loc.push]

theorem Top.enter {Q : Nat → Prop} {r0 r : Run} {B s : List Item} {cs : List Nat} {t : Nat} (h : Top Q r0 B s cs r t) :
    Top Q r0 B s (r.view.call :: cs) (r.lib .enter) t := by
  obtain ⟨h1, h2, h3⟩ := h.rel.lib (a := .enter) h.rel.ub (fun p t e => by cases e)
  exact ⟨h1, h.steps.trans h2, h3.trans h.mine, by simp [Run.lib, Loc.act, h.calls], h.items⟩

theorem Top.leave {Q : Nat → Prop} {r0 r : Run} {B s : List Item} {c : Nat} {cs : List Nat} {t : Nat} (h : Top Q r0 B s (c :: cs) r t) :
    Top Q r0 B s cs (r.lib .leave) t := by
  have e : r.view.act .leave = { r.view with calls := cs } := by simp only [Loc.act, h.calls]
  obtain ⟨h1, h2, h3⟩ := h.rel.lib (a := .leave) (by rw [e]; exact h.rel.ub) (fun p t e => by cases e)
  exact ⟨h1, h.steps.trans h2, h3.trans h.mine, by simp only [Run.lib, e], by simp only [Run.lib, e]; exact h.items⟩

/-- The driver's pointer. -/
abbrev hItem (p : Perm) (h : Nat) : Item := ⟨h, p, none⟩

theorem locate_item {p : Perm} (hp : p = .unique ∨ p = .sharedRW) {h : Nat} {bot : List Item} : ∀ {up : List Item}, (∀ i ∈ up, i.tag ≠ h) →
    locate true h (up ++ hItem p h :: bot) = some (up, hItem p h, bot)
  | [], _ => by rcases hp with rfl | rfl <;> simp [locate, Item.grants]
  | i :: up, hu => by
    have hi : i.grants true h = false := by
      have := hu i (List.mem_cons_self ..)
      simp only [Item.grants, Bool.and_eq_false_iff]
      exact .inl (by simp; omega)
    simp only [List.cons_append, locate, hi, Bool.false_eq_true, if_false, locate_item hp fun j hj => hu j (List.mem_cons_of_mem _ hj)]
    rfl

/-- The driver's pointer `h` is in the view, everything above is younger. -/
structure Ready (p : Perm) (B up bot : List Item) (h : Nat) (r : Run) : Prop where
  rel : Rel B r
  items : r.view.items = up ++ hItem p h :: bot
  young : ∀ i ∈ up, i.tag ≠ h
  tag : h < r.view.tag
  calls : r.view.calls = []

/-- The driver has a reference to the visitor or builder. -/
structure Lent (p : Perm) (B : List Item) (h : Nat) (bot : List Item) (r0 r : Run) : Prop where
  rel : Rel B r
  steps : Steps r0 r
  mine : r.mine = r0.mine
  calls : r.view.calls ≠ []
  items : ∃ i up, r.view.items = i :: (up ++ hItem p h :: bot) ∧ i.tag ≠ h ∧ ∀ j ∈ up, j.tag ≠ h

theorem Ready.first {p : Perm} (hp : p = .unique ∨ p = .sharedRW) {B up bot : List Item} {h : Nat} {r0 r : Run} (prot : Bool) (hr : Ready p B up bot h r0) (h1 : Rel B r) (h2 : Steps r0 r) (h3 : r.mine = r0.mine) (h4 : r.view.items = r0.view.items)
    (h5 : ∀ c ∈ r.view.calls, r0.view.call ≤ c) (hpc : prot = true → r.view.calls ≠ []) : Top (· ≠ h) r0 B (hItem p h :: bot) r.view.calls (r.reb h prot).1 (r.reb h prot).2 := by
  refine Top.first (a := up) (b := bot) (g := hItem p h) (fun n hn => Nat.ne_of_gt (Nat.lt_of_lt_of_le hr.tag hn)) h1 h2 h3 rfl (by rw [h4, hr.items]; exact locate_item hp hr.young) hpc ?_ ?_
  · exact guarded_new (l := r0.view) (k := r0.view.call) (fun i hi c e => (hr.rel.prots i hi c e).2) h5 _ (fun i hi => by
      rw [hr.items]; exact List.mem_append_left _ (popped_sub _ _ i hi))
  · exact ⟨keep (hItem p h) up, rfl, fun j hj => hr.young j (keep_sub _ _ j hj)⟩

theorem Top.lent {p : Perm} {B bot : List Item} {h : Nat} {r0 r : Run} {cs : List Nat} {t : Nat} (ht : Top (· ≠ h) r0 B (hItem p h :: bot) cs r t) (hc : cs ≠ []) : Lent p B h bot r0 r := by
  obtain ⟨_, up, e, h1, h2⟩ := ht.items
  exact ⟨ht.rel, ht.steps, ht.mine, by rw [ht.calls]; exact hc, _, up, e, h1, h2⟩

theorem Ready.preVisitor {p : Perm} (hp : p = .unique ∨ p = .sharedRW) {B up bot : List Item} {h : Nat} {r : Run} (hr : Ready p B up bot h r) : Lent p B h bot r (St.preVisitor h r) := by
  have hQ : ∀ n, r.view.tag ≤ n → n ≠ h := fun n hn => Nat.ne_of_gt (Nat.lt_of_lt_of_le hr.tag hn)
  have h1 := Ready.first hp false hr hr.rel (.refl r) rfl rfl (by rw [hr.calls]; simp) (by simp)
  exact (Top.reb hQ h1.enter true (by simp)).lent (by simp)

theorem Ready.enter {p : Perm} {B up bot : List Item} {h : Nat} {r : Run} (hr : Ready p B up bot h r) :
    Rel B (r.lib .enter) ∧ Steps r (r.lib .enter) ∧ (r.lib .enter).mine = r.mine := hr.rel.lib (a := .enter) hr.rel.ub (fun p t e => by cases e)

theorem Ready.preBuilder {p : Perm} (hp : p = .unique ∨ p = .sharedRW) {B up bot : List Item} {h : Nat} {r : Run} (hr : Ready p B up bot h r) : Lent p B h bot r (St.preBuilder h r) := by
  have hQ : ∀ n, r.view.tag ≤ n → n ≠ h := fun n hn => Nat.ne_of_gt (Nat.lt_of_lt_of_le hr.tag hn)
  obtain ⟨e1, e2, e3⟩ := hr.enter
  obtain ⟨f1, f2, f3⟩ := e1.lib (a := .enter) e1.ub (fun p t e => by cases e)
  have h1 := Ready.first hp false hr f1 (e2.trans f2) (f3.trans e3) rfl (by
    intro c hc
    simp only [Run.lib, Loc.act, hr.calls, List.mem_cons, List.not_mem_nil, or_false] at hc
    omega) (by simp)
  have ec : ((r.lib .enter).lib .enter).view.calls = [r.view.call + 1, r.view.call] := by simp only [Run.lib, Loc.act, hr.calls]
  rw [ec] at h1
  have h2 := (Top.reb hQ h1.leave false (by simp)).leave
  have h3 := (Top.reb hQ h2 false (by simp)).enter
  exact (Top.reb hQ h3 true (by simp)).lent (by simp)

theorem Ready.preDrop {p : Perm} (hp : p = .unique ∨ p = .sharedRW) {B up bot : List Item} {h : Nat} {r : Run} (hr : Ready p B up bot h r) : Lent p B h bot r (St.preDrop h r).1 ∧
    ∃ i q s, (St.preDrop h r).1.view.items = i :: ⟨(St.preDrop h r).2, .unique, q⟩ :: s := by
  have hQ : ∀ n, r.view.tag ≤ n → n ≠ h := fun n hn => Nat.ne_of_gt (Nat.lt_of_lt_of_le hr.tag hn)
  obtain ⟨e1, e2, e3⟩ := hr.enter
  have h1 := Ready.first hp false hr e1 e2 e3 rfl (by
    intro c hc
    simp only [Run.lib, Loc.act, hr.calls, List.mem_cons, List.not_mem_nil, or_false] at hc
    omega) (by simp)
  have ec : (r.lib .enter).view.calls = [r.view.call] := by simp only [Run.lib, Loc.act, hr.calls]
  rw [ec] at h1
  have h2 := Top.reb hQ h1.leave false (by simp)
  have h3 := Top.reb hQ h2.enter true (by simp)
  refine ⟨h3.lent (by simp), ?_⟩
  obtain ⟨q, up', e, -, -⟩ := h2.enter.items
  obtain ⟨i, ei⟩ := h2.enter.reb_items true
  rw [e] at ei
  exact ⟨i, q, _, ei⟩

/-- A reference or box has become the driver's pointer `h`. -/
structure Pointed (p : Perm) (B : List Item) (r0 : Run) (cs : List Nat) (r : Run) (h : Nat) : Prop where
  rel : Rel B r
  steps : Steps r0 r
  mine : r.mine = r0.mine
  calls : r.view.calls = cs
  tag : h < r.view.tag
  items : ∃ bot, r.view.items = hItem p h :: bot

theorem Top.raw {Q : Nat → Prop} {r0 r : Run} {B s : List Item} {cs : List Nat} {t : Nat} (h : Top Q r0 B s cs r t) :
    r.view.act (.reborrow .sharedRW t false) = { r.view with items := hItem .sharedRW r.view.tag :: r.view.items, tag := r.view.tag + 1 } := by
  obtain ⟨p, up, e, -, -⟩ := h.items
  have hv := h.rel.vlive
  obtain ⟨real, ⟨items, calls, tag, call, live, ub⟩, un, mi⟩ := r
  simp only at *
  subst e hv
  simp [Loc.act, Loc.raw, locate, Item.grants, popped, keep]

theorem Top.pointed {Q : Nat → Prop} {r0 r : Run} {B s : List Item} {cs : List Nat} {t : Nat} (h : Top Q r0 B s cs r t) :
    Pointed .sharedRW B r0 cs (r.lib (.reborrow .sharedRW t false)) r.real.tag := by
  have e := h.raw
  obtain ⟨k1, k2, k3⟩ := h.rel.lib (a := .reborrow .sharedRW t false) (by rw [e]; exact h.rel.ub) (fun p t e => by cases e)
  refine ⟨k1, h.steps.trans k2, k3.trans h.mine, ?_, ?_, r.view.items, ?_⟩
  · simp only [Run.lib, e, h.calls]
  · simp only [Run.lib, e, h.rel.tag_eq]
    exact Nat.lt_succ_self _
  · simp only [Run.lib, e, h.rel.tag_eq]

theorem Pointed.leave {p : Perm} {r0 r : Run} {B : List Item} {c : Nat} {cs : List Nat} {h : Nat} (hp : Pointed p B r0 (c :: cs) r h) : Pointed p B r0 cs (r.lib .leave) h := by
  have e : r.view.act .leave = { r.view with calls := cs } := by simp only [Loc.act, hp.calls]
  obtain ⟨h1, h2, h3⟩ := hp.rel.lib (a := .leave) (by rw [e]; exact hp.rel.ub) (fun p t e => by cases e)
  refine ⟨h1, hp.steps.trans h2, h3.trans hp.mine, ?_, ?_, ?_⟩ <;> simp only [Run.lib, e]
  · exact hp.tag
  · exact hp.items

theorem conv_first {B : List Item} {r : Run} (hr : Rel B r) (hc : r.view.calls = []) {t : Nat} (ht : (locate true t r.view.items).isSome = true) :
    Top (fun _ => True) r B [] [] (r.reb t false).1 (r.reb t false).2 := by
  obtain ⟨⟨a, g, b⟩, hl⟩ := Option.isSome_iff_exists.1 ht
  have ng : (popped g a).any (·.guarded []) = false := by
    rw [List.any_eq_false]
    intro i _
    simp only [Item.guarded]
    split <;> simp
  exact Top.first (fun _ _ => trivial) hr (.refl r) rfl hc hl (by simp) ng ⟨_, (List.append_nil _).symm, fun _ _ => trivial⟩

theorem passStep_ind {reb : Nat → Bool → Run → Run × Nat} {P : Run → Nat → Nat → Prop} (h1 : ∀ r t d, P r t d → P (reb t true (r.lib .enter)).1 (reb t true (r.lib .enter)).2 (d + 1))
    (h2 : ∀ r t, P r t 0 → P (reb t false r).1 (reb t false r).2 0) (h3 : ∀ r t d, P r t (d + 1) → P (reb t false (r.lib .leave)).1 (reb t false (r.lib .leave)).2 d) :
    ∀ (way : List Bool) (x : Run × Nat × Nat), P x.1 x.2.1 x.2.2 → P (way.foldl (Run.passStep reb) x).1 (way.foldl (Run.passStep reb) x).2.1 (way.foldl (Run.passStep reb) x).2.2
  | [], _, h => h
  | true :: way, (r, t, d), h => passStep_ind h1 h2 h3 way _ (h1 r t d h)
  | false :: way, (r, t, 0), h => passStep_ind h1 h2 h3 way _ (h2 r t h)
  | false :: way, (r, t, d + 1), h => passStep_ind h1 h2 h3 way _ (h3 r t d h)

theorem passStep_end {reb : Nat → Bool → Run → Run × Nat} : ∀ (d : Nat) (r : Run) (t : Nat), ((List.replicate d false).foldl (Run.passStep reb) (r, t, d)).2.2 = 0
  | 0, _, _ => rfl
  | d + 1, r, t => passStep_end d (reb t false (r.lib .leave)).1 (reb t false (r.lib .leave)).2

/-- Induction over the way of a pointer. -/
theorem pass_ind {reb : Nat → Bool → Run → Run × Nat} {P : Run → Nat → Nat → Prop} (h1 : ∀ r t d, P r t d → P (reb t true (r.lib .enter)).1 (reb t true (r.lib .enter)).2 (d + 1))
    (h2 : ∀ r t, P r t 0 → P (reb t false r).1 (reb t false r).2 0) (h3 : ∀ r t d, P r t (d + 1) → P (reb t false (r.lib .leave)).1 (reb t false (r.lib .leave)).2 d)
    (way : List Bool) {t : Nat} {r : Run} (h : P r t 0) : P (r.pass reb way t).1 (r.pass reb way t).2 0 := by
  simp only [Run.pass]
  have k1 := passStep_ind h1 h2 h3 way (r, t, 0) h
  generalize way.foldl (Run.passStep reb) (r, t, 0) = x at *
  have k2 := passStep_ind h1 h2 h3 (List.replicate x.2.2 false) x k1
  rw [show ((List.replicate x.2.2 false).foldl (Run.passStep reb) x).2.2 = 0 from passStep_end x.2.2 x.1 x.2.1] at k2
  exact k2

theorem Top.pass {Q : Nat → Prop} {r0 r : Run} {B s : List Item} {t : Nat} (hQ : ∀ n, r0.view.tag ≤ n → Q n) (h : Top Q r0 B s [] r t) (way : List Bool) :
    Top Q r0 B s [] (r.pass Run.reb way t).1 (r.pass Run.reb way t).2 := by
  obtain ⟨cs, e, k⟩ := pass_ind (reb := Run.reb) (P := fun r t d => ∃ cs : List Nat, cs.length = d ∧ Top Q r0 B s cs r t)
    (fun r t d ⟨cs, e, h⟩ => ⟨_, congrArg (· + 1) e, Top.reb hQ h.enter true (by simp)⟩)
    (fun r t ⟨cs, e, h⟩ => ⟨cs, e, Top.reb hQ h false (by simp)⟩)
    (fun r t d ⟨cs, e, h⟩ => by
      cases cs with
      | nil => cases e
      | cons c cs => exact ⟨cs, Nat.succ.inj e, Top.reb hQ h.leave false (by simp)⟩) way ⟨[], rfl, h⟩
  obtain rfl := List.eq_nil_of_length_eq_zero e
  exact k

theorem convVisitor_pointed (way : List Bool) {B : List Item} {r : Run} (hr : Rel B r) (hc : r.view.calls = []) {t : Nat} (ht : (locate true t r.view.items).isSome = true) :
    Pointed .sharedRW B r [] (St.convVisitor way t r).1 (St.convVisitor way t r).2 := by
  have h1 := (conv_first hr hc ht).pass (fun _ _ => trivial) way
  have h2 := Top.reb (fun _ _ => trivial) h1.enter true (by simp)
  exact h2.pointed.leave

theorem convBuilder_pointed (way : List Bool) {B : List Item} {r : Run} (hr : Rel B r) (hc : r.view.calls = []) {t : Nat} (ht : (locate true t r.view.items).isSome = true) :
    Pointed .sharedRW B r [] (St.convBuilder way t r).1 (St.convBuilder way t r).2 := by
  have h1 := (conv_first hr hc ht).pass (fun _ _ => trivial) way
  have h2 := Top.reb (fun _ _ => trivial) h1.enter true (by simp)
  have h3 := Top.reb (fun _ _ => trivial) h2.enter true (by simp)
  exact h3.pointed.leave.leave

/-! ## The invariant -/

variable {K : Live → Perm} {strict : Bool}

/-- The number of a live thing. -/
def lid : Live → Nat
  | .visitor i | .builder i => i

/-- The entries of the views, then those in no view. -/
def rest (s : St) (base : List Item) (S : List Live) : List Item := S.flatMap (fun x => s.views (lid x)) ++ base

theorem rest_cons (s : St) (base : List Item) (x : Live) (S : List Live) : rest s base (x :: S) = s.views (lid x) ++ rest s base S := by simp [rest]

theorem rest_congr {s s' : St} {base : List Item} {S : List Live} (h : ∀ y ∈ S, s'.views (lid y) = s.views (lid y)) : rest s' base S = rest s base S := by
  unfold rest
  congr 1
  induction S with
  | nil => rfl
  | cons x S ih =>
    rw [List.flatMap_cons, List.flatMap_cons, h x (List.mem_cons_self ..), ih fun y hy => h y (List.mem_cons_of_mem _ hy)]

/-- The driver's pointers and the owner. -/
def Good (K : Live → Perm) (strict : Bool) (s : St) (base : List Item) : List Item → List Live → Prop
  | _, [] => True
  | above, x :: R =>
    (∀ h, s.handle (lid x) = some h → h < s.loc.tag ∧ ∃ up bot, s.views (lid x) = up ++ hItem (K x) h :: bot ∧ ∀ i ∈ above ++ up, i.tag ≠ h) ∧
    (s.owner = some (lid x) → rest s base R = []) ∧
    (∀ i h, x = .builder i → s.handle i = some h → s.owner = some i ∧ (strict = true → above = [])) ∧
    Good K strict s base (above ++ s.views (lid x)) R

theorem Good.frame {s s' : St} {base : List Item} (htag : s.loc.tag ≤ s'.loc.tag) : ∀ {R : List Live} {above above' : List Item}, Good K strict s base above R →
    (∀ y ∈ R, s'.views (lid y) = s.views (lid y)) → (∀ y ∈ R, s'.handle (lid y) = s.handle (lid y)) →
    (∀ y ∈ R, s'.owner = some (lid y) → s.owner = some (lid y)) → (∀ y ∈ R, ∀ h, s.handle (lid y) = some h → s.owner = some (lid y) → s'.owner = some (lid y)) →
    (∀ h, h < s.loc.tag → (∀ i ∈ above, i.tag ≠ h) → ∀ i ∈ above', i.tag ≠ h) →
    (strict = true → ∀ y ∈ R, ∀ h, s.handle (lid y) = some h → above = [] → above' = []) → Good K strict s' base above' R
  | [], _, _, _, _, _, _, _, _, _ => trivial
  | x :: R, above, above', ⟨g1, g2, g3, g4⟩, hv, hh, ho, hb, ha, hs => by
    have tl : ∀ {P : Live → Prop}, (∀ y ∈ x :: R, P y) → ∀ y ∈ R, P y := fun h y hy => h y (List.mem_cons_of_mem _ hy)
    have hx : x ∈ x :: R := List.mem_cons_self ..
    refine ⟨fun h e => ?_, fun e => ?_, fun i h ex e => ?_, ?_⟩
    · rw [hh x hx] at e
      obtain ⟨k1, up, bot, k2, k3⟩ := g1 h e
      refine ⟨Nat.lt_of_lt_of_le k1 htag, up, bot, by rw [hv x hx]; exact k2, fun i hi => ?_⟩
      rcases List.mem_append.1 hi with hi | hi
      · exact ha h k1 (fun j hj => k3 j (List.mem_append_left _ hj)) i hi
      · exact k3 i (List.mem_append_right _ hi)
    · rw [rest_congr (tl hv)]
      exact g2 (ho x hx e)
    · subst ex
      have e' : s.handle i = some h := (hh _ hx).symm.trans e
      exact ⟨hb _ hx h e' (g3 i h rfl e').1, fun st => hs st _ hx h e' ((g3 i h rfl e').2 st)⟩
    · rw [hv x hx]
      refine Good.frame htag g4 (tl hv) (tl hh) (tl ho) (tl hb) ?_ ?_
      · intro h hlt hi i hm
        rcases List.mem_append.1 hm with hm | hm
        · exact ha h hlt (fun j hj => hi j (List.mem_append_left _ hj)) i hm
        · exact hi i (List.mem_append_right _ hm)
      · intro st y hy h e he
        obtain ⟨h1, h2⟩ := List.append_eq_nil_iff.1 he
        rw [hs st y (List.mem_cons_of_mem _ hy) h e h1, h2]
        rfl

/-- What holds between the operations. -/
structure Core (K : Live → Perm) (strict : Bool) (S : List Live) (next : Nat) (base : List Item) (s : St) : Prop where
  items : s.loc.items = rest s base S
  calls : s.loc.calls = [0]
  ub : s.loc.ub = false
  live : s.loc.items ≠ [] → s.loc.live = true
  prots : ∀ x ∈ S, ∀ i ∈ s.views (lid x), ∀ c, i.prot = some c → 1 ≤ c ∧ c < s.loc.call
  call : 1 ≤ s.loc.call
  good : Good K strict s base [] S
  owner : ∀ o, s.owner = some o → ∃ x ∈ S, lid x = o
  unused : s.unused = true → s.loc.items = [] ∧ s.owner = none
  nodup : (S.map lid).Nodup
  next : ∀ x ∈ S, lid x < next

theorem Core.ne {x : Live} {R : List Live} {next : Nat} {base : List Item} {s : St} (h : Core K strict (x :: R) next base s) : ∀ y ∈ R, lid y ≠ lid x := by
  intro y hy e
  have := h.nodup
  rw [List.map_cons, List.nodup_cons] at this
  exact this.1 (List.mem_map.2 ⟨y, hy, e⟩)

theorem Core.enter {x : Live} {R : List Live} {next : Nat} {base : List Item} {s : St} (h : Core K strict (x :: R) next base s) : Rel (rest s base R) (s.enter (lid x)) := by
  have hi := h.items
  rw [rest_cons] at hi
  have hx : x ∈ x :: R := List.mem_cons_self ..
  obtain ⟨g1, g2, g3, g4⟩ := h.good
  refine ⟨?_, rfl, rfl, fun hne => h.live ?_, h.prots x hx, fun c hc => (List.not_mem_nil hc).elim, h.call, fun hu => ?_, fun hm => g2 (by simpa [St.enter] using hm)⟩
  · have h1 := h.calls
    have h2 := h.ub
    simp only [St.enter, Loc.overC]
    rw [← hi, List.nil_append, ← h1, ← h2]
  · rw [hi]
    intro e
    exact hne (List.append_eq_nil_iff.1 e).1
  · obtain ⟨k1, k2⟩ := h.unused hu
    rw [hi] at k1
    obtain ⟨k3, k4⟩ := List.append_eq_nil_iff.1 k1
    exact ⟨k3, k4, by simp [St.enter, k2]⟩

theorem upd_self {α : Type} (f : Nat → α) (n : Nat) (a : α) : upd f n a n = a := by simp [upd]
theorem upd_ne {α : Type} (f : Nat → α) {n m : Nat} (a : α) (h : m ≠ n) : upd f n a m = f m := by simp [upd, h]
theorem upd_same {α : Type} (f : Nat → α) (n : Nat) : upd f n (f n) = f := by
  funext m
  unfold upd
  split
  · rename_i e; rw [e]
  · rfl

theorem Good.nonempty {s : St} {base : List Item} : ∀ {R : List Live} {above : List Item}, Good K strict s base above R → ∀ y ∈ R, ∀ h, s.handle (lid y) = some h → s.views (lid y) ≠ []
  | [], _, _, y, hy => (List.not_mem_nil hy).elim
  | x :: R, above, ⟨g1, _, _, g4⟩, y, hy => by
    rcases List.mem_cons.1 hy with rfl | hy
    · intro k hk
      obtain ⟨-, up, bot, e, -⟩ := g1 k hk
      rw [e]; simp
    · exact Good.nonempty g4 y hy

/-- The end of a call on the innermost visitor or builder; the driver may have got a new pointer to it. -/
theorem Core.exit {x : Live} {R : List Live} {next : Nat} {base : List Item} {s : St} (h : Core K strict (x :: R) next base s) {r : Run} (hr : Rel (rest s base R) r)
    (hs : Steps (s.enter (lid x)) r) (o : Option Nat)
    (ho : ∀ k, o = some k → k < r.view.tag ∧ ∃ up bot, r.view.items = up ++ hItem (K x) k :: bot ∧ ∀ i ∈ up, i.tag ≠ k)
    (hb : ∀ i k, x = .builder i → o = some k → r.mine = true) :
    Core K strict (x :: R) next base { s.exit (lid x) r with handle := upd s.handle (lid x) o } := by
  have hne := h.ne
  have hx : x ∈ x :: R := List.mem_cons_self ..
  obtain ⟨g1, g2, g3, g4⟩ := h.good
  have hreal := hr.real
  have ei : r.real.items = r.view.items ++ rest s base R := by rw [hreal]; rfl
  have ec : r.real.calls = r.view.calls ++ [0] := by rw [hreal]; rfl
  have ek : r.real.call = r.view.call := by rw [hreal]; rfl
  have eu : r.real.ub = false := by rw [hreal]; exact hr.ub
  have ev : ∀ y ∈ R, (upd s.views (lid x) r.view.items) (lid y) = s.views (lid y) := fun y hy => upd_ne _ _ (hne y hy)
  have er : rest { s.exit (lid x) r with handle := upd s.handle (lid x) o } base R = rest s base R := rest_congr ev
  have hmine : r.mine = true → s.owner = some (lid x) ∨ s.unused = true := fun e => by simpa [St.enter] using hs.mine e
  have hown : ∀ y ∈ R, s.owner = some (lid y) → r.mine = false := by
    intro y hy e
    cases hm : r.mine with
    | false => rfl
    | true =>
      rcases hmine hm with e' | e'
      · rw [e] at e'; exact absurd (by simpa using e') (hne y hy)
      · rw [(h.unused e').2] at e; cases e
  refine ⟨?_, ?_, eu, ?_, ?_, ?_, ⟨?_, ?_, ?_, ?_⟩, ?_, ?_, h.nodup, h.next⟩
  · rw [rest_cons, er]
    show r.real.items = upd _ _ _ _ ++ _
    rw [upd_self, ei]
  · show r.real.calls.drop r.view.calls.length = [0]
    rw [ec]; simp
  · show r.real.items ≠ [] → r.real.live = true
    intro hn
    by_cases hv : r.view.items = []
    · have hrest : rest s base R ≠ [] := by rw [ei, hv] at hn; exact hn
      have hl := h.live (by rw [h.items, rest_cons]; exact fun e => hrest (List.append_eq_nil_iff.1 e).2)
      rw [← hl]
      refine hs.live ?_ ?_
      · cases hm : (s.enter (lid x)).mine with
        | false => rfl
        | true => exact absurd (h.enter.mine hm) hrest
      · cases hm : (s.enter (lid x)).unused with
        | false => rfl
        | true => exact absurd (h.enter.unused hm).2.1 hrest
    · exact hr.live hv
  · intro y hy i hi c hc
    show 1 ≤ c ∧ c < r.real.call
    rw [ek]
    have hi' : i ∈ upd s.views (lid x) r.view.items (lid y) := hi
    rcases List.mem_cons.1 hy with rfl | hy'
    · rw [upd_self] at hi'
      exact hr.prots i hi' c hc
    · rw [ev y hy'] at hi'
      obtain ⟨a1, a2⟩ := h.prots y hy i hi' c hc
      exact ⟨a1, Nat.lt_of_lt_of_le a2 hs.call⟩
  · show 1 ≤ r.real.call
    rw [ek]; exact hr.call
  · intro k hk
    have hk' : o = some k := by rw [← upd_self s.handle (lid x) o]; exact hk
    obtain ⟨a1, up, bot, a2, a3⟩ := ho k hk'
    refine ⟨?_, up, bot, ?_, a3⟩
    · show k < r.real.tag
      rw [hr.tag_eq]; exact a1
    · show upd _ _ _ _ = _
      rw [upd_self]; exact a2
  · intro e
    rw [er]
    have e' : (if r.mine = true then some (lid x) else if s.owner = some (lid x) then none else s.owner) = some (lid x) := e
    split at e'
    · rename_i hm; exact hr.mine hm
    · split at e'
      · cases e'
      · contradiction
  · rintro i k rfl hk
    have hk' : o = some k := by rw [← upd_self s.handle (lid (.builder i)) o]; exact hk
    refine ⟨?_, fun _ => rfl⟩
    show (if r.mine = true then some i else _) = some i
    rw [if_pos (hb i k rfl hk')]
  · refine Good.frame ?_ g4 ev (fun y hy => upd_ne _ _ (hne y hy)) ?_ ?_ ?_ ?_
    · show s.loc.tag ≤ r.real.tag
      rw [hr.tag_eq]; exact hs.tag
    · intro y hy e
      have e' : (if r.mine = true then some (lid x) else if s.owner = some (lid x) then none else s.owner) = some (lid y) := e
      split at e'
      · exact absurd (by simpa using e'.symm) (hne y hy)
      · split at e'
        · cases e'
        · exact e'
    · intro y hy k _ e
      show (if r.mine = true then some (lid x) else if s.owner = some (lid x) then none else s.owner) = some (lid y)
      have e1 := hown y hy e
      have e2 : s.owner ≠ some (lid x) := by rw [e]; simpa using hne y hy
      rw [e1, if_neg (by simp), if_neg e2]
      exact e
    · intro k hk hall i hi
      have hi' : i ∈ [] ++ upd s.views (lid x) r.view.items (lid x) := hi
      rw [upd_self] at hi'
      exact hs.newer k hk hall i hi'
    · intro _ y hy k hk he
      show [] ++ upd s.views (lid x) r.view.items (lid x) = []
      rw [upd_self]
      refine hs.empty he ?_
      cases hu : (s.enter (lid x)).unused with
      | false => rfl
      | true =>
        have e0 := (h.enter.unused hu).2.1
        exact absurd (List.flatMap_eq_nil_iff.1 (List.append_eq_nil_iff.1 e0).1 y hy) (g4.nonempty y hy k hk)
  · intro p e
    have e' : (if r.mine = true then some (lid x) else if s.owner = some (lid x) then none else s.owner) = some p := e
    split at e'
    · exact ⟨x, hx, by simpa using e'⟩
    · split at e'
      · cases e'
      · exact h.owner p e'
  · intro hu
    have hu' : r.unused = true := hu
    obtain ⟨a1, a2, a3⟩ := hr.unused hu'
    refine ⟨?_, ?_⟩
    · show r.real.items = []
      rw [ei, a1, a2]; rfl
    · show (if r.mine = true then some (lid x) else if s.owner = some (lid x) then none else s.owner) = none
      rw [a3, (h.unused (hs.unused hu')).2]
      simp

theorem Core.ready {x : Live} {R : List Live} {next : Nat} {base : List Item} {s : St} (h : Core K strict (x :: R) next base s) {k : Nat} (hk : s.handle (lid x) = some k) :
    ∃ up bot, Ready (K x) (rest s base R) up bot k (s.enter (lid x)) := by
  obtain ⟨a1, up, bot, a2, a3⟩ := h.good.1 k hk
  exact ⟨up, bot, h.enter, a2, a3, a1, rfl⟩

theorem exit_same (s : St) (id : Nat) (r : Run) : { s.exit id r with handle := upd s.handle id (s.handle id) } = s.exit id r := by
  rw [upd_same]; rfl

/-- The method of a visitor or builder that the driver has a pointer to. -/
theorem Core.lent {x : Live} {R : List Live} {next : Nat} {base : List Item} {s : St} (h : Core K strict (x :: R) next base s) {k : Nat} (hk : s.handle (lid x) = some k)
    {bot : List Item} {r : Run} (hl : Lent (K x) (rest s base R) k bot (s.enter (lid x)) r) (us : List UAct) : Core K strict (x :: R) next base (s.exit (lid x) (r.userSelf us)) := by
  obtain ⟨i, up, ei, hi, hup⟩ := hl.items
  obtain ⟨h1, h2, h3, up', e, h4⟩ := hl.rel.userSelf us hl.calls ei
  have hk0 := (h.good.1 k hk).1
  rw [← exit_same]
  refine h.exit h1 (hl.steps.trans h2) _ ?_ ?_
  · intro k' e'
    obtain rfl : k = k' := by rw [hk] at e'; simpa using e'
    have htag : k < r.view.tag := Nat.lt_of_lt_of_le hk0 hl.steps.tag
    refine ⟨Nat.lt_of_lt_of_le htag h2.tag, up' ++ up, bot, by rw [e]; simp, fun j hj => ?_⟩
    rcases List.mem_append.1 hj with hj | hj
    · exact h4 k htag hi j hj
    · exact hup j hj
  · rintro i k' rfl _
    rw [h3, hl.mine]
    have := (h.good.2.2.1 i k rfl hk).1
    simp [St.enter, this, lid]

theorem Core.method {x : Live} {R : List Live} {next : Nat} {base : List Item} {s : St} (h : Core K strict (x :: R) next base s) (us : List UAct) (pre : Nat → Run → Run)
    (hpre : ∀ {B up bot : List Item} {k : Nat} {r : Run}, Ready (K x) B up bot k r → Lent (K x) B k bot r (pre k r)) : Core K strict (x :: R) next base (s.call pre us (lid x)) := by
  unfold St.call
  split
  · rename_i k hk
    obtain ⟨up, bot, hr⟩ := h.ready hk
    exact h.lent hk (hpre hr) us
  · rename_i hk
    obtain ⟨h1, h2, h3⟩ := h.enter.lib (a := .enter) h.enter.ub (fun p t e => by cases e)
    obtain ⟨k1, k2⟩ := Rel.user us h1 (by simp [Run.lib, Loc.act])
    rw [← exit_same]
    refine h.exit k1 (h2.trans k2) _ ?_ ?_
    · intro k e; rw [hk] at e; cases e
    · intro i k _ e; rw [hk] at e; cases e

/-- A borrow ends. -/
theorem Core.merge {x y : Live} {R : List Live} {next : Nat} {base : List Item} {s : St} (h : Core K strict (x :: y :: R) next base s) : Core K strict (y :: R) next base (s.merge (lid x) (lid y)) := by
  have hne := h.ne
  have hy : y ∈ y :: R := List.mem_cons_self ..
  obtain ⟨g1, g2, g3, k1, k2, k3, k4⟩ := h.good
  have nd := h.nodup
  rw [List.map_cons, List.nodup_cons, List.map_cons, List.nodup_cons] at nd
  have hne' : ∀ z ∈ R, lid z ≠ lid y := fun z hz e => nd.2.1 (List.mem_map.2 ⟨z, hz, e⟩)
  have ev : ∀ z ∈ R, (s.merge (lid x) (lid y)).views (lid z) = s.views (lid z) := fun z hz => upd_ne _ _ (hne' z hz)
  have evy : (s.merge (lid x) (lid y)).views (lid y) = s.views (lid x) ++ s.views (lid y) := upd_self ..
  have er : rest (s.merge (lid x) (lid y)) base R = rest s base R := rest_congr ev
  have ho : (s.merge (lid x) (lid y)).owner = if s.owner = some (lid x) then some (lid y) else s.owner := rfl
  refine ⟨?_, h.calls, h.ub, h.live, ?_, h.call, ⟨?_, ?_, ?_, ?_⟩, ?_, ?_, nd.2 |> fun q => ?_, fun z hz => h.next z (List.mem_cons_of_mem _ hz)⟩
  · rw [rest_cons, er, evy]
    have := h.items
    rw [rest_cons, rest_cons] at this
    show s.loc.items = _
    rw [this, List.append_assoc]
  · intro z hz i hi c hc
    rcases List.mem_cons.1 hz with rfl | hz
    · rw [evy] at hi
      rcases List.mem_append.1 hi with hi | hi
      · exact h.prots x (List.mem_cons_self ..) i hi c hc
      · exact h.prots _ (List.mem_cons_of_mem _ hy) i hi c hc
    · rw [ev z hz] at hi
      exact h.prots z (List.mem_cons_of_mem _ (List.mem_cons_of_mem _ hz)) i hi c hc
  · intro k hk
    obtain ⟨a1, up, bot, a2, a3⟩ := k1 k hk
    refine ⟨a1, s.views (lid x) ++ up, bot, by rw [evy, a2, List.append_assoc], a3⟩
  · intro e
    rw [er]
    rw [ho] at e
    split at e
    · rename_i e1
      have := g2 e1
      rw [rest_cons] at this
      exact (List.append_eq_nil_iff.1 this).2
    · exact k2 e
  · rintro i k rfl hk
    rw [ho]
    have := (k3 i k rfl hk).1
    rw [if_neg (by rw [this]; simpa [lid] using hne _ hy)]
    exact ⟨this, fun _ => rfl⟩
  · refine Good.frame (s := s) (s' := s.merge (lid x) (lid y)) (Nat.le_refl _) k4 ev (fun _ _ => rfl) ?_ ?_ ?_ (fun _ _ _ _ _ he => by rw [evy]; simpa using he)
    · intro z hz e
      rw [ho] at e
      split at e
      · exact absurd (by simpa using e.symm) (hne' z hz)
      · exact e
    · intro z hz k _ e
      rw [ho, if_neg (by rw [e]; simpa using hne z (List.mem_cons_of_mem _ hz))]
      exact e
    · intro k hk hall i hi
      rw [evy] at hi
      exact hall i (by simpa using hi)
  · intro o e
    rw [ho] at e
    split at e
    · exact ⟨y, hy, by simpa using e⟩
    · rename_i hn
      obtain ⟨z, hz, ez⟩ := h.owner o e
      rcases List.mem_cons.1 hz with rfl | hz
      · exact absurd (by rw [e, ez]) hn
      · exact ⟨z, hz, ez⟩
  · intro hu
    obtain ⟨a1, a2⟩ := h.unused hu
    refine ⟨a1, ?_⟩
    rw [ho, a2]
    simp
  · rw [List.map_cons, List.nodup_cons]; exact q

theorem lendable_prefix {x : Live} {R : List Live} {next : Nat} {base : List Item} {s : St} (h : Core K strict (x :: R) next base s) (n : Nat) :
    ∃ l r, (s.lendable (lid x)).take n = l ∧ (s.views (lid x)).drop l.length = r ∧ s.views (lid x) = l ++ r ∧
      ∀ k, s.handle (lid x) = some k → ∃ up bot, r = up ++ hItem (K x) k :: bot ∧ (∀ i ∈ l ++ up, i.tag ≠ k) := by
  unfold St.lendable
  split
  · rename_i k hk
    obtain ⟨a1, up, bot, a2, a3⟩ := h.good.1 k hk
    rw [List.nil_append] at a3
    have et : (s.views (lid x)).takeWhile (·.tag != k) = up := by
      rw [a2, List.takeWhile_append_of_pos (fun i hi => by have := a3 i hi; simp; omega)]
      simp
    refine ⟨up.take n, up.drop n ++ hItem (K x) k :: bot, by rw [et], ?_, ?_, ?_⟩
    · rw [a2]
      conv => lhs; rw [← List.take_append_drop n up]
      rw [List.append_assoc, List.drop_append_of_le_length (by simp)]
      simp
    · rw [a2, ← List.append_assoc, List.take_append_drop]
    · intro k' hk'
      obtain rfl : k = k' := by rw [hk] at hk'; simpa using hk'
      exact ⟨up.drop n, bot, rfl, by rw [List.take_append_drop]; exact a3⟩
  · rename_i hk
    refine ⟨(s.views (lid x)).take n, (s.views (lid x)).drop n, rfl, ?_, (List.take_append_drop ..).symm, fun k hk' => by rw [hk] at hk'; cases hk'⟩
    rw [List.length_take]
    by_cases hn : n ≤ (s.views (lid x)).length
    · rw [Nat.min_eq_left hn]
    · rw [Nat.min_eq_right (by omega), List.drop_length, List.drop_eq_nil_of_le (by omega)]

/-- A new visitor or builder. -/
theorem Core.share {x z : Live} {R : List Live} {next : Nat} {base : List Item} {s : St} (h : Core K strict (x :: R) next base s) (n : Nat) (hz : lid z = next)
    (hn : strict = true → ∀ i k, x = .builder i → s.handle i = some k → n = 0) :
    Core K strict (z :: x :: R) (next + 1) base (s.share n next (lid x)) := by
  have hne := h.ne
  have hx : x ∈ x :: R := List.mem_cons_self ..
  obtain ⟨g1, g2, g3, g4⟩ := h.good
  obtain ⟨l, r, e1, e2, e3, e4⟩ := lendable_prefix h n
  have fresh : ∀ y ∈ x :: R, lid y ≠ next := fun y hy e => by have := h.next y hy; omega
  have evz : (s.share n next (lid x)).views next = l := by simp only [St.share, e1]; exact upd_self ..
  have evx : (s.share n next (lid x)).views (lid x) = r := by
    simp only [St.share, e1, e2]
    rw [upd_ne _ _ (fresh x hx), upd_self]
  have ev : ∀ y ∈ R, (s.share n next (lid x)).views (lid y) = s.views (lid y) := fun y hy => by
    simp only [St.share, e1, e2]
    rw [upd_ne _ _ (fresh y (List.mem_cons_of_mem _ hy)), upd_ne _ _ (hne y hy)]
  have er : rest (s.share n next (lid x)) base R = rest s base R := rest_congr ev
  have ho : (s.share n next (lid x)).owner = if s.owner = some (lid x) ∧ r = [] then some next else s.owner := by simp only [St.share, e1, e2]
  have hh : ∀ y ∈ x :: R, (s.share n next (lid x)).handle (lid y) = s.handle (lid y) := fun y hy => upd_ne _ _ (fresh y hy)
  have hhz : (s.share n next (lid x)).handle next = none := upd_self ..
  have hno : s.owner ≠ some next := fun e => by
    obtain ⟨y, hy, ey⟩ := h.owner next e
    exact fresh y hy ey
  refine ⟨?_, h.calls, h.ub, h.live, ?_, h.call, ⟨?_, ?_, ?_, ⟨?_, ?_, ?_, ?_⟩⟩, ?_, ?_, ?_, ?_⟩
  · rw [rest_cons, rest_cons, er, hz, evz, evx]
    have := h.items
    rw [rest_cons, e3] at this
    show s.loc.items = _
    rw [this, List.append_assoc]
  · intro y hy i hi c hc
    show 1 ≤ c ∧ c < s.loc.call
    rcases List.mem_cons.1 hy with rfl | hy
    · rw [hz, evz] at hi
      exact h.prots x hx i (by rw [e3]; exact List.mem_append_left _ hi) c hc
    · rcases List.mem_cons.1 hy with rfl | hy'
      · rw [evx] at hi
        exact h.prots _ hx i (by rw [e3]; exact List.mem_append_right _ hi) c hc
      · rw [ev y hy'] at hi
        exact h.prots y hy i hi c hc
  · intro k hk
    rw [hz, hhz] at hk; cases hk
  · intro e
    rw [rest_cons, er, evx]
    rw [ho, hz] at e
    split at e
    · rename_i hc
      rw [hc.2, g2 hc.1]; rfl
    · exact absurd e hno
  · intro i k ez hk
    have : i = next := by rw [← hz, ez]; rfl
    rw [this, hhz] at hk; cases hk
  · intro k hk
    rw [hh x hx] at hk
    obtain ⟨up, bot, a1, a2⟩ := e4 k hk
    refine ⟨(g1 k hk).1, up, bot, by rw [evx]; exact a1, ?_⟩
    rw [hz, evz]
    simpa using a2
  · intro e
    rw [er]
    rw [ho] at e
    split at e
    · exact absurd (by simpa using e.symm) (fresh x hx)
    · exact g2 e
  · rintro i k rfl hk
    have hk' : s.handle i = some k := (hh _ hx).symm.trans hk
    rw [ho]
    obtain ⟨up, bot, a1, a2⟩ := e4 k hk'
    rw [if_neg (by rw [a1]; simp)]
    refine ⟨(g3 i k rfl hk').1, fun st => ?_⟩
    rw [hz, evz, ← e1, hn st i k rfl hk']
    rfl
  · refine Good.frame (s := s) (s' := s.share n next (lid x)) (Nat.le_refl _) g4 ev (fun y hy => hh y (List.mem_cons_of_mem _ hy)) ?_ ?_ ?_
      (fun _ _ _ _ _ he => by rw [hz, evz, evx]; rw [e3] at he; simpa using he)
    · intro y hy e
      rw [ho] at e
      split at e
      · exact absurd (by simpa using e.symm) (fresh y (List.mem_cons_of_mem _ hy))
      · exact e
    · intro y hy k _ e
      rw [ho, if_neg (fun c => ?_)]
      · exact e
      · rw [e] at c
        exact hne y hy (by simpa using c.1)
    · intro k hk hall i hi
      rw [hz, evz, evx] at hi
      exact hall i (by rw [e3]; simpa using hi)
  · intro o e
    rw [ho] at e
    split at e
    · exact ⟨z, List.mem_cons_self .., by rw [hz]; simpa using e⟩
    · obtain ⟨y, hy, ey⟩ := h.owner o e
      exact ⟨y, List.mem_cons_of_mem _ hy, ey⟩
  · intro hu
    obtain ⟨a1, a2⟩ := h.unused hu
    refine ⟨a1, ?_⟩
    rw [ho, a2]
    simp
  · rw [List.map_cons, List.nodup_cons]
    refine ⟨fun hm => ?_, h.nodup⟩
    obtain ⟨y, hy, ey⟩ := List.mem_map.1 hm
    exact fresh y hy (by rw [ey, hz])
  · intro y hy
    rcases List.mem_cons.1 hy with rfl | hy
    · omega
    · have := h.next y hy; omega

/-- A returned reference or box becomes a raw pointer. -/
theorem Core.point {z : Live} {R : List Live} {next : Nat} {base : List Item} {s : St} (h : Core K strict (z :: R) next base s) (w : Bool) (t : Nat) (conv : Nat → Run → Run × Nat)
    (hconv : ∀ {B : List Item} {r : Run}, Rel B r → r.view.calls = [] → (locate w t r.view.items).isSome = true → Pointed (K z) B r [] (conv t r).1 (conv t r).2) (ho : ∀ i, z = .builder i → s.owner = some i) : Core K strict (z :: R) next base (s.point w conv t (lid z)) := by
  unfold St.point
  split
  · rename_i ht
    have hp := hconv h.enter rfl ht
    refine h.exit hp.rel hp.steps _ ?_ ?_
    · intro k e
      obtain rfl : (conv t (s.enter (lid z))).2 = k := by simpa using e
      obtain ⟨bot, e⟩ := hp.items
      exact ⟨hp.tag, [], bot, e, fun i hi => (List.not_mem_nil hi).elim⟩
    · rintro i k rfl _
      rw [hp.mine]
      simp [St.enter, lid, ho i rfl]
  · exact h

/-- Everything is gone. -/
theorem good_empty {s : St} : ∀ {R : List Live} {above : List Item}, (∀ y ∈ R, s.views (lid y) = []) → (∀ y ∈ R, s.handle (lid y) = none) → Good K strict s [] above R
  | [], _, _, _ => trivial
  | x :: R, above, hv, hh => by
    have hx : x ∈ x :: R := List.mem_cons_self ..
    refine ⟨fun k e => ?_, fun _ => ?_, fun i k ex e => ?_, good_empty (fun y hy => hv y (List.mem_cons_of_mem _ hy)) fun y hy => hh y (List.mem_cons_of_mem _ hy)⟩
    · rw [hh x hx] at e; cases e
    · simp only [rest, List.append_nil, List.flatMap_eq_nil_iff]
      exact fun y hy => hv y (List.mem_cons_of_mem _ hy)
    · subst ex
      rw [show s.handle i = none from hh _ hx] at e; cases e

theorem Good.none {s : St} {base : List Item} : ∀ {R : List Live} {above : List Item}, Good K strict s base above R → (∀ y ∈ R, s.views (lid y) = []) → ∀ y ∈ R, s.handle (lid y) = none
  | [], _, _, _, y, hy => (List.not_mem_nil hy).elim
  | x :: R, above, ⟨g1, _, _, g4⟩, hv, y, hy => by
    rcases List.mem_cons.1 hy with rfl | hy
    · cases hk : s.handle (lid y) with
      | none => rfl
      | some k =>
        obtain ⟨-, up, bot, e, -⟩ := g1 k hk
        rw [hv y (List.mem_cons_self ..)] at e
        simp at e
    · exact Good.none g4 (fun z hz => hv z (List.mem_cons_of_mem _ hz)) y hy

/-- The memory is freed. -/
theorem free_view {t : Nat} {l : Loc} (hm : ∃ i ∈ l.items, i.grants true t = true) (hl : l.live = true) (hu : l.ub = false) (hc : l.calls = [0])
    (hp : ∀ i ∈ l.items, i.prot ≠ some 0) : l.free t = { l with items := [], live := false } := by
  obtain ⟨⟨a, g, b⟩, e⟩ := BoxAlias.locate_mem hm
  have hs := (locate_spec e).1
  have ng : ∀ s : List Item, (∀ i ∈ s, i ∈ l.items) → s.any (·.guarded [0]) = false := by
    intro s hsub
    rw [List.any_eq_false]
    intro i hi
    have := hp i (hsub i hi)
    simp only [Item.guarded]
    split
    · rename_i c hc
      have : c ≠ 0 := fun e => this (by rw [hc, e])
      simp [this]
    · simp
  have n1 := ng (popped g a) (fun i hi => by rw [hs]; exact List.mem_append_left _ (popped_sub _ _ i hi))
  have n2 := ng (keep g a ++ g :: b) (fun i hi => by
    rw [hs]
    rcases List.mem_append.1 hi with hi | hi
    · exact List.mem_append_left _ (keep_sub _ _ i hi)
    · exact List.mem_append_right _ hi)
  obtain ⟨items, calls, tag, call, live, ub⟩ := l
  simp only at *
  subst hl hu hc
  have ew : Loc.write t ⟨items, [0], tag, call, true, false⟩ = ⟨keep g a ++ g :: b, [0], tag, call, true, false⟩ := by
    simp only [Loc.write, e, n1]
    rfl
  simp only [Loc.free, ew, n2]
  rfl

theorem grants_unique (t : Nat) (p : Option Nat) : (⟨t, .unique, p⟩ : Item).grants true t = true := by simp [Item.grants]

theorem Core.freed {b : Nat} {R : List Live} {next : Nat} {base : List Item} {s : St} (h : Core K strict (.builder b :: R) next base s) {k t : Nat} (hk : s.handle b = some k) {g : Item}
    (ht : g ∈ s.views b) (hgr : g.grants true t = true) :
    Core K strict (.builder b :: R) next [] { s with loc := s.loc.free t, views := upd s.views b [], handle := upd s.handle b none, owner := if s.owner = some b then none else s.owner } := by
  have hne : ∀ y ∈ R, lid y ≠ b := Core.ne (x := .builder b) h
  obtain ⟨g1, g2, g3, g4⟩ := h.good
  have hown := (g3 b k rfl hk).1
  have hrest := g2 hown
  have hitems := h.items
  rw [rest_cons, hrest, List.append_nil] at hitems
  have hv0 : ∀ y ∈ R, s.views (lid y) = [] := List.flatMap_eq_nil_iff.1 (List.append_eq_nil_iff.1 hrest).1
  have hh0 := g4.none hv0
  have hmem : g ∈ s.loc.items := by
    rw [hitems]; exact ht
  have hf : s.loc.free t = { s.loc with items := [], live := false } := by
    refine free_view ⟨_, hmem, hgr⟩ (h.live (List.ne_nil_of_mem hmem)) h.ub h.calls ?_
    intro i hi e
    rw [hitems] at hi
    have := (h.prots _ (List.mem_cons_self ..) i hi 0 e).1
    omega
  have hv1 : ∀ y ∈ Live.builder b :: R, upd s.views b [] (lid y) = [] := by
    intro y hy
    rcases List.mem_cons.1 hy with rfl | hy
    · exact upd_self ..
    · rw [upd_ne _ _ (hne y hy)]; exact hv0 y hy
  have hh1 : ∀ y ∈ Live.builder b :: R, upd s.handle b none (lid y) = none := by
    intro y hy
    rcases List.mem_cons.1 hy with rfl | hy
    · exact upd_self ..
    · rw [upd_ne _ _ (hne y hy)]; exact hh0 y hy
  rw [hf]
  refine ⟨?_, h.calls, h.ub, fun hn => absurd rfl hn, ?_, h.call, good_empty hv1 hh1, ?_, fun hu => ?_, h.nodup, h.next⟩
  · simp only [rest, List.append_nil]
    exact (List.flatMap_eq_nil_iff.2 hv1).symm
  · intro y hy i hi
    have hi' : i ∈ upd s.views b [] (lid y) := hi
    rw [hv1 y hy] at hi'
    exact (List.not_mem_nil hi').elim
  · intro o e
    have e' : (if s.owner = some b then none else s.owner) = some o := e
    rw [if_pos hown] at e'; cases e'
  · rw [(h.unused hu).2] at hown; cases hown

/-- `from_str_impl`: all of the driver's pointers are raw. -/
abbrev rawK : Live → Perm := fun _ => .sharedRW

/-- The destructor of a builder. -/
theorem Core.drop {b : Nat} {R : List Live} {next : Nat} {base : List Item} {s : St} (h : Core rawK strict (.builder b :: R) next base s) (us : List UAct) :
    ∃ base', Core rawK strict (.builder b :: R) next base' (s.drop us b) := by
  unfold St.drop
  split
  · rename_i k hk
    obtain ⟨up, bot, hr⟩ := Core.ready (x := .builder b) h hk
    obtain ⟨hl, i, p, tl, ei⟩ := hr.preDrop (.inr rfl)
    have hc := Core.lent (x := .builder b) h hk hl us
    obtain ⟨-, -, -, up', e, -⟩ := hl.rel.userSelf us hl.calls ei
    have hm : (⟨(St.preDrop k (s.enter (lid (.builder b)))).2, .unique, p⟩ : Item) ∈
        upd s.views (lid (.builder b)) (Run.userSelf us (St.preDrop k (s.enter (lid (.builder b)))).1).view.items (lid (.builder b)) := by
      rw [upd_self, e]
      simp
    exact ⟨[], Core.freed hc (k := k) hk hm (grants_unique ..)⟩
  · exact ⟨base, h.method us _ fun hr => hr.preBuilder (.inr rfl)⟩

/-! ## The run -/

/-- Who was made by whom. -/
def Linked (s : St) : List Live → Prop
  | [] => False
  | [.visitor _] => True
  | .visitor v :: .builder b :: R => s.kid b = some v ∧ Linked s (.builder b :: R)
  | .builder b :: .visitor p :: R => s.par b = p ∧ Linked s (.visitor p :: R)
  | _ => False

/-- The innermost builder has not returned a visitor since it was last called. -/
def TopFree (s : St) : List Live → Prop
  | .builder b :: _ => s.kid b = none
  | _ => True

theorem Linked.congr {s s' : St} : ∀ {S : List Live}, Linked s S → (∀ y ∈ S.tail, s'.kid (lid y) = s.kid (lid y)) → (∀ y ∈ S, s'.par (lid y) = s.par (lid y)) → Linked s' S
  | [], h, _, _ => h
  | [.visitor _], _, _, _ => trivial
  | .visitor v :: .builder b :: R, ⟨h1, h2⟩, hk, hp => by
    refine ⟨(hk _ (List.mem_cons_self ..)).trans h1, Linked.congr h2 (fun y hy => hk y (List.mem_cons_of_mem _ hy)) fun y hy => hp y (List.mem_cons_of_mem _ hy)⟩
  | .builder b :: .visitor p :: R, ⟨h1, h2⟩, hk, hp => by
    refine ⟨(hp _ (List.mem_cons_self ..)).trans h1, Linked.congr h2 (fun y hy => hk y (List.mem_cons_of_mem _ hy)) fun y hy => hp y (List.mem_cons_of_mem _ hy)⟩

theorem Linked.tail {s : St} {x y : Live} {R : List Live} (h : Linked s (x :: y :: R)) : Linked s (y :: R) := by
  cases x <;> cases y <;> first | exact h.2 | exact h.elim

/-- The invariant of the run. -/
structure Inv (K : Live → Perm) (strict : Bool) (m : MonSt) (s : St) : Prop where
  core : ∃ base, Core K strict m.stack m.next base s
  linked : Linked s m.stack
  top : TopFree s m.stack

/-- The numbers do not matter. -/
theorem Core.links {S : List Live} {next : Nat} {base : List Item} {s : St} (h : Core K strict S next base s) (kid : Nat → Option Nat) (par : Nat → Nat) : Core K strict S next base { s with kid := kid, par := par } := by
  refine ⟨h.items, h.calls, h.ub, h.live, h.prots, h.call, ?_, h.owner, h.unused, h.nodup, h.next⟩
  exact Good.frame (s := s) (s' := { s with kid := kid, par := par }) (Nat.le_refl _) h.good (fun _ _ => rfl) (fun _ _ => rfl) (fun _ _ e => e) (fun _ _ _ _ e => e) (fun _ _ hi => hi) fun _ _ _ _ _ he => he

/-- The last visitor of a builder is not used any more. -/
theorem endKid_inv {v b : Nat} {R : List Live} {next : Nat} {base : List Item} {s : St} (h : Core K strict (.visitor v :: .builder b :: R) next base s) (hl : Linked s (.visitor v :: .builder b :: R)) :
    Core K strict (.builder b :: R) next base (s.endKid b) ∧ Linked (s.endKid b) (.builder b :: R) ∧ TopFree (s.endKid b) (.builder b :: R) := by
  have e : s.endKid b = { s.merge v b with kid := upd s.kid b none } := by simp only [St.endKid, hl.1]
  have hm : Core K strict (.builder b :: R) next base (s.merge v b) := h.merge
  rw [e]
  refine ⟨hm.links _ _, ?_, upd_self ..⟩
  refine Linked.congr hl.2 (fun y hy => upd_ne _ _ ?_) fun _ _ => rfl
  exact Core.ne (x := .builder b) hm y hy

theorem endKid_free {b : Nat} {R : List Live} {s : St} (h : TopFree s (.builder b :: R)) : s.endKid b = s := by
  have h' : s.kid b = none := h
  simp only [St.endKid, h']

theorem call_links (pre : Nat → Run → Run) (us : List UAct) (id : Nat) (s : St) : (s.call pre us id).kid = s.kid ∧ (s.call pre us id).par = s.par := by
  unfold St.call
  split <;> exact ⟨rfl, rfl⟩

theorem drop_links (us : List UAct) (id : Nat) (s : St) : (s.drop us id).kid = s.kid ∧ (s.drop us id).par = s.par := by
  unfold St.drop
  split
  · exact ⟨rfl, rfl⟩
  · exact call_links ..

theorem point_links (w : Bool) (conv : Nat → Run → Run × Nat) (t id : Nat) (s : St) : (s.point w conv t id).kid = s.kid ∧ (s.point w conv t id).par = s.par := by
  unfold St.point
  split <;> exact ⟨rfl, rfl⟩

theorem Linked.same {s s' : St} {S : List Live} (h : Linked s S) (hk : s'.kid = s.kid ∧ s'.par = s.par) : Linked s' S :=
  h.congr (fun _ _ => by rw [hk.1]) fun _ _ => by rw [hk.2]

theorem TopFree.same {s s' : St} {S : List Live} (h : TopFree s S) (hk : s'.kid = s.kid ∧ s'.par = s.par) : TopFree s' S := by
  unfold TopFree at *
  split
  · rw [hk.1]; exact h
  · trivial

/-- The drop of the innermost builder. -/
theorem drop_inv {b : Nat} {R : List Live} {next : Nat} {base : List Item} {s : St} (h : Core K strict (.builder b :: R) next base s) (hl : Linked s (.builder b :: R)) :
    Core K strict R next base (s.merge b (s.par b)) ∧ Linked (s.merge b (s.par b)) R ∧ TopFree (s.merge b (s.par b)) R := by
  cases R with
  | nil => exact hl.elim
  | cons p R =>
    cases p with
    | builder p => exact hl.elim
    | visitor p =>
      obtain ⟨e, hl'⟩ := hl
      rw [e]
      exact ⟨h.merge, hl'.same ⟨rfl, rfl⟩, trivial⟩

theorem Inv.step {m : MonSt} {s : St} (h : Inv rawK false m s) (C : Safe) (n : Nat) (o : Op) (hok : (m.step o).ok = true) : Inv rawK false (m.step o) (St.step C n o s) := by
  obtain ⟨stack, next, ok⟩ := m
  obtain ⟨⟨base, hc⟩, hl, ht⟩ := h
  simp only at hc hl ht
  cases o with
  | callVisitor id =>
    match stack, hc, hl, ht, hok with
    | .visitor i :: R, hc, hl, ht, hok =>
      obtain rfl : i = id := by simp [MonSt.step] at hok; exact hok.2
      exact ⟨⟨base, Core.method (x := .visitor i) hc _ _ fun hr => hr.preVisitor (.inr rfl)⟩, hl.same (call_links ..), ht.same (call_links ..)⟩
    | .builder i :: R, hc, hl, ht, hok => simp [MonSt.step] at hok
    | [], hc, hl, ht, hok => exact hl.elim
  | callBuilder id =>
    match stack, hc, hl, ht, hok with
    | .builder i :: R, hc, hl, ht, hok =>
      obtain rfl : i = id := by simp [MonSt.step] at hok; exact hok.2
      have e : St.step C n (.callBuilder i) s = s.call St.preBuilder (C.acts n) i := by simp only [St.step, endKid_free ht]
      rw [e]
      exact ⟨⟨base, Core.method (x := .builder i) hc _ _ fun hr => hr.preBuilder (.inr rfl)⟩, hl.same (call_links ..), ht.same (call_links ..)⟩
    | .visitor v :: .builder i :: R, hc, hl, ht, hok =>
      obtain rfl : i = id := by simp [MonSt.step] at hok; exact hok.2
      obtain ⟨k1, k2, k3⟩ := endKid_inv hc hl
      exact ⟨⟨base, Core.method (x := .builder i) k1 _ _ fun hr => hr.preBuilder (.inr rfl)⟩, k2.same (call_links ..), k3.same (call_links ..)⟩
    | .visitor v :: .visitor i :: R, hc, hl, ht, hok => exact hl.elim
    | [.visitor v], hc, hl, ht, hok => simp [MonSt.step] at hok
    | [], hc, hl, ht, hok => exact hl.elim
  | dropBuilder id =>
    match stack, hc, hl, ht, hok with
    | .builder i :: R, hc, hl, ht, hok =>
      obtain rfl : i = id := by simp [MonSt.step] at hok; exact hok.2
      obtain ⟨base', hd⟩ := hc.drop (C.acts n)
      have lk := drop_links (C.acts n) i s
      obtain ⟨k1, k2, k3⟩ := drop_inv hd (hl.same lk)
      rw [lk.2] at k1 k2 k3
      have e : St.step C n (.dropBuilder i) s = (s.drop (C.acts n) i).merge i (s.par i) := by simp only [St.step, endKid_free ht]
      rw [e]
      exact ⟨⟨base', k1⟩, k2, k3⟩
    | .visitor v :: .builder i :: R, hc, hl, ht, hok =>
      obtain rfl : i = id := by simp [MonSt.step] at hok; exact hok.2
      obtain ⟨k1, k2, k3⟩ := endKid_inv hc hl
      obtain ⟨base', hd⟩ := k1.drop (C.acts n)
      have lk := drop_links (C.acts n) i (s.endKid i)
      obtain ⟨j1, j2, j3⟩ := drop_inv hd (k2.same lk)
      rw [lk.2] at j1 j2 j3
      have e : (s.endKid i).par = s.par := by
        unfold St.endKid
        split <;> rfl
      rw [e] at j1 j2 j3
      exact ⟨⟨base', j1⟩, j2, j3⟩
    | .visitor v :: .visitor i :: R, hc, hl, ht, hok => exact hl.elim
    | [.visitor v], hc, hl, ht, hok => simp [MonSt.step] at hok
    | [], hc, hl, ht, hok => exact hl.elim
  | moveBuilder id =>
    match stack, hc, hl, ht, hok with
    | .builder i :: R, hc, hl, ht, hok => exact ⟨⟨base, hc⟩, hl, ht⟩
    | .visitor v :: .builder i :: R, hc, hl, ht, hok => exact ⟨⟨base, hc⟩, hl, ht⟩
    | .visitor v :: .visitor i :: R, hc, hl, ht, hok => exact hl.elim
    | [.visitor v], hc, hl, ht, hok => simp [MonSt.step] at hok
    | [], hc, hl, ht, hok => exact hl.elim
  | newVisitor id parent =>
    match stack, hc, hl, ht, hok with
    | .builder i :: R, hc, hl, ht, hok =>
      obtain ⟨⟨-, rfl⟩, rfl⟩ : (ok = true ∧ i = parent) ∧ id = next := by simpa [MonSt.step] using hok
      have k1 : Core rawK false (.visitor id :: .builder i :: R) (id + 1) base (s.share (C.cut n) id i) := Core.share (x := .builder i) (z := .visitor id) hc _ rfl (fun e => by cases e)
      have k2 := k1.links (upd s.kid i (some id)) s.par
      have hl' : Linked { s.share (C.cut n) id i with kid := upd s.kid i (some id) } (.visitor id :: .builder i :: R) := by
        refine ⟨upd_self .., Linked.congr hl (fun y hy => upd_ne _ _ ?_) fun _ _ => rfl⟩
        exact Core.ne (x := .builder i) hc y hy
      simp only [St.step]
      split
      · exact ⟨⟨base, Core.point (z := .visitor id) k2 _ _ _ (fun hr hc ht => convVisitor_pointed _ hr hc ht) (fun j e => by cases e)⟩, hl'.same (point_links ..), trivial⟩
      · exact ⟨⟨base, k2⟩, hl', trivial⟩
    | .visitor i :: R, hc, hl, ht, hok => simp [MonSt.step] at hok
    | [], hc, hl, ht, hok => exact hl.elim
  | newBuilder id parent =>
    match stack, hc, hl, ht, hok with
    | .visitor i :: R, hc, hl, ht, hok =>
      obtain ⟨⟨-, rfl⟩, rfl⟩ : (ok = true ∧ i = parent) ∧ id = next := by simpa [MonSt.step] using hok
      have fresh : ∀ y ∈ Live.visitor i :: R, lid y ≠ id := fun y hy e => by have := hc.next y hy; omega
      have hc' := hc.links (upd s.kid id none) (upd s.par id i)
      have hl0 : Linked { s with par := upd s.par id i, kid := upd s.kid id none } (.visitor i :: R) :=
        Linked.congr hl (fun y hy => upd_ne _ _ (fresh y (List.mem_cons_of_mem _ hy))) fun y hy => upd_ne _ _ (fresh y hy)
      have hl' : Linked { s with par := upd s.par id i, kid := upd s.kid id none } (.builder id :: .visitor i :: R) := ⟨upd_self .., hl0⟩
      have ht' : TopFree { s with par := upd s.par id i, kid := upd s.kid id none } (.builder id :: .visitor i :: R) := upd_self ..
      simp only [St.step]
      have eo : { s with par := upd s.par id i, kid := upd s.kid id none }.owner = s.owner := rfl
      have ev : { s with par := upd s.par id i, kid := upd s.kid id none }.views = s.views := rfl
      have eh : { s with par := upd s.par id i, kid := upd s.kid id none }.handle = s.handle := rfl
      generalize { s with par := upd s.par id i, kid := upd s.kid id none } = s' at hl' ht' hc' eo ev eh ⊢
      have k1 : ∀ c, Core rawK false (.builder id :: .visitor i :: R) (id + 1) base (s'.share c id i) := fun c => Core.share (x := .visitor i) (z := .builder id) hc' _ rfl (fun e => by cases e)
      have lk : ∀ c, (s'.share c id i).kid = s'.kid ∧ (s'.share c id i).par = s'.par := fun c => ⟨rfl, rfl⟩
      split
      · split
        · rename_i hown
          refine ⟨⟨base, Core.point (z := .builder id) (k1 _) _ _ _ (fun hr hc ht => convBuilder_pointed _ hr hc ht) ?_⟩, (hl'.same (lk _)).same (point_links ..), (ht'.same (lk _)).same (point_links ..)⟩
          intro j ej
          obtain rfl : id = j := by simpa using ej
          simp [St.share, St.lendable, eo, ev, eh, hown.1, hown.2]
        · exact ⟨⟨base, k1 _⟩, hl'.same (lk _), ht'.same (lk _)⟩
      · exact ⟨⟨base, k1 _⟩, hl'.same (lk _), ht'.same (lk _)⟩
    | .builder i :: R, hc, hl, ht, hok => simp [MonSt.step] at hok
    | [], hc, hl, ht, hok => exact hl.elim

theorem inv_init (C : Safe) : Inv rawK false ⟨[.visitor 0], 1, true⟩ (St.init C) := by
  refine ⟨?_, trivial, trivial⟩
  unfold St.init
  cases C.start with
  | unused => exact ⟨[], rfl, rfl, rfl, by simp, by simp, by simp, by simp [Good, lid, rest], by simp, by simp, by simp, by simp [lid]⟩
  | direct =>
    refine ⟨[⟨2, .unique, some 1⟩, ⟨1, .unique, some 0⟩, ⟨0, .unique, none⟩], rfl, rfl, rfl, by simp, by simp [lid, upd], by simp, ⟨?_, by simp, by simp, trivial⟩, by simp, by simp, by simp, by simp [lid]⟩
    intro h e
    obtain rfl : 3 = h := by simpa [upd, lid] using e
    exact ⟨by simp, [], [], rfl, by simp⟩
  | borrowed =>
    exact ⟨[⟨0, .unique, none⟩], rfl, rfl, rfl, by simp, by simp [lid, upd], by simp, ⟨by simp, by simp, by simp, trivial⟩, by simp, by simp, by simp, by simp [lid]⟩
  | owned =>
    exact ⟨[], rfl, rfl, rfl, by simp, by simp [lid, upd], by simp, ⟨by simp, by simp [rest], by simp, trivial⟩, by simp [lid], by simp, by simp, by simp [lid]⟩

theorem step_ok {m : MonSt} {o : Op} (h : (m.step o).ok = true) : m.ok = true := by
  obtain ⟨stack, next, ok⟩ := m
  cases ok with
  | true => rfl
  | false =>
    unfold MonSt.step at h
    split at h <;> simp_all

theorem run_inv (C : Safe) : ∀ (h : List Op), (h.foldr MonSt.step ⟨[.visitor 0], 1, true⟩).ok = true → Inv rawK false (h.foldr MonSt.step ⟨[.visitor 0], 1, true⟩) (St.run C h)
  | [], _ => inv_init C
  | o :: h, hok => (run_inv C h (step_ok hok)).step C h.length o hok

/-- The stack discipline implies the aliasing rules. -/
theorem noViolation (m : Mon) (h : m.ok = true) : NoViolation m.history := fun C => by
  obtain ⟨base, hc⟩ := (run_inv C m.history h).core
  exact hc.ub

end Miniserde.SB
