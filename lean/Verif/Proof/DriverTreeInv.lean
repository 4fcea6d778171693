import Verif.Proof.DriverTree
import Verif.Proof.DriverTreeReach

/-!
# The driver of `from_str` follows Tree Borrows: the run
-/

namespace Miniserde.TB

/-- The number of a live thing. -/
def lid : Live → Nat
  | .visitor i | .builder i => i

theorem upd_self {α : Type} (f : Nat → α) (n : Nat) (a : α) : upd f n a n = a := by simp [upd]
theorem upd_ne {α : Type} (f : Nat → α) {n m : Nat} (a : α) (h : m ≠ n) : upd f n a m = f m := by simp [upd, h]

theorem eq_of_suffix {a b : Tag} (h : a <:+ b) (k : b <:+ a) : a = b := h.eq_of_length (Nat.le_antisymm h.length_le k.length_le)

theorem below_below {ρ t : Tag} (h : ρ <:+ t) (is : List Item) : below t (below ρ is) = below t is := by
  rw [below, below, List.filter_filter]
  refine List.filter_congr fun i _ => ?_
  rw [Bool.eq_iff_iff]
  simp only [Bool.and_eq_true, List.isSuffixOf_iff_suffix]
  exact ⟨fun k => k.1, fun k => ⟨k, h.trans k⟩⟩

/-- What holds at any time; `S`: what is alive, the innermost first, `H`: the driver's pointers. -/
structure Core (S : List Live) (next : Nat) (H : Nat → Option Tag) (s : St) : Prop where
  ub : s.loc.ub = false
  live : s.loc.items ≠ [] → s.loc.live = true
  fresh : Fresh s.loc
  co : CallsOk s.loc
  vnone : ∀ y ∈ S, s.root (lid y) = none → s.views (lid y) = []
  vsome : ∀ y ∈ S, ∀ ρ, s.root (lid y) = some ρ → s.views (lid y) = below ρ s.loc.items ∧ ∃ i ∈ s.loc.items, i.tag = ρ
  cond : ∀ y ∈ S, ∀ ρ, s.root (lid y) = some ρ → Cond ρ s.loc
  zero : ∀ y ∈ S, ∀ ρ, s.root (lid y) = some ρ → ∀ i ∈ s.loc.items, i.prot = some 0 → i.tag <:+ ρ ∧ i.tag ≠ ρ
  hand : ∀ y ∈ S, ∀ h, H (lid y) = some h → (∃ i ∈ s.loc.items, i.tag = h) ∧ (∃ ρ, s.root (lid y) = some ρ ∧ ρ <:+ h) ∧ ∀ i ∈ s.loc.items, i.tag <:+ h → i.perm.ok (i.guarded s.loc.calls)
  nest : S.Pairwise fun x y => ∀ ρ, s.root (lid x) = some ρ → (∀ ρ', s.root (lid y) = some ρ' → ρ' <:+ ρ) ∧ ∀ h, H (lid y) = some h → h <:+ ρ ∧ h ≠ ρ
  own : ∀ o, s.owner = some o → (∃ x ∈ S, lid x = o) ∧ ∃ ρ, s.root o = some ρ ∧ ∀ i ∈ s.loc.items, ρ <:+ i.tag
  boxed : ∀ b, Live.builder b ∈ S → H b ≠ none → s.owner = some b
  unused : s.unused = true → s.loc.items = [] ∧ s.owner = none
  nodup : (S.map lid).Nodup
  next : ∀ x ∈ S, lid x < next

variable {S R : List Live} {x : Live} {next : Nat} {H : Nat → Option Tag} {s : St} {f : Tag}

theorem Core.ne (h : Core (x :: R) next H s) : ∀ y ∈ R, lid y ≠ lid x := by
  intro y hy e
  have := h.nodup
  rw [List.map_cons, List.nodup_cons] at this
  exact this.1 (List.mem_map.2 ⟨y, hy, e⟩)

/-- The references of everything alive are ancestors of `f`. -/
def Above (S : List Live) (H : Nat → Option Tag) (s : St) (f : Tag) : Prop := ∀ y ∈ S, ∀ ρ, s.root (lid y) = some ρ ∨ H (lid y) = some ρ → ρ <:+ f

theorem Core.change (h : Core S next H s) {l' : Loc} {vs : Nat → List Item} (h0 : ∃ f, Upd f s.loc l')
    (h1 : ∀ y ∈ S, ∀ ρ, s.root (lid y) = some ρ ∨ H (lid y) = some ρ → ∃ f, Upd f s.loc l' ∧ ρ <:+ f) (hco : CallsOk l') (hn : s.loc.items = [] → l'.items = [])
    (hv0 : ∀ y ∈ S, s.root (lid y) = none → vs (lid y) = []) (hv1 : ∀ y ∈ S, ∀ ρ, s.root (lid y) = some ρ → vs (lid y) = below ρ l'.items) :
    Core S next H { s with loc := l', views := vs } := by
  obtain ⟨f0, u0⟩ := h0
  have keep : ∀ ρ, (∃ i ∈ s.loc.items, i.tag = ρ) → ∃ i ∈ l'.items, i.tag = ρ := by
    rintro ρ ⟨i, hi, rfl⟩
    obtain ⟨i', hi', e, -⟩ := u0.keep i hi
    exact ⟨i', hi', e⟩
  refine ⟨u0.ub, fun hne => ?_, u0.fresh, hco, hv0, fun y hy ρ hρ => ⟨hv1 y hy ρ hρ, keep ρ (h.vsome y hy ρ hρ).2⟩, fun y hy ρ hρ => ?_, fun y hy ρ hρ i' hi' hp => ?_, fun y hy k hk => ?_, h.nest, fun o ho => ?_,
    h.boxed, fun hu => ⟨hn (h.unused hu).1, (h.unused hu).2⟩, h.nodup, h.next⟩
  · rw [u0.live]; exact h.live fun e => hne (hn e)
  · obtain ⟨f, u, hf⟩ := h1 y hy ρ (.inl hρ)
    exact (h.cond y hy ρ hρ).upd u hf (h.vsome y hy ρ hρ).2 h.fresh
  · rcases u0.old i' hi' with ⟨-, k, -⟩ | ⟨i, hi, e⟩
    · exact absurd hp k
    · rw [e.tag]
      exact h.zero y hy ρ hρ i hi (by rw [← e.prot, hp])
  · obtain ⟨k1, k2, k3⟩ := h.hand y hy k hk
    refine ⟨keep k k1, k2, fun i' hi' hs => ?_⟩
    obtain ⟨f, u, hf⟩ := h1 y hy k (.inr hk)
    obtain ⟨i, hi, e⟩ := u.before k1 h.fresh hi' hs
    rw [e.tag] at hs
    exact e.ok (hs.trans hf) (k3 i hi hs)
  · obtain ⟨⟨y, hy, rfl⟩, ρ, hρ, hi⟩ := h.own o ho
    refine ⟨⟨y, hy, rfl⟩, ρ, hρ, fun i' hi' => ?_⟩
    obtain ⟨f, u, hf⟩ := h1 y hy ρ (.inl hρ)
    rcases u.old i' hi' with ⟨k, -⟩ | ⟨i, hi', e⟩
    · exact hf.trans k
    · rw [e.tag]; exact hi i hi'

theorem Core.view (h : Core S next H s) {y : Live} (hy : y ∈ S) {ρ : Tag} (hρ : s.root (lid y) = some ρ) : s.view (s.views (lid y)) = V ρ s.loc := by
  rw [(h.vsome y hy ρ hρ).1]; rfl

theorem Core.act (h : Core S next H s) {a : Acc} (h0 : ∃ f, Via f s.loc a) (h1 : ∀ y ∈ S, ∀ ρ, s.root (lid y) = some ρ ∨ H (lid y) = some ρ → ∃ f, Via f s.loc a ∧ ρ <:+ f)
    (hx : (s.loc.act a).ub = false) (hco : CallsOk (s.loc.act a)) : Core S next H (s.act a) := by
  refine h.change ?_ ?_ hco (fun e => (act_nil e hx).1) ?_ ?_
  · obtain ⟨f, hf⟩ := h0
    exact ⟨f, .act hf h.fresh hx h.ub⟩
  · intro y hy ρ hρ
    obtain ⟨f, hf, k⟩ := h1 y hy ρ hρ
    exact ⟨f, .act hf h.fresh hx h.ub, k⟩
  · intro y hy hr
    have hv := h.vnone y hy hr
    split
    · exact hv
    · rename_i hn
      rw [hv] at hn ⊢
      exact (act_nil (l := s.view []) rfl (by simpa using hn)).1
  · intro y hy ρ hρ
    obtain ⟨f, hf, k⟩ := h1 y hy ρ (.inl hρ)
    have e := V.act hf k hx
    rw [h.view hy hρ, e, if_neg (by simp [V])]
    rfl

theorem CallsOk.enter {l : Loc} (h : CallsOk l) (hf : Fresh l) : CallsOk (l.act .enter) := by
  obtain ⟨us, e, h0⟩ := h
  refine ⟨l.call :: us, by simp [Loc.act, e], fun hm => ?_⟩
  rcases List.mem_cons.1 hm with hm | hm
  · have := hf.calls 0 (by rw [e]; simp)
    omega
  · exact h0 hm

theorem CallsOk.head {l : Loc} (h : CallsOk l) (hn : 2 ≤ l.calls.length) : ∃ c us, l.calls = c :: us ∧ c ≠ 0 ∧ ∃ us', us = us' ++ [0] ∧ 0 ∉ us' := by
  obtain ⟨us, e, h0⟩ := h
  cases us with
  | nil => rw [e] at hn; simp at hn
  | cons c us =>
    rw [List.mem_cons, not_or] at h0
    exact ⟨c, us ++ [0], by simp [e], fun e => h0.1 e.symm, us, rfl, h0.2⟩

theorem act_calls {l : Loc} {a : Acc} (h : (l.act a).ub = false) : (l.act a).calls = match a with
    | .enter => l.call :: l.calls
    | .leave => l.calls.drop 1
    | _ => l.calls := by
  have acc : ∀ {w t}, (l.access false w t).ub = false → (l.access false w t).calls = l.calls := fun {w t} h => by rw [(Loc.access_spec h).2.2.2]
  cases a with
  | read t => exact acc h
  | write t => exact acc h
  | enter => rfl
  | leave => exact leave_calls h
  | reborrow p t prot =>
    simp only [Loc.act] at h ⊢
    split at h
    · rename_i hc
      rw [if_pos hc]
      exact acc (show (l.access false false t).ub = false from h)
    · rename_i hc
      rw [if_neg hc]
      split at h
      · rename_i hc2
        rw [if_pos hc2]
        rfl
      · simp [Loc.bad] at h

theorem CallsOk.act {l : Loc} (h : CallsOk l) (hf : Fresh l) (hn : 2 ≤ l.calls.length) {a : Acc} (hx : (l.act a).ub = false) : CallsOk (l.act a) := by
  have e := act_calls hx
  cases a with
  | enter => exact h.enter hf
  | leave =>
    obtain ⟨c, us, e1, -, us', e2, h0⟩ := h.head hn
    exact ⟨us', by rw [e]; simp only; rw [e1, e2]; rfl, h0⟩
  | read t => obtain ⟨us, e1, h0⟩ := h; exact ⟨us, by rw [e]; exact e1, h0⟩
  | write t => obtain ⟨us, e1, h0⟩ := h; exact ⟨us, by rw [e]; exact e1, h0⟩
  | reborrow p t prot => obtain ⟨us, e1, h0⟩ := h; exact ⟨us, by rw [e]; exact e1, h0⟩

/-! ## Safe code -/

/-- A method runs: `f` is what it can use. -/
structure Focus (S : List Live) (next : Nat) (H : Nat → Option Tag) (f : Tag) (s : St) : Prop where
  core : Core S next H s
  foc : Foc f s.loc
  above : Above S H s f

/-- A method runs that can use nothing. -/
structure Blind (S : List Live) (next : Nat) (H : Nat → Option Tag) (s : St) : Prop where
  core : Core S next H s
  free : ∀ i ∈ s.loc.items, ∀ c ∈ s.loc.calls, c ≠ 0 → i.prot ≠ some c

theorem Foc.live {l : Loc} (o : Foc f l) (h : l.items ≠ [] → l.live = true) : l.live = true := by
  obtain ⟨i, hi, -⟩ := o.has
  exact h (List.ne_nil_of_mem hi)

theorem Focus.act (h : Focus S next H f s) (hn : 2 ≤ s.loc.calls.length) {a : Acc} (hv : ((V f s.loc).act a).ub = false) : Focus S next H f (s.act a) ∧ (s.loc.act a).ub = false := by
  have hc := h.core
  obtain ⟨c, us, e1, e2, -⟩ := hc.co.head hn
  obtain ⟨h1, h2⟩ := h.foc.act (h.foc.live hc.live) hc.ub hc.fresh ⟨c, us, e1, e2⟩ hv
  exact ⟨⟨hc.act ⟨f, h2⟩ (fun y hy ρ hρ => ⟨f, h2, h.above y hy ρ hρ⟩) h1 (hc.co.act hc.fresh hn h1), h.foc.upd (.act h2 hc.fresh h1 hc.ub) hc.fresh, h.above⟩, h1⟩

theorem Blind.act (h : Blind S next H s) (hn : 2 ≤ s.loc.calls.length) {a : Acc} (hv : ((s.view []).act a).ub = false) : Blind S next H (s.act a) ∧ (s.loc.act a).ub = false := by
  have hc := h.core
  obtain ⟨c, us, e1, e2, -⟩ := hc.co.head hn
  obtain ⟨-, ha⟩ := act_nil (l := s.view []) rfl hv
  have hx : (s.loc.act a).ub = false ∧ (s.loc.act a).items = s.loc.items ∧ ∀ f, Via f s.loc a := by
    rcases ha with rfl | rfl
    · exact ⟨hc.ub, rfl, fun f => by have := hc.fresh.calls c (by rw [e1]; simp); simp only [Via]; omega⟩
    · have hp : ∀ i ∈ s.loc.items, i.prot ≠ some c := fun i hi => h.free i hi c (by rw [e1]; simp) e2
      have e3 : s.loc.items.filter (·.prot == some c) = [] := by
        rw [List.filter_eq_nil_iff]
        intro i hi
        simpa using hp i hi
      refine ⟨?_, ?_, fun f => ⟨c, us, e1, fun i hi e => absurd e (hp i hi)⟩⟩
      · simp only [Loc.act]
        rw [e1]
        simp only [e3, List.foldl_nil]
        exact hc.ub
      · simp only [Loc.act]
        rw [e1]
        simp only [e3, List.foldl_nil]
  obtain ⟨h1, h2, h3⟩ := hx
  refine ⟨⟨hc.act ⟨[], h3 _⟩ (fun y _ ρ _ => ⟨ρ, h3 ρ, List.suffix_refl _⟩) h1 (hc.co.act hc.fresh hn h1), fun i hi x hx h0 hp => ?_⟩, h1⟩
  have hi' : i ∈ s.loc.items := by rw [← h2]; exact hi
  rcases (Upd.act (f := []) (h3 []) hc.fresh h1 hc.ub).calls x hx with k | k
  · exact h.free i hi' x k h0 hp
  · have := hc.fresh.prots i hi' x hp
    omega

/-- A method of `x` runs. -/
def Mode (x : Live) (R : List Live) (next : Nat) (H : Nat → Option Tag) : Option Tag → St → Prop
  | some t, s => Focus (x :: R) next H t s
  | none, s => H (lid x) = none ∧ match s.root (lid x) with
    | some ρ => Focus (x :: R) next H ρ s
    | none => Blind (x :: R) next H s

theorem Mode.core {arg : Option Tag} (h : Mode x R next H arg s) : Core (x :: R) next H s := by
  cases arg with
  | some t => exact Focus.core h
  | none =>
    obtain ⟨-, h⟩ := h
    split at h
    · exact h.core
    · exact h.core

theorem Focus.mine {t : Tag} (h : Focus (x :: R) next H t s) (hr : s.root (lid x) ≠ none) : s.view (s.mine (lid x) (some t)) = V t s.loc := by
  obtain ⟨ρ, hρ⟩ := Option.ne_none_iff_exists'.1 hr
  have hx : x ∈ x :: R := List.mem_cons_self ..
  simp only [St.mine]
  rw [(h.core.vsome x hx ρ hρ).1, below_below (h.above x hx ρ (.inl hρ))]
  rfl

/-- `x` can use what is derived from its argument only if it can use something. -/
def Rooted (x : Live) (arg : Option Tag) (s : St) : Prop := arg ≠ none → s.root (lid x) ≠ none

theorem Mode.act {arg : Option Tag} (h : Mode x R next H arg s) (hr : Rooted x arg s) (hn : 2 ≤ s.loc.calls.length) {a : Acc} (hv : ((s.view (s.mine (lid x) arg)).act a).ub = false) :
    Mode x R next H arg (s.act a) ∧ (s.loc.act a).ub = false := by
  cases arg with
  | some t =>
    have hf : Focus (x :: R) next H t s := h
    rw [hf.mine (hr (by simp))] at hv
    exact hf.act hn hv
  | none =>
    obtain ⟨h1, h2⟩ := h
    have hx : x ∈ x :: R := List.mem_cons_self ..
    show (_ ∧ match s.root (lid x) with | some ρ => Focus (x :: R) next H ρ (s.act a) | none => Blind (x :: R) next H (s.act a)) ∧ _
    revert h2
    cases hρ : s.root (lid x) with
    | some ρ =>
      intro h2
      rw [show s.mine (lid x) none = s.views (lid x) from rfl, h2.core.view hx hρ] at hv
      obtain ⟨k1, k2⟩ := h2.act hn hv
      exact ⟨⟨h1, k1⟩, k2⟩
    | none =>
      intro h2
      rw [show s.mine (lid x) none = s.views (lid x) from rfl, h2.core.vnone x hx hρ] at hv
      obtain ⟨k1, k2⟩ := h2.act hn hv
      exact ⟨⟨h1, k1⟩, k2⟩

/-- The view of a method is part of the tree. -/
theorem Mode.mine_sub {arg : Option Tag} (h : Mode x R next H arg s) (hr : Rooted x arg s) : ∀ i ∈ s.mine (lid x) arg, i ∈ s.loc.items := by
  intro i hi
  have hx : x ∈ x :: R := List.mem_cons_self ..
  cases arg with
  | some t =>
    have e : s.mine (lid x) (some t) = below t s.loc.items := congrArg Loc.items (Focus.mine h (hr (by simp)))
    rw [e] at hi
    exact (mem_below.1 hi).1
  | none =>
    cases hρ : s.root (lid x) with
    | none =>
      have : s.views (lid x) = [] := h.core.vnone x hx hρ
      simp only [St.mine, this] at hi
      cases hi
    | some ρ =>
      simp only [St.mine, (h.core.vsome x hx ρ hρ).1] at hi
      exact (mem_below.1 hi).1


/-- The return of the calls. -/
theorem Mode.returns {arg : Option Tag} : ∀ (n : Nat) {s : St}, Mode x R next H arg s → Rooted x arg s → Good s.loc → s.loc.calls.length = n + 1 →
    Core (x :: R) next H (s.returns n) ∧ (s.returns n).loc.calls.length = 1 ∧ (s.returns n).root = s.root ∧ (s.returns n).owner = s.owner ∧
      (s.returns n).handle = s.handle ∧ ∀ f, Mode x R next H (some f) s → arg = some f → Focus (x :: R) next H f (s.returns n)
  | 0, s, h, _, _, e => ⟨h.core, e, rfl, rfl, rfl, fun f h' _ => h'⟩
  | n + 1, s, h, hr, hg, e => by
    simp only [St.returns]
    have hm := h.mine_sub hr
    have hv : ((s.view (s.mine (lid x) arg)).act .leave).ub = false :=
      (Sound.leave (l := s.view (s.mine (lid x) arg)) (hg.sound.sub hm true false) (fun _ => rfl) rfl (by show s.loc.calls ≠ []; intro h; rw [h] at e; simp at e)).1
    obtain ⟨k1, k2⟩ := h.act hr (by omega) hv
    have e2 : (s.act .leave).loc.calls.length = n + 1 := by
      show (s.loc.act .leave).calls.length = _
      rw [leave_calls k2]; simp [e]
    have k := Mode.returns n k1 hr (hg.act k2) e2
    exact ⟨k.1, k.2.1, k.2.2.1, k.2.2.2.1, k.2.2.2.2.1, fun f h' e' => k.2.2.2.2.2 f (by subst e'; exact k1) e'⟩

theorem alloc_core (h : Core (x :: R) next H s) (hu : s.unused = true) : Core (x :: R) next H (s.alloc (lid x)) ∧ Foc [s.loc.next] (s.alloc (lid x)).loc ∧ ∀ y ∈ x :: R, H (lid y) = none := by
  have hi := (h.unused hu).1
  have hroot : ∀ y ∈ x :: R, s.root (lid y) = none := by
    intro y hy
    cases e : s.root (lid y) with
    | none => rfl
    | some ρ =>
      obtain ⟨-, i, hi', -⟩ := h.vsome y hy ρ e
      rw [hi] at hi'
      exact (List.not_mem_nil hi').elim
  have hH : ∀ y ∈ x :: R, H (lid y) = none := by
    intro y hy
    cases e : H (lid y) with
    | none => rfl
    | some k =>
      obtain ⟨⟨i, hi', -⟩, -⟩ := h.hand y hy k e
      rw [hi] at hi'
      exact (List.not_mem_nil hi').elim
  have r1 : ∀ y ∈ x :: R, ∀ ρ, (s.alloc (lid x)).root (lid y) = some ρ → lid y = lid x ∧ ρ = [s.loc.next] := by
    intro y hy ρ hρ
    by_cases e : lid y = lid x
    · refine ⟨e, ?_⟩
      rw [e] at hρ
      simpa [St.alloc, upd, eq_comm] using hρ
    · simp only [St.alloc, upd_ne _ _ e, hroot y hy] at hρ
      cases hρ
  have hx : x ∈ x :: R := List.mem_cons_self ..
  refine ⟨⟨h.ub, fun _ => rfl, ⟨?_, ?_, h.fresh.calls⟩, h.co, ?_, ?_, ?_, ?_, ?_, ?_, ?_, ?_, ?_, h.nodup, h.next⟩, ⟨⟨_, List.mem_singleton.2 rfl, rfl⟩, .inl ?_, ?_, ?_⟩, hH⟩
  · intro i hi
    obtain rfl := List.mem_singleton.1 hi
    simp [St.alloc]
  · intro i hi c e
    obtain rfl := List.mem_singleton.1 hi
    cases e
  · intro y hy hr
    by_cases e : lid y = lid x
    · rw [e] at hr
      simp [St.alloc, upd] at hr
    · simp only [St.alloc, upd_ne _ _ e]
      exact h.vnone y hy (hroot y hy)
  · intro y hy ρ hρ
    obtain ⟨e, rfl⟩ := r1 y hy ρ hρ
    refine ⟨?_, _, List.mem_singleton.2 rfl, rfl⟩
    rw [e]
    simp [St.alloc, upd, below]
  · intro y hy ρ hρ
    obtain ⟨e, rfl⟩ := r1 y hy ρ hρ
    refine .inl fun i hi _ k => ?_
    obtain rfl := List.mem_singleton.1 hi
    exact absurd rfl k
  · intro y hy ρ hρ i hi hp
    obtain rfl := List.mem_singleton.1 hi
    cases hp
  · intro y hy k hk
    rw [hH y hy] at hk
    cases hk
  · refine List.pairwise_cons.2 ⟨fun y hy ρ _ => ⟨fun ρ' hρ' => absurd (r1 y (List.mem_cons_of_mem _ hy) ρ' hρ').1 (h.ne y hy), fun k hk => ?_⟩, (List.pairwise_cons.1 h.nest).2.imp_of_mem fun {a b} ha hb _ ρ hρ => ?_⟩
    · rw [hH y (List.mem_cons_of_mem _ hy)] at hk
      cases hk
    · exact absurd (r1 a (List.mem_cons_of_mem _ ha) ρ hρ).1 (h.ne a ha)
  · intro o ho
    obtain rfl : lid x = o := by simpa [St.alloc] using ho
    refine ⟨⟨x, hx, rfl⟩, _, upd_self .., fun i hi => ?_⟩
    obtain rfl := List.mem_singleton.1 hi
    exact List.suffix_refl _
  · intro b hb hk
    exact absurd (hH _ hb) hk
  · intro hu'
    cases hu'
  · intro i hi _ k
    obtain rfl := List.mem_singleton.1 hi
    exact absurd rfl k
  · intro i hi k
    obtain rfl := List.mem_singleton.1 hi
    exact absurd (List.suffix_refl _) k
  · intro i hi k
    obtain rfl := List.mem_singleton.1 hi
    exact absurd (List.suffix_refl _) k

theorem free_spec {l : Loc} {t : Tag} (h : (l.free t).ub = false) :
    (l.access false true t).ub = false ∧ (∀ i ∈ (l.access false true t).items, i.guarded l.calls = false) ∧ l.free t = { l with items := [], live := false } := by
  simp only [Loc.free] at h ⊢
  split at h
  · simp [Loc.bad] at h
  · rename_i hg
    have h' : (l.access false true t).ub = false := h
    rw [if_neg hg]
    have e := (Loc.access_spec h').2.2.2
    refine ⟨h', fun i hi => ?_, ?_⟩
    · have k := List.any_eq_false.1 (Bool.eq_false_iff.2 hg) i hi
      have ec : (l.access false true t).calls = l.calls := by rw [e]
      rw [ec] at k
      exact Bool.eq_false_iff.2 k
    · rw [e]

/-- The memory is freed by its owner. -/
theorem Core.freed (h : Core (x :: R) next H s) {t ρ : Tag} (hρ : s.root (lid x) = some ρ) (ht : ρ <:+ t) (hm : ∃ i ∈ s.loc.items, i.tag = t) (ho : s.owner = some (lid x)) (hf : (s.loc.free t).ub = false)
    {H' : Nat → Option Tag} (hx : H' (lid x) = none) (hy : ∀ y ∈ R, H' (lid y) = H (lid y)) :
    Core (x :: R) next H' { s.free t with owner := none } ∧ (s.free t).loc.calls = s.loc.calls ∧ (s.free t).loc.items = [] ∧ ∀ y ∈ x :: R, (s.free t).root (lid y) = none := by
  obtain ⟨-, -, e⟩ := free_spec hf
  have el : (s.free t).loc = { s.loc with items := [], live := false } := e
  obtain ⟨n1, -⟩ := List.pairwise_cons.1 h.nest
  have hxm : x ∈ x :: R := List.mem_cons_self ..
  have root_le : ∀ y ∈ x :: R, ∀ ρ', s.root (lid y) = some ρ' → ρ' <:+ ρ := by
    intro y hy' ρ' e
    rcases List.mem_cons.1 hy' with rfl | hy'
    · rw [hρ] at e
      obtain rfl := Option.some.inj e
      exact List.suffix_refl _
    · exact (n1 y hy' ρ hρ).1 ρ' e
  have any : ∀ y ∈ x :: R, ∀ ρ', s.root (lid y) = some ρ' → (s.views (lid y)).any (·.tag == t) = true := by
    intro y hy' ρ' e
    obtain ⟨i, hi, e'⟩ := hm
    rw [(h.vsome y hy' ρ' e).1, List.any_eq_true]
    exact ⟨i, mem_below.2 ⟨hi, by rw [e']; exact (root_le y hy' ρ' e).trans ht⟩, by simpa using e'⟩
  have r0 : ∀ y ∈ x :: R, (s.free t).root (lid y) = none := by
    intro y hy'
    simp only [St.free]
    split
    · rfl
    · rename_i hn
      cases e : s.root (lid y) with
      | none => rfl
      | some ρ' => exact absurd (any y hy' ρ' e) hn
  have v0 : ∀ y ∈ x :: R, (s.free t).views (lid y) = [] := by
    intro y hy'
    simp only [St.free]
    split
    · rfl
    · rename_i hn
      cases e : s.root (lid y) with
      | none => exact h.vnone y hy' e
      | some ρ' => exact absurd (any y hy' ρ' e) hn
  have hH : ∀ y ∈ x :: R, H' (lid y) = none := by
    intro y hy'
    rcases List.mem_cons.1 hy' with rfl | hy'
    · exact hx
    · rw [hy y hy']
      cases e : H (lid y) with
      | none => rfl
      | some k =>
        obtain ⟨⟨i, hi, e1⟩, -⟩ := h.hand y (List.mem_cons_of_mem _ hy') k e
        obtain ⟨k1, k2⟩ := (n1 y hy' ρ hρ).2 k e
        obtain ⟨-, ρ1, e2, k3⟩ := h.own _ ho
        rw [hρ] at e2
        obtain rfl := Option.some.inj e2
        have := k3 i hi
        rw [e1] at this
        exact absurd (eq_of_suffix k1 this) k2
  refine ⟨⟨?_, ?_, ?_, ?_, fun y hy' _ => v0 y hy', ?_, ?_, ?_, ?_, ?_, ?_, ?_, ?_, h.nodup, h.next⟩, by rw [el], by rw [el], r0⟩
  · show (s.free t).loc.ub = false
    rw [el]; exact h.ub
  · show (s.free t).loc.items ≠ [] → _
    rw [el]; exact fun k => absurd rfl k
  · show Fresh (s.free t).loc
    rw [el]; exact ⟨fun i hi => (List.not_mem_nil hi).elim, fun i hi => (List.not_mem_nil hi).elim, h.fresh.calls⟩
  · show CallsOk (s.free t).loc
    rw [el]; exact h.co
  · intro y hy' ρ' e
    have e : (s.free t).root (lid y) = some ρ' := e
    rw [r0 y hy'] at e; cases e
  · intro y hy' ρ' e
    have e : (s.free t).root (lid y) = some ρ' := e
    rw [r0 y hy'] at e; cases e
  · intro y hy' ρ' e
    have e : (s.free t).root (lid y) = some ρ' := e
    rw [r0 y hy'] at e; cases e
  · intro y hy' k hk
    rw [hH y hy'] at hk; cases hk
  · refine h.nest.imp_of_mem fun {a b} ha _ _ ρ' e => ?_
    have e : (s.free t).root (lid a) = some ρ' := e
    rw [r0 a ha] at e; cases e
  · intro o e; cases e
  · intro b hb hk
    exact absurd (hH _ hb) hk
  · intro _
    exact ⟨by show (s.free t).loc.items = []; rw [el], rfl⟩

theorem Mode.step {arg : Option Tag} (h : Mode x R next H arg s) (hr : Rooted x arg s) (hn : 2 ≤ s.loc.calls.length) (u : UAct) :
    Mode x R next H arg (s.step (lid x) arg u) ∧ Rooted x arg (s.step (lid x) arg u) ∧ 2 ≤ (s.step (lid x) arg u).loc.calls.length ∧ (s.step (lid x) arg u).handle = s.handle ∧
      (arg ≠ none → (s.step (lid x) arg u).owner = s.owner) := by
  have same : Mode x R next H arg s ∧ Rooted x arg s ∧ 2 ≤ s.loc.calls.length ∧ s.handle = s.handle ∧ (arg ≠ none → s.owner = s.owner) := ⟨h, hr, hn, rfl, fun _ => rfl⟩
  have hxm : x ∈ x :: R := List.mem_cons_self ..
  unfold St.step
  cases u with
  | acc a =>
    simp only
    split
    · exact same
    · rename_i hc
      rw [Bool.or_eq_true, not_or] at hc
      have hv := Bool.eq_false_iff.2 hc.1
      obtain ⟨k1, k2⟩ := h.act hr hn hv
      refine ⟨k1, hr, ?_, rfl, fun _ => rfl⟩
      show 2 ≤ (s.loc.act a).calls.length
      rw [act_calls k2]
      cases a with
      | enter => simp; omega
      | leave =>
        have := hc.2
        simp at this
        simp only [List.length_drop]
        omega
      | read | write | reborrow => exact hn
  | alloc =>
    simp only
    split
    · rename_i hu
      have hc := h.core
      obtain ⟨k1, k2, k3⟩ := alloc_core hc hu
      cases arg with
      | some t =>
        have hf : Focus (x :: R) next H t s := h
        obtain ⟨i, hi, -⟩ := hf.foc.has
        rw [(hc.unused hu).1] at hi
        exact (List.not_mem_nil hi).elim
      | none =>
        refine ⟨⟨k3 x hxm, ?_⟩, fun e => absurd rfl e, hn, rfl, fun e => absurd rfl e⟩
        rw [show (s.alloc (lid x)).root (lid x) = some [s.loc.next] from upd_self ..]
        refine ⟨k1, k2, fun y hy ρ hρ => ?_⟩
        rcases hρ with hρ | hρ
        · rcases List.mem_cons.1 hy with rfl | hy
          · rw [show (s.alloc (lid y)).root (lid y) = some [s.loc.next] from upd_self ..] at hρ
            obtain rfl := Option.some.inj hρ
            exact List.suffix_refl _
          · obtain ⟨-, i, hi, e⟩ := k1.vsome y (List.mem_cons_of_mem _ hy) ρ hρ
            obtain rfl := List.mem_singleton.1 hi
            rw [← e]; exact List.suffix_refl _
        · rw [k3 y hy] at hρ; cases hρ
    · exact same
  | free t =>
    simp only
    split
    · rename_i hc
      simp only [Bool.and_eq_true, decide_eq_true_eq, Option.isNone_iff_eq_none] at hc
      obtain ⟨⟨ho, rfl⟩, hv⟩ := hc
      have hv : ((s.view (s.mine (lid x) none)).free t).ub = false := by simpa using hv
      obtain ⟨hH, hm⟩ := h
      obtain ⟨-, ρ, hρ, hown⟩ := (Mode.core (arg := none) ⟨hH, hm⟩).own _ ho
      rw [hρ] at hm
      have hm : Focus (x :: R) next H ρ s := hm
      have hc := hm.core
      rw [show s.mine (lid x) none = s.views (lid x) from rfl, hc.view hxm hρ] at hv
      obtain ⟨v1, v2, -⟩ := free_spec hv
      obtain ⟨f1, f2⟩ := hm.foc.access (hm.foc.live hc.live) v1
      have f1 := f1.trans hc.ub
      have hfree : (s.loc.free t).ub = false := by
        simp only [Loc.free]
        have e := (Loc.access_spec f1).2.2.2
        rw [if_neg]
        · exact f1
        · rw [Bool.not_eq_true, List.any_eq_false]
          intro i hi
          rw [V.access f2 f1] at v2
          have : i ∈ below ρ (s.loc.access false true t).items := by
            refine mem_below.2 ⟨hi, ?_⟩
            rw [e] at hi
            obtain ⟨j, hj, rfl⟩ := List.mem_map.1 hi
            exact hown j hj
          have := v2 i this
          rw [show (s.loc.access false true t).calls = s.loc.calls by rw [e], Bool.not_eq_true]
          exact this
      obtain ⟨i, hi, e1⟩ := (Loc.has_iff.1 (Loc.access_spec f1).2.1).2
      obtain ⟨k1, k2, k3, k4⟩ := hc.freed hρ f2 ⟨i, hi, e1⟩ ho hfree hH fun _ _ => rfl
      refine ⟨⟨hH, ?_⟩, fun e => absurd rfl e, by show 2 ≤ (s.free t).loc.calls.length; rw [k2]; exact hn, rfl, fun e => absurd rfl e⟩
      rw [show ({ s.free t with owner := none } : St).root (lid x) = none from k4 x hxm]
      exact ⟨k1, fun i hi => by
        have hi : i ∈ (s.free t).loc.items := hi
        rw [k3] at hi
        exact (List.not_mem_nil hi).elim⟩
    · exact same

theorem Mode.steps {arg : Option Tag} : ∀ (us : List UAct) {s : St}, Mode x R next H arg s → Rooted x arg s → 2 ≤ s.loc.calls.length →
    Mode x R next H arg (us.foldl (St.step (lid x) arg) s) ∧ Rooted x arg (us.foldl (St.step (lid x) arg) s) ∧ 2 ≤ (us.foldl (St.step (lid x) arg) s).loc.calls.length ∧
      (us.foldl (St.step (lid x) arg) s).handle = s.handle ∧ (arg ≠ none → (us.foldl (St.step (lid x) arg) s).owner = s.owner)
  | [], s, h, hr, hn => ⟨h, hr, hn, rfl, fun _ => rfl⟩
  | u :: us, s, h, hr, hn => by
    obtain ⟨h1, h2, h3, h4, h5⟩ := h.step hr hn u
    obtain ⟨k1, k2, k3, k4, k5⟩ := Mode.steps us h1 h2 h3
    exact ⟨k1, k2, k3, k4.trans h4, fun e => (k5 e).trans (h5 e)⟩

/-- A method runs, to its end. -/
theorem Mode.user {arg : Option Tag} (h : Mode x R next H arg s) (hr : Rooted x arg s) (hg : Good s.loc) (hn : 2 ≤ s.loc.calls.length) (us : List UAct) :
    Core (x :: R) next H (s.user (lid x) arg us) ∧ (s.user (lid x) arg us).loc.calls.length = 1 ∧ (s.user (lid x) arg us).handle = s.handle ∧
      (arg ≠ none → (s.user (lid x) arg us).owner = s.owner) := by
  obtain ⟨k1, k2, k3, k4, k5⟩ := h.steps us hr hn
  have hg' := (reach_steps (lid x) arg us s).good hg k1.core.ub
  simp only [St.user]
  generalize us.foldl (St.step (lid x) arg) s = s' at *
  obtain ⟨j1, j2, j3, j4, j5, -⟩ := k1.returns (s'.loc.calls.length - 1) k2 hg' (by omega)
  exact ⟨j1, j2, j5.trans k4, fun e => j4.trans (k5 e)⟩

/-! ## The driver and the library -/

/-- The fields that operations at the location leave alone. -/
structure Same (s0 s : St) : Prop where
  root : s.root = s0.root
  handle : s.handle = s0.handle
  owner : s.owner = s0.owner
  kid : s.kid = s0.kid
  par : s.par = s0.par

theorem Same.refl (s : St) : Same s s := ⟨rfl, rfl, rfl, rfl, rfl⟩

theorem Same.trans {s0 s1 s2 : St} (h : Same s0 s1) (k : Same s1 s2) : Same s0 s2 :=
  ⟨k.root.trans h.root, k.handle.trans h.handle, k.owner.trans h.owner, k.kid.trans h.kid, k.par.trans h.par⟩

/-- The driver or library has reference `t`, which it made from `h`; `d`: how many calls deep. -/
structure Lib (x : Live) (R : List Live) (next : Nat) (H : Nat → Option Tag) (h : Tag) (s0 : St) (s : St) (t : Tag) (d : Nat) : Prop where
  core : Core (x :: R) next H s
  opn : Open h s.loc t
  above : Above (x :: R) H s h
  prots : ∀ i ∈ s.loc.items, ∀ c ∈ s.loc.calls, c ≠ 0 → i.prot = some c → h <:+ i.tag
  len : s.loc.calls.length = d + 1
  same : Same s0 s

variable {h t : Tag} {s0 : St} {d : Nat}

theorem CallsOk.one {l : Loc} (h : CallsOk l) (e : l.calls.length = 1) : l.calls = [0] := by
  obtain ⟨us, e1, -⟩ := h
  cases us with
  | nil => exact e1
  | cons c us => rw [e1] at e; simp at e

theorem Core.unguarded (k : Core S next H s) (hc : s.loc.calls.length = 1) {y : Live} (hy : y ∈ S) {ρ : Tag} (hρ : s.root (lid y) = some ρ) {i : Item} (hi : i ∈ s.loc.items) (hg : i.guarded s.loc.calls = true) : i.tag <:+ ρ ∧ i.tag ≠ ρ := by
  obtain ⟨c, hc', e⟩ := guarded_iff.1 hg
  rw [k.co.one hc, List.mem_singleton] at hc'
  subst hc'
  exact k.zero y hy ρ hρ i hi e

theorem Lib.start (k : Core (x :: R) next H s) (hc : s.loc.calls.length = 1) (ha : Above (x :: R) H s h) {ρ : Tag} (hρ : s.root (lid x) = some ρ) (hm : ∃ i ∈ s.loc.items, i.tag = h)
    (hp : ∀ i ∈ s.loc.items, i.tag <:+ h → i.perm.ok (i.guarded s.loc.calls)) : Lib x R next H h s s h 0 := by
  have hx : x ∈ x :: R := List.mem_cons_self ..
  refine ⟨k, ⟨?_, k.ub, k.fresh, hm, hm, List.suffix_refl _, hp, fun i hi n => ?_⟩, ha, fun i _ c hc' h0 _ => ?_, hc, .refl s⟩
  · obtain ⟨i, hi, -⟩ := hm
    exact k.live (List.ne_nil_of_mem hi)
  · cases hg : i.guarded s.loc.calls with
    | false => rfl
    | true => exact absurd ((k.unguarded hc hx hρ hi hg).1.trans (ha x hx ρ (.inl hρ))) n
  · rw [k.co.one hc, List.mem_singleton] at hc'
    exact absurd hc' h0

theorem Lib.via (o : Lib x R next H h s0 s t d) {a : Acc} (hv : Via h s.loc a) {t' : Tag} {d' : Nat} (ho : Open h (s.loc.act a) t') (hco : CallsOk (s.loc.act a)) (hl : (s.loc.act a).calls.length = d' + 1) :
    Lib x R next H h s0 (s.act a) t' d' := by
  have u : Upd h s.loc (s.loc.act a) := .act hv o.core.fresh ho.ub o.core.ub
  refine ⟨o.core.act ⟨h, hv⟩ (fun y hy ρ hρ => ⟨h, hv, o.above y hy ρ hρ⟩) ho.ub hco, ho, o.above, fun i hi c hc h0 hp => ?_, hl, ⟨o.same.root, o.same.handle, o.same.owner, o.same.kid, o.same.par⟩⟩
  rcases u.old i hi with ⟨k, -⟩ | ⟨j, hj, e⟩
  · exact k
  · rw [e.tag]
    exact o.prots j hj c (u.guarded o.core.fresh hj e.prot hc hp) h0 (by rw [← e.prot, hp])

theorem Lib.reb (o : Lib x R next H h s0 s t d) {prot : Bool} (hd : prot = true → 1 ≤ d) : Lib x R next H h s0 (s.reb t prot).1 (s.reb t prot).2 d := by
  obtain ⟨h1, h2, -, -⟩ := o.opn.reborrow (p := s.loc.mutPerm) rfl prot
  refine o.via (a := .reborrow s.loc.mutPerm t prot) ⟨o.opn.le, fun hp c hc => ?_⟩ h1 ?_ (by rw [h2]; exact o.len)
  · obtain ⟨c', us, e, e', -⟩ := o.core.co.head (by have := hd hp; have := o.len; omega)
    rw [e] at hc
    obtain rfl : c' = c := by simpa using hc
    exact e'
  · obtain ⟨us, e, e'⟩ := o.core.co
    exact ⟨us, h2.trans e, e'⟩

theorem Lib.enter (o : Lib x R next H h s0 s t d) : Lib x R next H h s0 (s.act .enter) t (d + 1) := by
  obtain ⟨h1, h2, -⟩ := o.opn.enter
  refine o.via ?_ h1 (o.core.co.enter o.core.fresh) (by rw [h2]; simp [o.len])
  obtain ⟨us, e, -⟩ := o.core.co
  have := o.core.fresh.calls 0 (by rw [e]; simp)
  simp only [Via]; omega

theorem Lib.leave (o : Lib x R next H h s0 s t (d + 1)) : Lib x R next H h s0 (s.act .leave) t d := by
  obtain ⟨c, us, e, e0, us', e1, e2⟩ := o.core.co.head (by have := o.len; omega)
  obtain ⟨h1, h2, -⟩ := o.opn.leave e
  refine o.via (a := .leave) ⟨c, us, e, fun i hi hp => o.prots i hi c (by rw [e]; simp) e0 hp⟩ h1 ⟨us', by rw [h2, e1], e2⟩ ?_
  have := o.len
  rw [e] at this
  rw [h2]
  simpa using this

/-- The argument of a method. -/
theorem Lib.arg (o : Lib x R next H h s0 s t 0) : Focus (x :: R) next H ((s.act .enter).reb t true).2 ((s.act .enter).reb t true).1 ∧ ((s.act .enter).reb t true).1.loc.calls.length = 2 ∧
    Same s0 ((s.act .enter).reb t true).1 := by
  have o1 := o.enter
  have o2 := o1.reb (prot := true) (fun _ => Nat.le_refl _)
  obtain ⟨-, h2, -, h4⟩ := o1.opn.reborrow (p := (s.act .enter).loc.mutPerm) rfl true
  refine ⟨⟨o2.core, ⟨o2.opn.has, .inl fun i hi hs _ => o2.opn.path i hi hs, fun i hi _ n => o2.opn.off i hi n, fun i hi n c hc h0 hp => ?_⟩, fun y hy ρ hρ => (o2.above y hy ρ hρ).trans o2.opn.le⟩, o2.len, o2.same⟩
  have hc : c ∈ (s.act .enter).loc.calls := by rw [← h2]; exact hc
  rcases h4 i hi with e | ⟨j, hj, e⟩
  · exact n (by rw [e]; exact List.suffix_refl _)
  · rw [hp] at e
    have hj : j ∈ s.loc.items := hj
    rcases List.mem_cons.1 (show c ∈ s.loc.call :: s.loc.calls from hc) with rfl | hc
    · have := o.core.fresh.prots j hj _ e.symm
      omega
    · rw [o.core.co.one o.len, List.mem_singleton] at hc
      exact h0 hc

theorem Lib.preVisitor (o : Lib x R next H h s0 s h 0) : Focus (x :: R) next H (St.preVisitor h s).2 (St.preVisitor h s).1 ∧ (St.preVisitor h s).1.loc.calls.length = 2 ∧ Same s0 (St.preVisitor h s).1 :=
  (o.reb (prot := false) (fun e => by cases e)).arg

theorem Lib.preBuilder (o : Lib x R next H h s0 s h 0) : Focus (x :: R) next H (St.preBuilder h s).2 (St.preBuilder h s).1 ∧ (St.preBuilder h s).1.loc.calls.length = 2 ∧ Same s0 (St.preBuilder h s).1 :=
  (((o.enter.enter.reb (prot := false) (fun e => by cases e)).leave.reb (prot := false) (fun e => by cases e)).leave.reb (prot := false) (fun e => by cases e)).arg

theorem Lib.preDrop (o : Lib x R next H h s0 s h 0) : Lib x R next H h s0 (St.preDrop h s).1 (St.preDrop h s).2 0 :=
  (o.enter.reb (prot := false) (fun e => by cases e)).leave.reb (prot := false) (fun e => by cases e)

theorem Lib.passStep (o : Lib x R next H h s0 s t d) (a : Bool) : Lib x R next H h s0 (St.passStep (s, t, d) a).1 (St.passStep (s, t, d) a).2.1 (St.passStep (s, t, d) a).2.2 := by
  cases a with
  | true => exact o.enter.reb (fun _ => by omega)
  | false =>
    cases d with
    | zero => exact o.reb (fun e => by cases e)
    | succ d => exact o.leave.reb (fun e => by cases e)

theorem Lib.passSteps : ∀ (way : List Bool) {s : St} {t : Tag} {d : Nat}, Lib x R next H h s0 s t d →
    Lib x R next H h s0 (way.foldl St.passStep (s, t, d)).1 (way.foldl St.passStep (s, t, d)).2.1 (way.foldl St.passStep (s, t, d)).2.2
  | [], _, _, _, o => o
  | a :: way, _, _, _, o => Lib.passSteps way (o.passStep a)

theorem passStep_end : ∀ (d : Nat) (s : St) (t : Tag), ((List.replicate d false).foldl St.passStep (s, t, d)).2.2 = 0
  | 0, _, _ => rfl
  | d + 1, _, _ => passStep_end d _ _

theorem Lib.pass (o : Lib x R next H h s0 s t 0) (way : List Bool) : Lib x R next H h s0 (s.pass way t).1 (s.pass way t).2 0 := by
  simp only [St.pass]
  have k := o.passSteps way
  generalize way.foldl St.passStep (s, t, 0) = p at *
  obtain ⟨s', t', d'⟩ := p
  have k2 := Lib.passSteps (List.replicate d' false) k
  rw [passStep_end] at k2
  exact k2

theorem Lib.convVisitor (o : Lib x R next H h s0 s h 0) (way : List Bool) : Lib x R next H h s0 (St.convVisitor way h s).1 (St.convVisitor way h s).2 0 :=
  ((((o.reb (prot := false) (fun e => by cases e)).pass way).enter).reb (fun _ => Nat.le_refl _)).leave

theorem Lib.convBuilder (o : Lib x R next H h s0 s h 0) (way : List Bool) : Lib x R next H h s0 (St.convBuilder way h s).1 (St.convBuilder way h s).2 0 :=
  ((((((o.reb (prot := false) (fun e => by cases e)).pass way).enter).reb (prot := true) (fun _ => Nat.le_refl _)).enter.reb (prot := true) (fun _ => by omega)).leave).leave

/-- The driver's pointers are ancestors of that to the innermost thing. -/
theorem Core.above (k : Core (x :: R) next H s) {ρ : Tag} (hρ : s.root (lid x) = some ρ) (hle : ρ <:+ h) (hH : ∀ k, H (lid x) = some k → k <:+ h) : Above (x :: R) H s h := by
  intro y hy ρ' hρ'
  obtain ⟨n1, -⟩ := List.pairwise_cons.1 k.nest
  rcases List.mem_cons.1 hy with rfl | hy
  · rcases hρ' with hρ' | hρ'
    · rw [hρ] at hρ'
      obtain rfl := Option.some.inj hρ'
      exact hle
    · exact hH _ hρ'
  · rcases hρ' with hρ' | hρ'
    · exact ((n1 y hy ρ hρ).1 ρ' hρ').trans hle
    · exact ((n1 y hy ρ hρ).2 ρ' hρ').1.trans hle

theorem Lib.handle (k : Core (x :: R) next H s) (hc : s.loc.calls.length = 1) (hh : H (lid x) = some h) : Lib x R next H h s s h 0 := by
  obtain ⟨k1, ⟨ρ, hρ, k2⟩, k3⟩ := k.hand x (List.mem_cons_self ..) h hh
  refine .start k hc (k.above hρ k2 fun k' e => ?_) hρ k1 k3
  rw [hh] at e
  obtain rfl := Option.some.inj e
  exact List.suffix_refl _

/-- A function is called that can use what `x` can. -/
theorem Core.entered (k : Core (x :: R) next H s) (hc : s.loc.calls.length = 1) (hH : H (lid x) = none) : Mode x R next H none (s.act .enter) ∧ (s.act .enter).loc.calls.length = 2 := by
  have e1 := k.co.one hc
  have hx : x ∈ x :: R := List.mem_cons_self ..
  have hv : ∀ f, Via f s.loc .enter := fun f => by
    have := k.fresh.calls 0 (by rw [e1]; simp)
    simp only [Via]; omega
  have k' : Core (x :: R) next H (s.act .enter) := k.act ⟨[], hv _⟩ (fun y _ ρ _ => ⟨ρ, hv ρ, List.suffix_refl _⟩) k.ub (k.co.enter k.fresh)
  have hb : ∀ i ∈ (s.act .enter).loc.items, ∀ c ∈ (s.act .enter).loc.calls, c ≠ 0 → i.prot ≠ some c := by
    intro i hi c hc' h0 hp
    rcases List.mem_cons.1 (show c ∈ s.loc.call :: s.loc.calls from hc') with rfl | hc'
    · have := k.fresh.prots i hi _ hp
      omega
    · rw [e1, List.mem_singleton] at hc'
      exact h0 hc'
  refine ⟨⟨hH, ?_⟩, by show (s.loc.call :: s.loc.calls).length = 2; simp [hc]⟩
  cases hρ : (s.act .enter).root (lid x) with
  | none => exact ⟨k', hb⟩
  | some ρ =>
    refine ⟨k', ⟨(k'.vsome x hx ρ hρ).2, k'.cond x hx ρ hρ, fun i hi _ n => ?_, fun i hi _ => hb i hi⟩, k'.above hρ (List.suffix_refl _) fun k' e => ?_⟩
    · cases hg : i.guarded (s.act .enter).loc.calls with
      | false => rfl
      | true =>
        obtain ⟨c, hc', e⟩ := guarded_iff.1 hg
        by_cases h0 : c = 0
        · subst h0
          exact absurd (k'.zero x hx ρ hρ i hi e).1 n
        · exact absurd e (hb i hi c hc' h0)
    · rw [hH] at e; cases e

/-- A method of a visitor or builder. -/
theorem Core.method (k : Core (x :: R) next s.handle s) (hg : Good s.loc) (hc : s.loc.calls.length = 1) (us : List UAct) (pre : Tag → St → St × Tag) (hr : ∀ h s, Reach s.loc (pre h s).1.loc)
    (hpre : ∀ h, Lib x R next s.handle h s s h 0 → Focus (x :: R) next s.handle (pre h s).2 (pre h s).1 ∧ (pre h s).1.loc.calls.length = 2 ∧ Same s (pre h s).1) :
    Core (x :: R) next s.handle (s.call pre us (lid x)) ∧ (s.call pre us (lid x)).loc.calls.length = 1 ∧ (s.call pre us (lid x)).handle = s.handle := by
  unfold St.call
  cases hh : s.handle (lid x) with
  | some h =>
    simp only
    obtain ⟨p1, p2, p3⟩ := hpre h (.handle k hc hh)
    obtain ⟨-, ⟨ρ, hρ, -⟩, -⟩ := k.hand x (List.mem_cons_self ..) h hh
    obtain ⟨u1, u2, u3, -⟩ := Mode.user (x := x) (R := R) (arg := some (pre h s).2) p1 (fun _ => by rw [p3.root, hρ]; simp) ((hr h s).good hg p1.core.ub) (by omega) us
    exact ⟨u1, u2, u3.trans p3.handle⟩
  | none =>
    simp only
    obtain ⟨m1, m2⟩ := k.entered hc hh
    obtain ⟨u1, u2, u3, -⟩ := m1.user (fun e => absurd rfl e) (hg.act (a := .enter) k.ub) (by omega) us
    exact ⟨u1, u2, u3⟩

/-- The driver gets a pointer. -/
theorem Core.setH (k : Core (x :: R) next H s) (hm : ∃ i ∈ s.loc.items, i.tag = t) {ρ : Tag} (hρ : s.root (lid x) = some ρ) (ht : ρ <:+ t) (hp : ∀ i ∈ s.loc.items, i.tag <:+ t → i.perm.ok (i.guarded s.loc.calls))
    (hb : ∀ b, x = .builder b → s.owner = some b) : Core (x :: R) next (upd H (lid x) (some t)) s := by
  refine ⟨k.ub, k.live, k.fresh, k.co, k.vnone, k.vsome, k.cond, k.zero, fun y hy t' e => ?_, ?_, k.own, fun b hb' e => ?_, k.unused, k.nodup, k.next⟩
  · rcases List.mem_cons.1 hy with rfl | hy
    · rw [upd_self] at e
      obtain rfl := Option.some.inj e
      exact ⟨hm, ⟨ρ, hρ, ht⟩, hp⟩
    · rw [upd_ne _ _ (k.ne y hy)] at e
      exact k.hand y (List.mem_cons_of_mem _ hy) t' e
  · obtain ⟨n1, n2⟩ := List.pairwise_cons.1 k.nest
    refine List.pairwise_cons.2 ⟨fun y hy ρ hρ => ?_, n2.imp_of_mem fun {a b} _ hb n ρ hρ => ?_⟩
    · rw [upd_ne _ _ (k.ne y hy)]
      exact n1 y hy ρ hρ
    · rw [upd_ne _ _ (k.ne b hb)]
      exact n ρ hρ
  · rcases List.mem_cons.1 hb' with e' | hb'
    · exact hb b e'.symm
    · have ne : b ≠ lid x := k.ne _ hb'
      rw [upd_ne _ _ ne] at e
      exact k.boxed b (List.mem_cons_of_mem _ hb') e

/-- The box is freed. -/
def freeBox (b : Nat) (t : Tag) (s : St) : St := { s.free t with handle := upd s.handle b none, owner := if s.owner = some b then none else s.owner }

theorem drop_eq {b : Nat} {us : List UAct} (hh : s.handle b = some h) {s1 : St} {t1 : Tag} (e : St.preDrop h s = (s1, t1)) :
    s.drop us b = freeBox b t1 (((s1.act .enter).reb t1 true).1.user b (some ((s1.act .enter).reb t1 true).2) us) := by
  simp only [St.drop, hh, e]
  rfl

/-- The destructor of a builder. -/
theorem Core.drop {b : Nat} (k : Core (.builder b :: R) next s.handle s) (hg : Good s.loc) (hc : s.loc.calls.length = 1) (us : List UAct) :
    Core (.builder b :: R) next (s.drop us b).handle (s.drop us b) ∧ (s.drop us b).loc.calls.length = 1 := by
  have hx : Live.builder b ∈ Live.builder b :: R := List.mem_cons_self ..
  cases hh : s.handle b with
  | none =>
    have e : s.drop us b = s.call St.preBuilder us b := by simp only [St.drop, hh]
    rw [e]
    obtain ⟨m1, m2, m3⟩ := Core.method (x := .builder b) k hg hc us St.preBuilder reach_preBuilder fun h o => o.preBuilder
    exact ⟨by rw [show (s.call St.preBuilder us b).handle = s.handle from m3]; exact m1, m2⟩
  | some h =>
    have o := (Lib.handle (x := .builder b) k hc hh).preDrop
    cases ep : St.preDrop h s with | mk s1 t1 => ?_
    rw [drop_eq hh ep]
    rw [ep] at o
    simp only at o
    obtain ⟨-, ⟨ρ, hρ, k2⟩, -⟩ := k.hand _ hx h hh
    have ho : s.owner = some b := k.boxed b hx (by rw [hh]; simp)
    have hρ1 : s1.root b = some ρ := by rw [o.same.root]; exact hρ
    have ho1 : s1.owner = some b := by rw [o.same.owner]; exact ho
    have c1 : Core (.builder b :: R) next (upd s.handle b (some t1)) s1 := Core.setH (x := .builder b) o.core o.opn.has hρ1 (k2.trans o.opn.le) o.opn.path fun b' e => by
      obtain rfl : b = b' := by simpa using e
      exact ho1
    obtain ⟨f1, f2, f3⟩ := (Lib.handle (x := .builder b) c1 o.len (upd_self ..)).arg
    have r1 : Reach s.loc s1.loc := by
      have := reach_preDrop h s
      rw [ep] at this; exact this
    have hg1 := ((r1.trans (reach_act .enter s1)).trans (reach_reb t1 true _)).good hg f1.core.ub
    obtain ⟨u1, u2, u3, u4⟩ := Mode.user (x := .builder b) (R := R) (arg := some _) f1 (fun _ => by rw [f3.root]; show s1.root b ≠ none; rw [hρ1]; simp) hg1 (by omega) us
    have u4 := (u4 (by simp)).trans f3.owner
    have u3 := (u3.trans f3.handle).trans o.same.handle
    simp only [lid] at u1 u2 u3 u4
    generalize St.user b (some _) us _ = s2 at *
    obtain ⟨w1, ⟨ρ2, hρ2, w2⟩, w3⟩ := u1.hand _ hx t1 (upd_self ..)
    have o2 := Lib.handle (x := .builder b) u1 u2 (upd_self ..)
    have ho2 : s2.owner = some b := u4.trans ho1
    have hfree : (s2.loc.free t1).ub = false := by
      obtain ⟨a1, a2, -, -, a5, -⟩ := o2.opn.access (e := false) (w := true) (List.suffix_refl _) (.inr rfl) o2.opn.has
      simp only [Loc.free]
      rw [if_neg]
      · exact a1.ub
      · rw [Bool.not_eq_true, List.any_eq_false]
        intro i hi hg
        obtain ⟨j, hj, e1, e2⟩ := a5 i hi
        rw [a2] at hg
        have hg : j.guarded s2.loc.calls = true := by
          simp only [Item.guarded] at hg ⊢
          rw [← e2]; exact hg
        obtain ⟨g1, g2⟩ := u1.unguarded u2 hx hρ2 hj hg
        obtain ⟨-, ρ3, e3, g3⟩ := u1.own b ho2
        rw [show s2.root b = some ρ2 from hρ2] at e3
        obtain rfl := Option.some.inj e3
        exact g2 (eq_of_suffix g1 (g3 j hj))
    obtain ⟨z1, z2, -, -⟩ := Core.freed (x := .builder b) u1 hρ2 w2 w1 ho2 hfree (H' := upd s2.handle b none) (upd_self ..) (fun y hy => by
      have ne : lid y ≠ b := Core.ne (x := .builder b) k y hy
      rw [upd_ne _ _ ne, upd_ne _ _ ne, u3])
    refine ⟨?_, by show (s2.free t1).loc.calls.length = 1; rw [z2]; exact u2⟩
    rw [show freeBox b t1 s2 = { s2.free t1 with handle := upd s2.handle b none, owner := none } by simp only [freeBox, ho2, if_true]]
    exact ⟨z1.ub, z1.live, z1.fresh, z1.co, z1.vnone, z1.vsome, z1.cond, z1.zero, z1.hand, z1.nest, z1.own, z1.boxed, z1.unused, z1.nodup, z1.next⟩

/-! ## New and finished things -/

theorem suf {a b : Tag} (h : a <:+ b) : a.isSuffixOf b = true := List.isSuffixOf_iff_suffix.2 h

theorem open_iff {cs : List Nat} {i : Item} : i.open cs = true ↔ i.perm.ok (i.guarded cs) := by
  unfold Item.open
  cases i.perm with
  | reserved c => cases c <;> simp [Perm.ok]
  | _ => simp [Perm.ok]

theorem lendable_spec (k : Core (x :: R) next s.handle s) (h : s.lendable (lid x) t = true) :
    (∀ k, s.handle (lid x) = some k → k <:+ t ∧ k ≠ t) ∧ ∃ ρ, s.root (lid x) = some ρ ∧ ρ <:+ t ∧ (∃ i ∈ s.loc.items, i.tag = t) ∧ Cond t s.loc := by
  have hx : x ∈ x :: R := List.mem_cons_self ..
  simp only [St.lendable, Bool.and_eq_true, Bool.or_eq_true] at h
  obtain ⟨⟨h1, h2⟩, h3⟩ := h
  refine ⟨fun k e => ?_, ?_⟩
  · rw [e] at h1
    simpa using h1
  · cases hρ : s.root (lid x) with
    | none =>
      rw [k.vnone x hx hρ] at h2
      simp at h2
    | some ρ =>
      have hv := (k.vsome x hx ρ hρ).1
      rw [hv] at h2 h3
      obtain ⟨i, hi, e⟩ := List.any_eq_true.1 h2
      have e : i.tag = t := by simpa using e
      have hi := mem_below.1 hi
      have hle : ρ <:+ t := by rw [← e]; exact hi.2
      refine ⟨ρ, rfl, hle, ⟨i, hi.1, e⟩, ?_⟩
      simp only [List.all_eq_true, Bool.or_eq_true] at h3
      have hout : ∀ j, j <:+ t → ¬ ρ <:+ j → j <:+ ρ ∧ j ≠ ρ := fun j hj n =>
        ⟨(List.suffix_or_suffix_of_suffix hj hle).resolve_right n, fun e => n (by rw [e]; exact List.suffix_refl _)⟩
      obtain ⟨r, hr, er⟩ := (k.vsome x hx ρ hρ).2
      have hcond := k.cond x hx ρ hρ
      rcases h3 with h3 | h3
      · by_cases et : t = ρ
        · rw [et]; exact hcond
        · refine .inl fun j hj hs hne => ?_
          by_cases hd : ρ <:+ j.tag
          · have := h3 j (mem_below.2 ⟨hj, hd⟩)
            rw [← open_iff]
            simpa [suf hs, hne] using this
          · obtain ⟨h4, h5⟩ := hout j.tag hs hd
            rcases hcond with hc | hc
            · exact hc j hj h4 h5
            · have h6 := h3 r (mem_below.2 ⟨hr, by rw [er]; exact List.suffix_refl _⟩)
              have h7 := hc r hr (by rw [er]; exact List.suffix_refl _)
              rw [if_pos er] at h7
              have h8 : r.open s.loc.calls = true := by
                have h9 : ρ = t ∨ r.open s.loc.calls = true := by simpa [er, suf hle] using h6
                exact h9.resolve_left fun e => et e.symm
              rw [open_iff] at h8
              rcases h7 with h7 | h7 <;> rw [h7] at h8 <;> exact h8.elim
      · refine .inr fun j hj hs => ?_
        by_cases hd : ρ <:+ j.tag
        · have := h3 j (mem_below.2 ⟨hj, hd⟩)
          by_cases ej : j.tag = t
          · rw [if_pos ej]
            exact .inl (by simpa [ej, suf (List.suffix_refl t)] using this)
          · rw [if_neg ej]
            simpa [suf hs, ej] using this
        · obtain ⟨h4, h5⟩ := hout j.tag hs hd
          have h6 : j.tag ≠ t := fun e => hd (by rw [e]; exact hle)
          rw [if_neg h6]
          rcases hcond with hc | hc
          · intro e
            have := hc j hj h4 h5
            rw [e] at this
            exact this
          · have := hc j hj h4
            rwa [if_neg h5] at this

/-- A new visitor or builder. -/
theorem Core.share (k : Core (x :: R) next s.handle s) {z : Live} (hz : lid z = next) (c : Option Tag) :
    Core (z :: x :: R) (next + 1) (s.share c next (lid x)).handle (s.share c next (lid x)) ∧ (s.share c next (lid x)).loc = s.loc ∧ (s.share c next (lid x)).handle next = none := by
  have ne : ∀ y ∈ x :: R, lid y ≠ next := fun y hy e => by have := k.next y hy; omega
  have hx : x ∈ x :: R := List.mem_cons_self ..
  have nd : ((z :: x :: R).map lid).Nodup := by
    rw [List.map_cons, List.nodup_cons]
    refine ⟨fun hm => ?_, k.nodup⟩
    obtain ⟨y, hy, e⟩ := List.mem_map.1 hm
    exact ne y hy (e.trans hz)
  have nx : ∀ y ∈ z :: x :: R, lid y < next + 1 := by
    intro y hy
    rcases List.mem_cons.1 hy with rfl | hy
    · omega
    · have := k.next y hy
      omega
  unfold St.share
  cases hc : c.filter (fun t => s.lendable (lid x) t) with
  | none =>
    simp only
    have r1 : ∀ y ∈ z :: x :: R, ∀ ρ, upd s.root next none (lid y) = some ρ → y ∈ x :: R ∧ s.root (lid y) = some ρ := by
      intro y hy ρ e
      rcases List.mem_cons.1 hy with rfl | hy
      · rw [hz, upd_self] at e; cases e
      · rw [upd_ne _ _ (ne y hy)] at e
        exact ⟨hy, e⟩
    have h1 : ∀ y ∈ z :: x :: R, ∀ ρ, upd s.handle next none (lid y) = some ρ → y ∈ x :: R ∧ s.handle (lid y) = some ρ := by
      intro y hy ρ e
      rcases List.mem_cons.1 hy with rfl | hy
      · rw [hz, upd_self] at e; cases e
      · rw [upd_ne _ _ (ne y hy)] at e
        exact ⟨hy, e⟩
    refine ⟨⟨k.ub, k.live, k.fresh, k.co, fun y hy e => ?_, fun y hy ρ e => ?_, fun y hy ρ e => ?_, fun y hy ρ e => ?_, fun y hy t e => ?_, ?_, fun o ho => ?_, fun b hb e => ?_, k.unused, nd, nx⟩, trivial, upd_self ..⟩
    · rcases List.mem_cons.1 hy with rfl | hy
      · simp only [hz, upd_self]
      · simp only [upd_ne _ _ (ne y hy)] at e ⊢
        exact k.vnone y hy e
    · obtain ⟨hy, e⟩ := r1 y hy ρ e
      simp only [upd_ne _ _ (ne y hy)]
      exact k.vsome y hy ρ e
    · obtain ⟨hy, e⟩ := r1 y hy ρ e
      exact k.cond y hy ρ e
    · obtain ⟨hy, e⟩ := r1 y hy ρ e
      exact k.zero y hy ρ e
    · obtain ⟨hy, e⟩ := h1 y hy t e
      simp only [upd_ne _ _ (ne y hy)]
      exact k.hand y hy t e
    · refine List.pairwise_cons.2 ⟨fun y _ ρ e => ?_, k.nest.imp_of_mem fun {a b} ha hb n ρ e => ?_⟩
      · simp only [hz, upd_self] at e; cases e
      · simp only [upd_ne _ _ (ne a ha)] at e
        simp only [upd_ne _ _ (ne b hb)]
        exact n ρ e
    · obtain ⟨⟨y, hy, rfl⟩, ρ, hρ, hi⟩ := k.own o ho
      exact ⟨⟨y, List.mem_cons_of_mem _ hy, rfl⟩, ρ, by simp only [upd_ne _ _ (ne y hy)]; exact hρ, hi⟩
    · rcases List.mem_cons.1 hb with e' | hb
      · have : b = next := by rw [← hz, ← e']; rfl
        rw [this, upd_self] at e; exact absurd rfl e
      · have nb : b ≠ next := ne _ hb
        rw [upd_ne _ _ nb] at e
        exact k.boxed b hb e
  | some t =>
    simp only
    have hl : s.lendable (lid x) t = true := by
      cases c with
      | none => simp at hc
      | some c' =>
        rw [Option.filter] at hc
        split at hc
        · rename_i hp
          obtain rfl := Option.some.inj hc
          exact hp
        · cases hc
    obtain ⟨l1, ρ, hρ, hle, hm, hcond⟩ := lendable_spec k hl
    obtain ⟨n1, -⟩ := List.pairwise_cons.1 k.nest
    have hv := (k.vsome x hx ρ hρ).1
    have root_le : ∀ y ∈ x :: R, ∀ ρ', s.root (lid y) = some ρ' → ρ' <:+ t := by
      intro y hy ρ' e
      rcases List.mem_cons.1 hy with rfl | hy
      · rw [hρ] at e
        obtain rfl := Option.some.inj e
        exact hle
      · exact ((n1 y hy ρ hρ).1 ρ' e).trans hle
    have r1 : ∀ y ∈ z :: x :: R, ∀ ρ', upd s.root next (some t) (lid y) = some ρ' → (y = z ∧ ρ' = t) ∨ (y ∈ x :: R ∧ s.root (lid y) = some ρ') := by
      intro y hy ρ' e
      rcases List.mem_cons.1 hy with rfl | hy
      · rw [hz, upd_self] at e
        exact .inl ⟨rfl, (Option.some.inj e).symm⟩
      · rw [upd_ne _ _ (ne y hy)] at e
        exact .inr ⟨hy, e⟩
    have h1 : ∀ y ∈ z :: x :: R, ∀ ρ, upd s.handle next none (lid y) = some ρ → y ∈ x :: R ∧ s.handle (lid y) = some ρ := by
      intro y hy ρ e
      rcases List.mem_cons.1 hy with rfl | hy
      · rw [hz, upd_self] at e; cases e
      · rw [upd_ne _ _ (ne y hy)] at e
        exact ⟨hy, e⟩
    refine ⟨⟨k.ub, k.live, k.fresh, k.co, fun y hy e => ?_, fun y hy ρ' e => ?_, fun y hy ρ' e => ?_, fun y hy ρ' e i hi hp => ?_, fun y hy t' e => ?_, ?_, fun o ho => ?_, fun b hb e => ?_, fun hu => ?_, nd, nx⟩, trivial, upd_self ..⟩
    · rcases List.mem_cons.1 hy with rfl | hy
      · simp only [hz, upd_self] at e; cases e
      · simp only [upd_ne _ _ (ne y hy)] at e ⊢
        exact k.vnone y hy e
    · rcases r1 y hy ρ' e with ⟨rfl, rfl⟩ | ⟨hy, e⟩
      · simp only [hz, upd_self]
        exact ⟨by rw [hv, below_below hle], hm⟩
      · simp only [upd_ne _ _ (ne y hy)]
        exact k.vsome y hy ρ' e
    · rcases r1 y hy ρ' e with ⟨rfl, rfl⟩ | ⟨hy, e⟩
      · exact hcond
      · exact k.cond y hy ρ' e
    · rcases r1 y hy ρ' e with ⟨rfl, rfl⟩ | ⟨hy, e⟩
      · obtain ⟨z1, z2⟩ := k.zero x hx ρ hρ i hi hp
        exact ⟨z1.trans hle, fun e => z2 (eq_of_suffix z1 (by rw [e]; exact hle))⟩
      · exact k.zero y hy ρ' e i hi hp
    · obtain ⟨hy, e⟩ := h1 y hy t' e
      simp only [upd_ne _ _ (ne y hy)]
      exact k.hand y hy t' e
    · refine List.pairwise_cons.2 ⟨fun y hy ρ' e => ?_, k.nest.imp_of_mem fun {a b} ha hb n ρ e => ?_⟩
      · simp only [hz, upd_self] at e
        obtain rfl := Option.some.inj e
        simp only [upd_ne _ _ (ne y hy)]
        refine ⟨root_le y hy, fun h hh => ?_⟩
        rcases List.mem_cons.1 hy with rfl | hy
        · exact l1 h hh
        · obtain ⟨a1, a2⟩ := (n1 y hy ρ hρ).2 h hh
          exact ⟨a1.trans hle, fun e => a2 (eq_of_suffix a1 (by rw [e]; exact hle))⟩
      · simp only [upd_ne _ _ (ne a ha)] at e
        simp only [upd_ne _ _ (ne b hb)]
        exact n ρ e
    · simp only at ho
      split at ho
      · rename_i hcnd
        obtain rfl := Option.some.inj ho
        refine ⟨⟨z, List.mem_cons_self .., hz⟩, t, upd_self .., ?_⟩
        obtain ⟨-, ρ', e, hi⟩ := k.own _ hcnd.1
        rw [hcnd.2.2] at e
        obtain rfl := Option.some.inj e
        exact hi
      · obtain ⟨⟨y, hy, rfl⟩, ρ', hρ', hi⟩ := k.own o ho
        exact ⟨⟨y, List.mem_cons_of_mem _ hy, rfl⟩, ρ', by simp only [upd_ne _ _ (ne y hy)]; exact hρ', hi⟩
    · rcases List.mem_cons.1 hb with e' | hb
      · have : b = next := by rw [← hz, ← e']; rfl
        rw [this, upd_self] at e; exact absurd rfl e
      · have nb : b ≠ next := ne _ hb
        rw [upd_ne _ _ nb] at e
        have ho := k.boxed b hb e
        simp only
        rw [if_neg, ho]
        rintro ⟨e1, e2, -⟩
        rw [ho] at e1
        obtain rfl := Option.some.inj e1
        exact e e2
    · obtain ⟨i, hi, -⟩ := hm
      rw [(k.unused hu).1] at hi
      exact (List.not_mem_nil hi).elim

/-- A returned reference or box becomes the driver's pointer. -/
theorem Core.point {z : Live} (k : Core (z :: R) next s.handle s) (hc : s.loc.calls.length = 1) (hh : s.handle (lid z) = none) (conv : Tag → St → St × Tag) (t : Tag)
    (hconv : Lib z R next s.handle t s s t 0 → Lib z R next s.handle t s (conv t s).1 (conv t s).2 0) (hb : ∀ b, z = .builder b → s.root b ≠ none → s.owner = some b) :
    Core (z :: R) next (s.point conv t (lid z)).handle (s.point conv t (lid z)) ∧ (s.point conv t (lid z)).loc.calls.length = 1 ∧ (s.point conv t (lid z)).kid = s.kid ∧ (s.point conv t (lid z)).par = s.par := by
  have hz : z ∈ z :: R := List.mem_cons_self ..
  unfold St.point
  split
  · rename_i hp
    simp only [Bool.and_eq_true, List.all_eq_true, Bool.or_eq_true] at hp
    obtain ⟨p1, p2⟩ := hp
    cases hρ : s.root (lid z) with
    | none =>
      rw [k.vnone z hz hρ] at p1
      simp at p1
    | some ρ =>
      obtain ⟨hv, r, hr, er⟩ := k.vsome z hz ρ hρ
      rw [hv] at p1 p2
      obtain ⟨i, hi, e⟩ := List.any_eq_true.1 p1
      have e : i.tag = t := by simpa using e
      have hi := mem_below.1 hi
      have hle : ρ <:+ t := by rw [← e]; exact hi.2
      have inside : ∀ j ∈ s.loc.items, ρ <:+ j.tag → j.tag <:+ t → j.perm.ok (j.guarded s.loc.calls) := fun j hj hd hs => by
        rw [← open_iff]
        simpa [suf hs] using p2 j (mem_below.2 ⟨hj, hd⟩)
      have path : ∀ j ∈ s.loc.items, j.tag <:+ t → j.perm.ok (j.guarded s.loc.calls) := by
        intro j hj hs
        by_cases hd : ρ <:+ j.tag
        · exact inside j hj hd hs
        · have h4 : j.tag <:+ ρ := (List.suffix_or_suffix_of_suffix hs hle).resolve_right hd
          have h5 : j.tag ≠ ρ := fun e => hd (by rw [e]; exact List.suffix_refl _)
          rcases k.cond z hz ρ hρ with hc | hc
          · exact hc j hj h4 h5
          · have h6 := hc r hr (by rw [er]; exact List.suffix_refl _)
            rw [if_pos er] at h6
            have h7 := inside r hr (by rw [er]; exact List.suffix_refl _) (by rw [er]; exact hle)
            rcases h6 with h6 | h6 <;> rw [h6] at h7 <;> exact h7.elim
      have o := hconv (.start k hc (k.above hρ hle fun k' e => by rw [hh] at e; cases e) hρ ⟨i, hi.1, e⟩ path)
      generalize conv t s = p at *
      obtain ⟨s1, t1⟩ := p
      have c1 := Core.setH o.core o.opn.has (by rw [o.same.root]; exact hρ) (hle.trans o.opn.le) o.opn.path fun b e => by
        rw [o.same.owner]
        subst e
        exact hb b rfl (by rw [show s.root b = some ρ from hρ]; simp)
      exact ⟨⟨c1.ub, c1.live, c1.fresh, c1.co, c1.vnone, c1.vsome, c1.cond, c1.zero, c1.hand, c1.nest, c1.own, c1.boxed, c1.unused, c1.nodup, c1.next⟩, o.len, o.same.kid, o.same.par⟩
  · exact ⟨k, hc, rfl, rfl⟩

/-- A borrow ends. -/
theorem Core.merge {y : Live} (k : Core (x :: y :: R) next s.handle s) : Core (y :: R) next (s.merge (lid x) (lid y)).handle (s.merge (lid x) (lid y)) := by
  have hx : x ∈ x :: y :: R := List.mem_cons_self ..
  have hy : y ∈ x :: y :: R := List.mem_cons_of_mem _ (List.mem_cons_self ..)
  obtain ⟨n1, n2⟩ := List.pairwise_cons.1 k.nest
  obtain ⟨n3, n4⟩ := List.pairwise_cons.1 n2
  have hne := k.ne
  have hney : ∀ w ∈ R, lid w ≠ lid y := by
    intro w hw e
    have := k.nodup
    rw [List.map_cons, List.map_cons, List.nodup_cons, List.nodup_cons] at this
    exact this.2.1 (List.mem_map.2 ⟨w, hw, e⟩)
  have r1 : ∀ w ∈ y :: R, ∀ ρ, (s.merge (lid x) (lid y)).root (lid w) = some ρ → ∃ w' ∈ x :: y :: R, s.root (lid w') = some ρ ∧ (s.merge (lid x) (lid y)).views (lid w) = s.views (lid w') := by
    intro w hw ρ e
    simp only [St.merge] at e ⊢
    rcases List.mem_cons.1 hw with rfl | hw'
    · rw [upd_self] at e ⊢
      by_cases h0 : s.root (lid w) = none
      · rw [if_pos h0] at e ⊢
        exact ⟨x, hx, e, rfl⟩
      · rw [if_neg h0] at e ⊢
        exact ⟨w, hy, e, rfl⟩
    · rw [upd_ne _ _ (hney w hw')] at e ⊢
      exact ⟨w, List.mem_cons_of_mem _ hw, e, rfl⟩
  have r2 : ∀ w ∈ y :: R, ∀ ρ, s.root (lid w) = some ρ → (s.merge (lid x) (lid y)).root (lid w) = some ρ := by
    intro w hw ρ e
    simp only [St.merge]
    by_cases ew : lid w = lid y
    · rw [ew] at e ⊢
      rw [upd_self, if_neg (by rw [e]; simp), e]
    · rw [upd_ne _ _ ew, e]
  refine ⟨k.ub, k.live, k.fresh, k.co, fun w hw e => ?_, fun w hw ρ e => ?_, fun w hw ρ e => ?_, fun w hw ρ e => ?_, fun w hw t e => ?_, ?_, fun o ho => ?_, fun b hb e => ?_, fun hu => ?_, ?_, fun w hw => k.next w (List.mem_cons_of_mem _ hw)⟩
  · simp only [St.merge] at e ⊢
    rcases List.mem_cons.1 hw with rfl | hw'
    · rw [upd_self] at e ⊢
      by_cases h0 : s.root (lid w) = none
      · rw [if_pos h0] at e ⊢
        exact k.vnone x hx e
      · rw [if_neg h0] at e
        exact absurd e h0
    · rw [upd_ne _ _ (hney w hw')] at e ⊢
      exact k.vnone w (List.mem_cons_of_mem _ hw) e
  · obtain ⟨w', hw', e1, e2⟩ := r1 w hw ρ e
    rw [e2]
    exact k.vsome w' hw' ρ e1
  · obtain ⟨w', hw', e1, -⟩ := r1 w hw ρ e
    exact k.cond w' hw' ρ e1
  · obtain ⟨w', hw', e1, -⟩ := r1 w hw ρ e
    exact k.zero w' hw' ρ e1
  · obtain ⟨a1, ⟨ρ, a2, a3⟩, a4⟩ := k.hand w (List.mem_cons_of_mem _ hw) t e
    exact ⟨a1, ⟨ρ, r2 w hw ρ a2, a3⟩, a4⟩
  · refine List.pairwise_cons.2 ⟨fun w hw ρ e => ?_, n4.imp_of_mem fun {a b} ha hb n ρ e => ?_⟩
    · have ew : (s.merge (lid x) (lid y)).root (lid w) = s.root (lid w) := by simp only [St.merge, upd_ne _ _ (hney w hw)]
      rw [ew]
      simp only [St.merge, upd_self] at e
      by_cases h0 : s.root (lid y) = none
      · rw [if_pos h0] at e
        exact n1 w (List.mem_cons_of_mem _ hw) ρ e
      · rw [if_neg h0] at e
        exact n3 w hw ρ e
    · simp only [St.merge, upd_ne _ _ (hney a ha)] at e
      simp only [St.merge, upd_ne _ _ (hney b hb)]
      exact n ρ e
  · have ho' : (if s.owner = some (lid x) then some (lid y) else s.owner) = some o := ho
    by_cases hox : s.owner = some (lid x)
    · rw [if_pos hox] at ho'
      obtain rfl := Option.some.inj ho'
      refine ⟨⟨y, List.mem_cons_self .., rfl⟩, ?_⟩
      obtain ⟨-, ρ, hρ, hi⟩ := k.own _ hox
      simp only [St.merge, upd_self]
      cases h0 : s.root (lid y) with
      | none => exact ⟨ρ, by simpa using hρ, hi⟩
      | some ρ' => exact ⟨ρ', by simp, fun i hi' => ((n1 y (List.mem_cons_self ..) ρ hρ).1 ρ' h0).trans (hi i hi')⟩
    · rw [if_neg hox] at ho'
      obtain ⟨⟨w, hw, rfl⟩, ρ, hρ, hi⟩ := k.own o ho'
      rcases List.mem_cons.1 hw with rfl | hw
      · exact absurd ho' hox
      · exact ⟨⟨w, hw, rfl⟩, ρ, r2 w hw ρ hρ, hi⟩
  · have ho := k.boxed b (List.mem_cons_of_mem _ hb) e
    show (if s.owner = some (lid x) then some (lid y) else s.owner) = some b
    rw [if_neg, ho]
    rw [ho]
    intro e'
    exact hne _ hb (Option.some.inj e')
  · obtain ⟨u1, u2⟩ := k.unused hu
    refine ⟨u1, ?_⟩
    show (if s.owner = some (lid x) then some (lid y) else s.owner) = none
    rw [u2]; simp
  · have := k.nodup
    rw [List.map_cons, List.nodup_cons] at this
    exact this.2

/-! ## The run -/

/-- Who was made by whom. -/
def Linked (s : St) : List Live → Prop
  | [] => False
  | [.visitor _] => True
  | .visitor v :: .builder b :: R => s.kid b = some v ∧ Linked s (.builder b :: R)
  | .builder b :: .visitor p :: R => s.par b = p ∧ Linked s (.visitor p :: R)
  | _ => False

/-- The innermost builder has not returned a visitor since it was last called. -/
def TopFree (s : St) : List Live → Prop
  | .builder b :: _ => s.kid b = none
  | _ => True

theorem Linked.congr {s s' : St} : ∀ {S : List Live}, Linked s S → (∀ y ∈ S.tail, s'.kid (lid y) = s.kid (lid y)) → (∀ y ∈ S, s'.par (lid y) = s.par (lid y)) → Linked s' S
  | [], h, _, _ => h
  | [.visitor _], _, _, _ => trivial
  | .visitor v :: .builder b :: R, ⟨h1, h2⟩, hk, hp => by
    refine ⟨(hk _ (List.mem_cons_self ..)).trans h1, Linked.congr h2 (fun y hy => hk y (List.mem_cons_of_mem _ hy)) fun y hy => hp y (List.mem_cons_of_mem _ hy)⟩
  | .builder b :: .visitor p :: R, ⟨h1, h2⟩, hk, hp => by
    refine ⟨(hp _ (List.mem_cons_self ..)).trans h1, Linked.congr h2 (fun y hy => hk y (List.mem_cons_of_mem _ hy)) fun y hy => hp y (List.mem_cons_of_mem _ hy)⟩

theorem Linked.tail {s : St} {x y : Live} {R : List Live} (h : Linked s (x :: y :: R)) : Linked s (y :: R) := by
  cases x <;> cases y <;> first | exact h.2 | exact h.elim

/-- The invariant of the run. -/
structure Inv (m : MonSt) (s : St) : Prop where
  core : Core m.stack m.next s.handle s
  len : s.loc.calls.length = 1
  linked : Linked s m.stack
  top : TopFree s m.stack

/-- The numbers do not matter. -/
theorem Core.links (k : Core S next s.handle s) (kid : Nat → Option Nat) (par : Nat → Nat) : Core S next ({ s with kid := kid, par := par } : St).handle { s with kid := kid, par := par } :=
  ⟨k.ub, k.live, k.fresh, k.co, k.vnone, k.vsome, k.cond, k.zero, k.hand, k.nest, k.own, k.boxed, k.unused, k.nodup, k.next⟩

/-- The last visitor of a builder is not used any more. -/
theorem endKid_inv {v b : Nat} (k : Core (.visitor v :: .builder b :: R) next s.handle s) (hl : Linked s (.visitor v :: .builder b :: R)) :
    Core (.builder b :: R) next (s.endKid b).handle (s.endKid b) ∧ Linked (s.endKid b) (.builder b :: R) ∧ TopFree (s.endKid b) (.builder b :: R) := by
  have e : s.endKid b = { s.merge v b with kid := upd s.kid b none } := by simp only [St.endKid, hl.1]
  have hm : Core (.builder b :: R) next (s.merge v b).handle (s.merge v b) := Core.merge (x := .visitor v) (y := .builder b) k
  rw [e]
  refine ⟨hm.links _ _, ?_, upd_self ..⟩
  refine Linked.congr hl.2 (fun y hy => upd_ne _ _ ?_) fun _ _ => rfl
  exact Core.ne (x := .builder b) hm y hy

theorem endKid_free {b : Nat} (h : TopFree s (.builder b :: R)) : s.endKid b = s := by
  have h' : s.kid b = none := h
  simp only [St.endKid, h']

theorem step_links (id : Nat) (arg : Option Tag) (s : St) (u : UAct) : (s.step id arg u).kid = s.kid ∧ (s.step id arg u).par = s.par := by
  unfold St.step
  cases u <;> simp only <;> split <;> exact ⟨rfl, rfl⟩

theorem steps_links (id : Nat) (arg : Option Tag) : ∀ (us : List UAct) (s : St), (us.foldl (St.step id arg) s).kid = s.kid ∧ (us.foldl (St.step id arg) s).par = s.par
  | [], _ => ⟨rfl, rfl⟩
  | u :: us, s => ⟨(steps_links id arg us _).1.trans (step_links id arg s u).1, (steps_links id arg us _).2.trans (step_links id arg s u).2⟩

theorem returns_links : ∀ (n : Nat) (s : St), (s.returns n).kid = s.kid ∧ (s.returns n).par = s.par
  | 0, _ => ⟨rfl, rfl⟩
  | n + 1, s => by
    simp only [St.returns]
    exact returns_links n _

theorem user_links (id : Nat) (arg : Option Tag) (us : List UAct) (s : St) : (s.user id arg us).kid = s.kid ∧ (s.user id arg us).par = s.par :=
  ⟨(returns_links _ _).1.trans (steps_links id arg us s).1, (returns_links _ _).2.trans (steps_links id arg us s).2⟩

theorem callVisitor_links (us : List UAct) (id : Nat) (s : St) : (s.call St.preVisitor us id).kid = s.kid ∧ (s.call St.preVisitor us id).par = s.par := by
  unfold St.call
  split <;> exact user_links ..

theorem callBuilder_links (us : List UAct) (id : Nat) (s : St) : (s.call St.preBuilder us id).kid = s.kid ∧ (s.call St.preBuilder us id).par = s.par := by
  unfold St.call
  split <;> exact user_links ..

theorem drop_links (us : List UAct) (id : Nat) (s : St) : (s.drop us id).kid = s.kid ∧ (s.drop us id).par = s.par := by
  unfold St.drop
  split
  · exact user_links ..
  · exact callBuilder_links ..

theorem share_links (c : Option Tag) (id p : Nat) (s : St) : (s.share c id p).kid = s.kid ∧ (s.share c id p).par = s.par := by
  unfold St.share
  split <;> exact ⟨rfl, rfl⟩

theorem Linked.same {s s' : St} {S : List Live} (h : Linked s S) (hk : s'.kid = s.kid ∧ s'.par = s.par) : Linked s' S :=
  h.congr (fun _ _ => by rw [hk.1]) fun _ _ => by rw [hk.2]

theorem TopFree.same {s s' : St} {S : List Live} (h : TopFree s S) (hk : s'.kid = s.kid ∧ s'.par = s.par) : TopFree s' S := by
  unfold TopFree at *
  split
  · rw [hk.1]; exact h
  · trivial

/-- The drop of the innermost builder. -/
theorem drop_inv {b : Nat} (k : Core (.builder b :: R) next s.handle s) (hl : Linked s (.builder b :: R)) :
    Core R next (s.merge b (s.par b)).handle (s.merge b (s.par b)) ∧ Linked (s.merge b (s.par b)) R ∧ TopFree (s.merge b (s.par b)) R := by
  cases R with
  | nil => exact hl.elim
  | cons p R =>
    cases p with
    | builder p => exact hl.elim
    | visitor p =>
      obtain ⟨e, hl'⟩ := hl
      rw [e]
      exact ⟨Core.merge (x := .builder b) (y := .visitor p) k, hl'.same ⟨rfl, rfl⟩, trivial⟩

theorem visitor_inv {i : Nat} (k : Core (.visitor i :: R) next s.handle s) (hg : Good s.loc) (hc : s.loc.calls.length = 1) (us : List UAct) :
    Core (.visitor i :: R) next (s.call St.preVisitor us i).handle (s.call St.preVisitor us i) ∧ (s.call St.preVisitor us i).loc.calls.length = 1 := by
  obtain ⟨h1, h2, h3⟩ := Core.method (x := .visitor i) k hg hc us St.preVisitor reach_preVisitor fun h o => o.preVisitor
  exact ⟨by rw [show (s.call St.preVisitor us i).handle = s.handle from h3]; exact h1, h2⟩

theorem builder_inv {i : Nat} (k : Core (.builder i :: R) next s.handle s) (hg : Good s.loc) (hc : s.loc.calls.length = 1) (us : List UAct) :
    Core (.builder i :: R) next (s.call St.preBuilder us i).handle (s.call St.preBuilder us i) ∧ (s.call St.preBuilder us i).loc.calls.length = 1 := by
  obtain ⟨h1, h2, h3⟩ := Core.method (x := .builder i) k hg hc us St.preBuilder reach_preBuilder fun h o => o.preBuilder
  exact ⟨by rw [show (s.call St.preBuilder us i).handle = s.handle from h3]; exact h1, h2⟩

theorem endKid_loc (b : Nat) (s : St) : (s.endKid b).loc = s.loc ∧ (s.endKid b).par = s.par := by
  unfold St.endKid
  split <;> exact ⟨rfl, rfl⟩

theorem Inv.step {m : MonSt} {s : St} (h : Inv m s) (hg : Good s.loc) (C : Safe) (n : Nat) (o : Op) (hok : (m.step o).ok = true) : Inv (m.step o) (St.op C n o s) := by
  obtain ⟨stack, next, ok⟩ := m
  obtain ⟨hc, hn, hl, ht⟩ := h
  simp only at hc hl ht
  cases o with
  | callVisitor id =>
    match stack, hc, hl, ht, hok with
    | .visitor i :: R, hc, hl, ht, hok =>
      obtain rfl : i = id := by simp [MonSt.step] at hok; exact hok.2
      obtain ⟨k1, k2⟩ := visitor_inv hc hg hn (C.acts n)
      exact ⟨k1, k2, hl.same (callVisitor_links ..), ht.same (callVisitor_links ..)⟩
    | .builder i :: R, hc, hl, ht, hok => simp [MonSt.step] at hok
    | [], hc, hl, ht, hok => exact hl.elim
  | callBuilder id =>
    match stack, hc, hl, ht, hok with
    | .builder i :: R, hc, hl, ht, hok =>
      obtain rfl : i = id := by simp [MonSt.step] at hok; exact hok.2
      have e : St.op C n (.callBuilder i) s = s.call St.preBuilder (C.acts n) i := by simp only [St.op, endKid_free ht]
      rw [e]
      obtain ⟨k1, k2⟩ := builder_inv hc hg hn (C.acts n)
      exact ⟨k1, k2, hl.same (callBuilder_links ..), ht.same (callBuilder_links ..)⟩
    | .visitor v :: .builder i :: R, hc, hl, ht, hok =>
      obtain rfl : i = id := by simp [MonSt.step] at hok; exact hok.2
      obtain ⟨k1, k2, k3⟩ := endKid_inv hc hl
      obtain ⟨j1, j2⟩ := builder_inv k1 (by rw [(endKid_loc ..).1]; exact hg) (by rw [(endKid_loc ..).1]; exact hn) (C.acts n)
      exact ⟨j1, j2, k2.same (callBuilder_links ..), k3.same (callBuilder_links ..)⟩
    | .visitor v :: .visitor i :: R, hc, hl, ht, hok => exact hl.elim
    | [.visitor v], hc, hl, ht, hok => simp [MonSt.step] at hok
    | [], hc, hl, ht, hok => exact hl.elim
  | dropBuilder id =>
    match stack, hc, hl, ht, hok with
    | .builder i :: R, hc, hl, ht, hok =>
      obtain rfl : i = id := by simp [MonSt.step] at hok; exact hok.2
      obtain ⟨hd, hd2⟩ := hc.drop hg hn (C.acts n)
      have lk := drop_links (C.acts n) i s
      obtain ⟨k1, k2, k3⟩ := drop_inv hd (hl.same lk)
      rw [lk.2] at k1 k2 k3
      have e : St.op C n (.dropBuilder i) s = (s.drop (C.acts n) i).merge i (s.par i) := by simp only [St.op, endKid_free ht]
      rw [e]
      exact ⟨k1, hd2, k2, k3⟩
    | .visitor v :: .builder i :: R, hc, hl, ht, hok =>
      obtain rfl : i = id := by simp [MonSt.step] at hok; exact hok.2
      obtain ⟨k1, k2, k3⟩ := endKid_inv hc hl
      obtain ⟨hd, hd2⟩ := k1.drop (by rw [(endKid_loc ..).1]; exact hg) (by rw [(endKid_loc ..).1]; exact hn) (C.acts n)
      have lk := drop_links (C.acts n) i (s.endKid i)
      obtain ⟨j1, j2, j3⟩ := drop_inv hd (k2.same lk)
      rw [lk.2, (endKid_loc i s).2] at j1 j2 j3
      exact ⟨j1, hd2, j2, j3⟩
    | .visitor v :: .visitor i :: R, hc, hl, ht, hok => exact hl.elim
    | [.visitor v], hc, hl, ht, hok => simp [MonSt.step] at hok
    | [], hc, hl, ht, hok => exact hl.elim
  | moveBuilder id =>
    match stack, hc, hl, ht, hok with
    | .builder i :: R, hc, hl, ht, hok => exact ⟨hc, hn, hl, ht⟩
    | .visitor v :: .builder i :: R, hc, hl, ht, hok => exact ⟨hc, hn, hl, ht⟩
    | .visitor v :: .visitor i :: R, hc, hl, ht, hok => exact hl.elim
    | [.visitor v], hc, hl, ht, hok => simp [MonSt.step] at hok
    | [], hc, hl, ht, hok => exact hl.elim
  | newVisitor id parent =>
    match stack, hc, hl, ht, hok with
    | .builder i :: R, hc, hl, ht, hok =>
      obtain ⟨⟨-, rfl⟩, rfl⟩ : (ok = true ∧ i = parent) ∧ id = next := by simpa [MonSt.step] using hok
      obtain ⟨k1, k2, k3⟩ := Core.share (x := .builder i) (z := .visitor id) hc rfl (C.cut n)
      simp only [lid] at k1 k2 k3
      have lk := share_links (C.cut n) id i s
      have k4 : Core (.visitor id :: .builder i :: R) (id + 1) ({ s.share (C.cut n) id i with kid := upd s.kid i (some id) } : St).handle { s.share (C.cut n) id i with kid := upd s.kid i (some id) } :=
        ⟨k1.ub, k1.live, k1.fresh, k1.co, k1.vnone, k1.vsome, k1.cond, k1.zero, k1.hand, k1.nest, k1.own, k1.boxed, k1.unused, k1.nodup, k1.next⟩
      have hl' : Linked { s.share (C.cut n) id i with kid := upd s.kid i (some id) } (.visitor id :: .builder i :: R) := by
        refine ⟨upd_self .., Linked.congr hl (fun y hy => ?_) fun y _ => ?_⟩
        · exact upd_ne _ _ (Core.ne (x := .builder i) hc y hy)
        · exact congrFun lk.2 (lid y)
      have hn' : ({ s.share (C.cut n) id i with kid := upd s.kid i (some id) } : St).loc.calls.length = 1 := by
        show (s.share (C.cut n) id i).loc.calls.length = 1
        rw [k2]; exact hn
      have hh : ({ s.share (C.cut n) id i with kid := upd s.kid i (some id) } : St).handle id = none := k3
      simp only [St.op]
      generalize ({ s.share (C.cut n) id i with kid := upd s.kid i (some id) } : St) = s' at *
      split
      · rename_i t _
        obtain ⟨p1, p2, p3, p4⟩ := Core.point (z := .visitor id) k4 hn' hh (St.convVisitor (C.way n)) t (fun o => o.convVisitor (C.way n)) (fun b e => by cases e)
        exact ⟨p1, p2, hl'.same ⟨p3, p4⟩, trivial⟩
      · exact ⟨k4, hn', hl', trivial⟩
    | .visitor i :: R, hc, hl, ht, hok => simp [MonSt.step] at hok
    | [], hc, hl, ht, hok => exact hl.elim
  | newBuilder id parent =>
    match stack, hc, hl, ht, hok with
    | .visitor i :: R, hc, hl, ht, hok =>
      obtain ⟨⟨-, rfl⟩, rfl⟩ : (ok = true ∧ i = parent) ∧ id = next := by simpa [MonSt.step] using hok
      have fresh : ∀ y ∈ Live.visitor i :: R, lid y ≠ id := fun y hy e => by have := hc.next y hy; omega
      have hc' := hc.links (upd s.kid id none) (upd s.par id i)
      have hl0 : Linked { s with par := upd s.par id i, kid := upd s.kid id none } (.visitor i :: R) :=
        Linked.congr hl (fun y hy => upd_ne _ _ (fresh y (List.mem_cons_of_mem _ hy))) fun y hy => upd_ne _ _ (fresh y hy)
      have hl' : Linked { s with par := upd s.par id i, kid := upd s.kid id none } (.builder id :: .visitor i :: R) := ⟨upd_self .., hl0⟩
      have ht' : TopFree { s with par := upd s.par id i, kid := upd s.kid id none } (.builder id :: .visitor i :: R) := upd_self ..
      have hn' : ({ s with par := upd s.par id i, kid := upd s.kid id none } : St).loc.calls.length = 1 := hn
      simp only [St.op]
      have eo : ({ s with par := upd s.par id i, kid := upd s.kid id none } : St).owner = s.owner := rfl
      have er : ({ s with par := upd s.par id i, kid := upd s.kid id none } : St).root = s.root := rfl
      have eh : ({ s with par := upd s.par id i, kid := upd s.kid id none } : St).handle = s.handle := rfl
      generalize ({ s with par := upd s.par id i, kid := upd s.kid id none } : St) = s' at hl' ht' hn' hc' eo er eh ⊢
      have k1 : ∀ c, Core (.builder id :: .visitor i :: R) (id + 1) (s'.share c id i).handle (s'.share c id i) ∧ (s'.share c id i).loc.calls.length = 1 ∧ (s'.share c id i).handle id = none := fun c => by
        obtain ⟨a1, a2, a3⟩ := Core.share (x := .visitor i) (z := .builder id) hc' rfl c
        exact ⟨a1, by rw [show (s'.share c id i).loc = s'.loc from a2]; exact hn', a3⟩
      have lk : ∀ c, (s'.share c id i).kid = s'.kid ∧ (s'.share c id i).par = s'.par := fun c => share_links c id i s'
      split
      · rename_i t _
        split
        · rename_i hown
          obtain ⟨a1, a2, a3⟩ := k1 (s'.root i)
          obtain ⟨p1, p2, p3, p4⟩ := Core.point (z := .builder id) a1 a2 a3 (St.convBuilder (C.way n)) t (fun o => o.convBuilder (C.way n)) (fun b e => by
            obtain rfl : id = b := by simpa using e
            unfold St.share
            cases hr : s'.root i with
            | none => simp [upd_self]
            | some ρ =>
              rw [Option.filter]
              split
              · rename_i e'
                split at e'
                · obtain rfl := Option.some.inj e'
                  intro _
                  simp only
                  rw [if_pos ⟨eo.trans hown.1, (congrFun eh i).trans hown.2, by first | trivial | exact hr⟩]
                · cases e'
              · intro k
                simp only [upd_self] at k
                exact absurd rfl k)
          simp only [lid] at p1 p2 p3 p4
          rw [← er]
          exact ⟨p1, p2, (hl'.same (lk _)).same ⟨p3, p4⟩, (ht'.same (lk _)).same ⟨p3, p4⟩⟩
        · exact ⟨(k1 _).1, (k1 _).2.1, hl'.same (lk _), ht'.same (lk _)⟩
      · exact ⟨(k1 _).1, (k1 _).2.1, hl'.same (lk _), ht'.same (lk _)⟩
    | .builder i :: R, hc, hl, ht, hok => simp [MonSt.step] at hok
    | [], hc, hl, ht, hok => exact hl.elim

theorem mutPerm_ok (l : Loc) (g : Bool) : l.mutPerm.ok g := by
  unfold Loc.mutPerm
  split <;> simp [Perm.ok]

/-- The start, where the argument of `from_str_impl` does not point to the location, but the visitor may use what is below `ρ`. -/
theorem core_init {is : List Item} {ρ : Tag} {im : Bool} {o : Option Nat} (h1 : ∀ i ∈ is, i.tag = ρ ∨ (i.tag = [0] ∧ i.tag ≠ ρ ∧ ∀ g, i.perm.ok g)) (h2 : ∀ i ∈ is, i.prot = none) (h3 : ∃ i ∈ is, i.tag = ρ) (h4 : ∀ k ∈ ρ, k < 4)
    (h5 : ∀ p, o = some p → p = 0 ∧ ∀ i ∈ is, ρ <:+ i.tag) :
    Core [.visitor 0] 1 (fun _ => none) ⟨⟨is, [0], 4, 2, true, im, false⟩, false, o, upd (fun _ => none) 0 (some ρ), upd (fun _ => []) 0 (below ρ is), fun _ => none, fun _ => none, fun _ => 0⟩ := by
  have r : ∀ y ∈ [Live.visitor 0], ∀ ρ', upd (fun _ => none) 0 (some ρ) (lid y) = some ρ' → ρ' = ρ := by
    intro y hy ρ' e
    obtain rfl := List.mem_singleton.1 hy
    simpa [lid, upd, eq_comm] using e
  refine ⟨rfl, fun _ => rfl, ⟨?_, ?_, by simp⟩, ⟨[], rfl, by simp⟩, ?_, ?_, ?_, ?_, ?_, by simp, ?_, ?_, by simp, by simp, by simp [lid]⟩
  · intro i hi k hk
    rcases h1 i hi with e | ⟨e, -⟩
    · exact h4 k (by rw [← e]; exact hk)
    · rw [e] at hk
      simp only [List.mem_singleton] at hk
      subst hk
      exact Nat.succ_pos 3
  · intro i hi c e
    rw [h2 i hi] at e; cases e
  · intro y hy e
    obtain rfl := List.mem_singleton.1 hy
    simp [lid, upd] at e
  · intro y hy ρ' e
    have := r y hy ρ' e
    subst this
    obtain rfl := List.mem_singleton.1 hy
    exact ⟨by simp [lid, upd], h3⟩
  · intro y hy ρ' e
    have := r y hy ρ' e
    subst this
    refine .inl fun i hi _ n => ?_
    rcases h1 i hi with e | ⟨-, -, e⟩
    · exact absurd e n
    · exact e _
  · intro y hy ρ' e i hi hp
    rw [h2 i hi] at hp; cases hp
  · intro y hy k e; cases e
  · intro p e
    obtain ⟨rfl, hp⟩ := h5 p e
    exact ⟨⟨_, List.mem_singleton.2 rfl, rfl⟩, ρ, by simp [upd], hp⟩
  · intro b hb
    simp at hb

theorem inv_init (C : Safe) : Inv ⟨[.visitor 0], 1, true⟩ (St.init C) := by
  unfold St.init
  cases C.start with
  | unused =>
    refine ⟨⟨rfl, fun h => absurd rfl h, ⟨by simp, by simp, by simp⟩, ⟨[], rfl, by simp⟩, fun _ _ _ => rfl, by simp, by simp, by simp, by simp, by simp, by simp, by simp, by simp, by simp, by simp [lid]⟩, rfl, trivial, trivial⟩
  | direct =>
    have r : ∀ y ∈ [Live.visitor 0], ∀ ρ', upd (fun _ => none) 0 (some [2, 1, 0]) (lid y) = some ρ' → ρ' = [2, 1, 0] := by
      intro y hy ρ' e
      obtain rfl := List.mem_singleton.1 hy
      simpa [lid, upd, eq_comm] using e
    have hok : ∀ i ∈ [⟨[2, 1, 0], .reserved false, some 1⟩, ⟨[1, 0], .reserved false, some 0⟩, ⟨[0], (⟨[], [0], 4, 2, true, C.im, false⟩ : Loc).mutPerm, none⟩], ∀ g, Perm.ok g (Item.perm i) := by
      intro i hi g
      simp only [List.mem_cons, List.not_mem_nil, or_false] at hi
      rcases hi with rfl | rfl | rfl
      · simp [Perm.ok]
      · simp [Perm.ok]
      · exact mutPerm_ok ..
    refine ⟨⟨rfl, fun _ => rfl, ⟨by simp, by simp, by simp⟩, ⟨[], rfl, by simp⟩, ?_, ?_, ?_, ?_, ?_, by simp, by simp, by simp, by simp, by simp, by simp [lid]⟩, rfl, trivial, trivial⟩
    · intro y hy e
      obtain rfl := List.mem_singleton.1 hy
      simp [lid, upd] at e
    · intro y hy ρ' e
      obtain rfl := r y hy ρ' e
      obtain rfl := List.mem_singleton.1 hy
      exact ⟨by simp [lid, upd, below]; decide, _, List.mem_cons_self .., rfl⟩
    · intro y hy ρ' e
      exact .inl fun i hi _ _ => hok i hi _
    · intro y hy ρ' e i hi hp
      obtain rfl := r y hy ρ' e
      simp only [List.mem_cons, List.not_mem_nil, or_false] at hi
      rcases hi with rfl | rfl | rfl
      · cases hp
      · exact ⟨⟨[2], rfl⟩, by simp⟩
      · cases hp
    · intro y hy k e
      have : k = [2, 1, 0] := r y hy k e
      subst this
      refine ⟨⟨_, List.mem_cons_self .., rfl⟩, ⟨_, ?_, List.suffix_refl _⟩, fun i hi _ => hok i hi _⟩
      exact e
  | borrowed =>
    exact ⟨core_init (is := [⟨[1, 0], _, none⟩, ⟨[0], _, none⟩]) (ρ := [1, 0]) (o := none) (by simp [mutPerm_ok]) (by simp) ⟨_, List.mem_cons_self .., rfl⟩ (by simp) (by simp), rfl, trivial, trivial⟩
  | shared =>
    exact ⟨core_init (is := [⟨[1, 0], _, none⟩, ⟨[0], _, none⟩]) (ρ := [1, 0]) (o := none) (by simp [mutPerm_ok]) (by simp) ⟨_, List.mem_cons_self .., rfl⟩ (by simp) (by simp), rfl, trivial, trivial⟩
  | owned =>
    exact ⟨core_init (is := [⟨[0], .active, none⟩]) (ρ := [0]) (o := some 0) (by simp) (by simp) ⟨_, List.mem_cons_self .., rfl⟩ (by simp) (by simp), rfl, trivial, trivial⟩

theorem step_ok {m : MonSt} {o : Op} (h : (m.step o).ok = true) : m.ok = true := by
  obtain ⟨stack, next, ok⟩ := m
  cases ok with
  | true => rfl
  | false =>
    unfold MonSt.step at h
    split at h <;> simp_all

theorem good_init (C : Safe) : Good (St.init C).loc := by
  have go : ∀ (is : List Item) (un live : Bool), (is ≠ [] → live = true) → (∀ i ∈ is, i.prot = none ∨ i = ⟨[2, 1, 0], .reserved false, some 1⟩ ∨ i = ⟨[1, 0], .reserved false, some 0⟩) → (∀ i ∈ is, ∀ k ∈ i.tag, k < 4) →
      (∀ i ∈ is, ∀ j ∈ is, i.tag = j.tag → i = j) → (∀ j ∈ is, j.perm ≠ .disabled) → Good ⟨is, [0], 4, 2, live, C.im, un⟩ := by
    intro is un live h1 h2 h3 h4 h5
    have hg : ∀ i ∈ is, i.guarded [0] = true → i.perm = .reserved false := by
      intro i hi g
      rcases h2 i hi with e | rfl | rfl
      · simp [Item.guarded, e] at g
      · rfl
      · rfl
    refine ⟨⟨⟨h3, ?_, fun c hc => ?_⟩, h4, ?_, ?_, ?_⟩, h1⟩
    · intro i hi c hc
      show c < 2
      rcases h2 i hi with e | rfl | rfl
      · rw [e] at hc; cases hc
      · obtain rfl := Option.some.inj hc; omega
      · obtain rfl := Option.some.inj hc; omega
    · have hc : c ∈ [0] := hc
      obtain rfl := List.mem_singleton.1 hc
      show 0 < 2
      omega
    · intro i hi g
      rw [hg i hi g]; simp
    · intro i hi j hj g _
      rw [hg i hi g]
      exact ⟨fun _ => h5 j hj, by simp⟩
    · intro i hi k _ g _ _ _ ha
      rw [hg i hi g] at ha; cases ha
  have hp : ∀ l : Loc, l.mutPerm ≠ .disabled := fun l => by unfold Loc.mutPerm; split <;> simp
  unfold St.init
  cases C.start with
  | unused => exact go [] _ _ (fun h => absurd rfl h) (fun _ h => nomatch h) (fun _ h => nomatch h) (fun _ h => nomatch h) fun _ h => nomatch h
  | direct => exact go _ _ _ (fun _ => rfl) (by simp) (by simp) (by simp) (by simp [hp])
  | borrowed => exact go _ _ _ (fun _ => rfl) (by simp) (by simp) (by simp) (by simp [hp])
  | shared => exact go _ _ _ (fun _ => rfl) (by simp) (by simp) (by simp) (by simp [hp]; split <;> simp)
  | owned => exact go _ _ _ (fun _ => rfl) (by simp) (by simp) (by simp) (by simp)

theorem run_good (C : Safe) : ∀ (h : List Op), (h.foldr MonSt.step ⟨[.visitor 0], 1, true⟩).ok = true → Inv (h.foldr MonSt.step ⟨[.visitor 0], 1, true⟩) (St.run C h) ∧ Good (St.run C h).loc
  | [], _ => ⟨inv_init C, good_init C⟩
  | o :: h, hok => by
    obtain ⟨k1, k2⟩ := run_good C h (step_ok hok)
    have k := k1.step k2 C h.length o hok
    exact ⟨k, (reach_op C h.length o _).good k2 k.core.ub⟩

theorem run_inv (C : Safe) (h : List Op) (hok : (h.foldr MonSt.step ⟨[.visitor 0], 1, true⟩).ok = true) : Inv (h.foldr MonSt.step ⟨[.visitor 0], 1, true⟩) (St.run C h) := (run_good C h hok).1

/-- The stack discipline implies the aliasing rules. -/
theorem noViolation (m : Mon) (h : m.ok = true) : NoViolation m.history := fun C => (run_inv C m.history h).core.ub

end Miniserde.TB
