import Verif.Model.BoxAlias

/-!
# The builder of `Box<T>` follows Stacked Borrows
-/

namespace Miniserde.SB

theorem locate_append {w : Bool} {t : Nat} {base : List Item} : ∀ {s : List Item} {a g b}, locate w t s = some (a, g, b) →
    locate w t (s ++ base) = some (a, g, b ++ base)
  | [], a, g, b, h => by simp [locate] at h
  | i :: s, a, g, b, h => by
    simp only [locate, List.cons_append] at h ⊢
    split at h
    · rename_i hi
      obtain ⟨rfl, rfl, rfl⟩ := by simpa using h
      simp [hi]
    · rename_i hi
      simp only [hi, Bool.false_eq_true, if_false]
      obtain ⟨⟨a', g', b'⟩, h1, h2⟩ := Option.map_eq_some_iff.1 h
      rw [locate_append h1]
      simp only [Prod.mk.injEq] at h2
      obtain ⟨rfl, rfl, rfl⟩ := h2
      rfl

theorem locate_spec {w : Bool} {t : Nat} : ∀ {s : List Item} {a g b}, locate w t s = some (a, g, b) → s = a ++ g :: b ∧ g.grants w t = true
  | [], a, g, b, h => by simp [locate] at h
  | i :: s, a, g, b, h => by
    simp only [locate] at h
    split at h
    · rename_i hi
      obtain ⟨rfl, rfl, rfl⟩ := by simpa using h
      exact ⟨rfl, hi⟩
    · obtain ⟨⟨a', g', b'⟩, h1, h2⟩ := Option.map_eq_some_iff.1 h
      simp only [Prod.mk.injEq] at h2
      obtain ⟨rfl, rfl, rfl⟩ := h2
      obtain ⟨h3, h4⟩ := locate_spec h1
      exact ⟨by rw [h3]; rfl, h4⟩

theorem keep_sub (g : Item) (a : List Item) : ∀ i ∈ keep g a, i ∈ a := by
  intro i hi
  unfold keep at hi
  split at hi
  · have := List.mem_reverse.1 hi
    exact List.mem_reverse.1 ((List.takeWhile_sublist _).mem this)
  · cases hi

theorem popped_sub (g : Item) (a : List Item) : ∀ i ∈ popped g a, i ∈ a := by
  intro i hi
  unfold popped at hi
  split at hi
  · have := List.mem_reverse.1 hi
    exact List.mem_reverse.1 ((List.dropWhile_sublist _).mem this)
  · exact hi

namespace Loc

/-- The location with more entries below. -/
def over (base : List Item) (v : Loc) : Loc := { v with items := v.items ++ base }

theorem write_over {base : List Item} {t : Nat} {v : Loc} (h : (v.write t).ub = false) (hv : v.ub = false) :
    (v.over base).write t = (v.write t).over base := by
  unfold write at h ⊢
  simp only [over]
  cases hl : v.live with
  | false => simp [hl, bad] at h
  | true =>
    cases hg : locate true t v.items with
    | none => simp [hl, hg, bad] at h
    | some x =>
      obtain ⟨a, g, b⟩ := x
      rw [locate_append hg]
      simp only [hl, hg] at h ⊢
      split at h
      · simp [bad] at h
      · rename_i hn
        simp [hn]

theorem read_over {base : List Item} {t : Nat} {v : Loc} (h : (v.read t).ub = false) (hv : v.ub = false) :
    (v.over base).read t = (v.read t).over base := by
  unfold read at h ⊢
  simp only [over]
  cases hl : v.live with
  | false => simp [hl, bad] at h
  | true =>
    cases hg : locate false t v.items with
    | none => simp [hl, hg, bad] at h
    | some x =>
      obtain ⟨a, g, b⟩ := x
      rw [locate_append hg]
      simp only [hl, hg] at h ⊢
      split at h
      · simp [bad] at h
      · rename_i hn
        simp only [hn]
        simp

theorem raw_over {base : List Item} {t : Nat} {i : Item} {v : Loc} (h : (v.raw t i).ub = false) (hv : v.ub = false) :
    (v.over base).raw t i = (v.raw t i).over base := by
  unfold raw at h ⊢
  simp only [over]
  cases hl : v.live with
  | false => simp [hl, bad] at h
  | true =>
    cases hg : locate true t v.items with
    | none => simp [hl, hg, bad] at h
    | some x =>
      obtain ⟨a, g, b⟩ := x
      rw [locate_append hg]
      simp

/-- What safe code does has the same effect whatever is below. -/
theorem act_over {base : List Item} {a : Acc} {v : Loc} (h : (v.act a).ub = false) (hv : v.ub = false) :
    (v.over base).act a = (v.act a).over base := by
  cases a with
  | read t => exact read_over h hv
  | write t => exact write_over h hv
  | enter => rfl
  | leave =>
    simp only [act, over] at h ⊢
    cases hc : v.calls with
    | nil => simp [hc, bad] at h
    | cons c cs => rfl
  | reborrow p t prot =>
    cases p with
    | unique =>
      simp only [act] at h ⊢
      have h' : (v.write t).ub = false := h
      have := write_over (base := base) h' hv
      simp only [over] at this ⊢
      rw [this]
      rfl
    | sharedRO =>
      simp only [act] at h ⊢
      have h' : (v.read t).ub = false := h
      have := read_over (base := base) h' hv
      simp only [over] at this ⊢
      rw [this]
      rfl
    | sharedRW =>
      simp only [act] at h ⊢
      have := raw_over (base := base) h hv
      simp only [over] at this ⊢
      rw [this]
    | disabled => simp [act, bad] at h

/-- Tags and calls are fresh. -/
structure WF (lo : Nat) (l : Loc) : Prop where
  tags : ∀ i ∈ l.items, lo < i.tag
  prots : ∀ i ∈ l.items, ∀ c, i.prot = some c → c < l.call
  calls : ∀ c ∈ l.calls, c < l.call
  tag : lo < l.tag
  live : l.live = true
  ub : l.ub = false

theorem write_wf {lo t : Nat} {l : Loc} (hl : l.WF lo) (h : (l.write t).ub = false) :
    (l.write t).WF lo ∧ (l.write t).call = l.call ∧ (l.write t).calls = l.calls ∧ (l.write t).tag = l.tag := by
  unfold write at h ⊢
  cases hg : locate true t l.items with
  | none => simp [hg, bad] at h
  | some x =>
    obtain ⟨a, g, b⟩ := x
    simp only [hl.live, hg] at h ⊢
    split at h
    · simp [bad] at h
    · rename_i hn
      rw [if_neg hn]
      have hs := (locate_spec hg).1
      have sub : ∀ i ∈ keep g a ++ g :: b, i ∈ l.items := by
        intro i hi
        rw [hs]
        rcases List.mem_append.1 hi with hi | hi
        · exact List.mem_append_left _ (keep_sub _ _ i hi)
        · exact List.mem_append_right _ hi
      exact ⟨⟨fun i hi => hl.tags i (sub i hi), fun i hi => hl.prots i (sub i hi), hl.calls, hl.tag, rfl, hl.ub⟩, rfl, rfl, rfl⟩

theorem read_wf {lo t : Nat} {l : Loc} (hl : l.WF lo) (h : (l.read t).ub = false) :
    (l.read t).WF lo ∧ (l.read t).call = l.call ∧ (l.read t).calls = l.calls ∧ (l.read t).tag = l.tag := by
  unfold read at h ⊢
  cases hg : locate false t l.items with
  | none => simp [hg, bad] at h
  | some x =>
    obtain ⟨a, g, b⟩ := x
    simp only [hl.live, hg] at h ⊢
    split at h
    · simp [bad] at h
    · rename_i hn
      rw [if_neg hn]
      have hs := (locate_spec hg).1
      have sub : ∀ i ∈ a.map (fun i => if i.perm = .unique then { i with perm := .disabled } else i) ++ g :: b, ∃ j ∈ l.items, i.tag = j.tag ∧ i.prot = j.prot := by
        intro i hi
        rw [hs]
        rcases List.mem_append.1 hi with hi | hi
        · obtain ⟨j, hj, rfl⟩ := List.mem_map.1 hi
          refine ⟨j, List.mem_append_left _ hj, ?_⟩
          split <;> exact ⟨rfl, rfl⟩
        · exact ⟨i, List.mem_append_right _ hi, rfl, rfl⟩
      refine ⟨⟨fun i hi => ?_, fun i hi => ?_, hl.calls, hl.tag, rfl, hl.ub⟩, rfl, rfl, rfl⟩
      · obtain ⟨j, hj, e, -⟩ := sub i hi
        rw [e]; exact hl.tags j hj
      · obtain ⟨j, hj, -, e⟩ := sub i hi
        rw [e]; exact hl.prots j hj

theorem act_wf {lo : Nat} {a : Acc} {l : Loc} (hl : l.WF lo) (h : (l.act a).ub = false) : (l.act a).WF lo := by
  have head : ∀ prot : Bool, ∀ c, (if prot = true then l.calls.head? else none) = some c → c < l.call := by
    intro prot c hc
    cases prot with
    | false => simp at hc
    | true => exact hl.calls c (List.mem_of_mem_head? (by simpa using hc))
  cases a with
  | read t => exact (read_wf hl h).1
  | write t => exact (write_wf hl h).1
  | enter =>
    exact ⟨hl.tags, fun i hi c hc => Nat.lt_succ_of_lt (hl.prots i hi c hc),
      fun c hc => by
        rcases List.mem_cons.1 hc with rfl | hc
        · exact Nat.lt_succ_self _
        · exact Nat.lt_succ_of_lt (hl.calls c hc), hl.tag, hl.live, hl.ub⟩
  | leave =>
    simp only [act] at h ⊢
    cases hc : l.calls with
    | nil => simp [hc, bad] at h
    | cons c cs => exact ⟨hl.tags, hl.prots, fun d hd => hl.calls d (by rw [hc]; exact List.mem_cons_of_mem _ hd), hl.tag, hl.live, hl.ub⟩
  | reborrow p t prot =>
    cases p with
    | unique =>
      have h' : (l.write t).ub = false := h
      obtain ⟨hw, e1, e2, e3⟩ := write_wf hl h'
      refine ⟨fun i hi => ?_, fun i hi c hc => ?_, hw.calls, Nat.lt_succ_of_lt hl.tag, hw.live, h⟩
      · rcases List.mem_cons.1 hi with rfl | hi
        · exact hl.tag
        · exact hw.tags i hi
      · rcases List.mem_cons.1 hi with rfl | hi
        · show c < (l.write t).call
          rw [e1]; exact head prot c hc
        · exact hw.prots i hi c hc
    | sharedRO =>
      have h' : (l.read t).ub = false := h
      obtain ⟨hw, e1, e2, e3⟩ := read_wf hl h'
      refine ⟨fun i hi => ?_, fun i hi c hc => ?_, hw.calls, Nat.lt_succ_of_lt hl.tag, hw.live, h⟩
      · rcases List.mem_cons.1 hi with rfl | hi
        · exact hl.tag
        · exact hw.tags i hi
      · rcases List.mem_cons.1 hi with rfl | hi
        · show c < (l.read t).call
          rw [e1]; exact head prot c hc
        · exact hw.prots i hi c hc
    | disabled => simp [act, bad] at h
    | sharedRW =>
      simp only [act, raw] at h ⊢
      cases hg : locate true t l.items with
      | none => simp [hg, bad] at h
      | some x =>
        obtain ⟨a, g, b⟩ := x
        simp only [hl.live]
        have hs := (locate_spec hg).1
        have sub : ∀ i ∈ popped g a ++ (⟨l.tag, .sharedRW, if prot = true then l.calls.head? else none⟩ : Item) :: (keep g a ++ g :: b),
            i = ⟨l.tag, .sharedRW, if prot = true then l.calls.head? else none⟩ ∨ i ∈ l.items := by
          intro i hi
          rw [hs]
          rcases List.mem_append.1 hi with hi | hi
          · exact .inr (List.mem_append_left _ (popped_sub _ _ i hi))
          · rcases List.mem_cons.1 hi with hi | hi
            · exact .inl hi
            · rcases List.mem_append.1 hi with hi | hi
              · exact .inr (List.mem_append_left _ (keep_sub _ _ i hi))
              · exact .inr (List.mem_append_right _ hi)
        refine ⟨fun i hi => ?_, fun i hi c hc => ?_, hl.calls, Nat.lt_succ_of_lt hl.tag, rfl, hl.ub⟩
        · rcases sub i hi with rfl | hi
          · exact hl.tag
          · exact hl.tags i hi
        · rcases sub i hi with rfl | hi
          · exact head prot c hc
          · exact hl.prots i hi c hc

end Loc

/-- Safe code runs to its end without undefined behaviour, and leaves alone what is below its reference. -/
theorem safeFold {lo : Nat} {base : List Item} : ∀ (as : List Acc) {v : Loc}, v.WF lo →
    ∃ v' : Loc, as.foldl safeStep (v.over base, v) = (v'.over base, v') ∧ v'.WF lo
  | [], v, hv => ⟨v, rfl, hv⟩
  | a :: as, v, hv => by
    rw [List.foldl_cons, safeStep]
    cases hu : (v.act a).ub with
    | true => simpa using safeFold as hv
    | false =>
      simp only [Bool.false_eq_true, if_false]
      rw [Loc.act_over hu hv.ub]
      exact safeFold as (Loc.act_wf hv hu)

theorem safeRun_over {lo : Nat} {base : List Item} (as : List Acc) {v : Loc} (hv : v.WF lo) :
    ∃ v' : Loc, safeRun as (v.over base, v) = (v'.over base, v') ∧ v'.WF lo ∧ v'.calls = [] := by
  obtain ⟨v', e, hv'⟩ := safeFold (base := base) as hv
  refine ⟨{ v' with calls := [] }, ?_, ⟨hv'.tags, hv'.prots, fun c hc => (List.not_mem_nil hc).elim, hv'.tag, hv'.live, hv'.ub⟩, rfl⟩
  simp only [safeRun, e]
  simp [Loc.over]

end Miniserde.SB

namespace Miniserde.BoxAlias

open SB

/-- The pointer `ptr` of the builder is intact: its entry is on the stack, everything above is younger, nothing is protected. -/
structure Held (ptr : Nat) (l : Loc) : Prop where
  items : ∃ up bot, l.items = up ++ ⟨ptr, .sharedRW, none⟩ :: bot ∧ ∀ i ∈ up, ptr < i.tag
  prots : ∀ i ∈ l.items, ∀ c, i.prot = some c → c < l.call
  calls : l.calls = []
  tag : ptr < l.tag
  live : l.live = true
  ub : l.ub = false

theorem locate_ptr {ptr : Nat} {bot : List Item} : ∀ {up : List Item}, (∀ i ∈ up, ptr < i.tag) →
    locate true ptr (up ++ ⟨ptr, .sharedRW, none⟩ :: bot) = some (up, ⟨ptr, .sharedRW, none⟩, bot)
  | [], _ => by simp [locate, Item.grants]
  | i :: up, h => by
    have hi : i.grants true ptr = false := by
      have := h i (List.mem_cons_self ..)
      simp only [Item.grants, Bool.and_eq_false_iff]
      exact .inl (by simp; omega)
    simp only [List.cons_append, locate, hi, Bool.false_eq_true, if_false, locate_ptr fun j hj => h j (List.mem_cons_of_mem _ hj)]
    rfl

theorem guarded_new {l : Loc} {k : Nat} (h : ∀ i ∈ l.items, ∀ c, i.prot = some c → c < k) {cs : List Nat} (hcs : ∀ c ∈ cs, k ≤ c) (s : List Item)
    (hs : ∀ i ∈ s, i ∈ l.items) : s.any (·.guarded cs) = false := by
  rw [List.any_eq_false]
  intro i hi
  simp only [Item.guarded]
  cases hp : i.prot with
  | none => simp
  | some c =>
    have h1 := h i (hs i hi) c hp
    simp only [List.contains_eq_mem, decide_eq_true_eq]
    intro hc
    have := hcs c hc
    omega

/-- A reborrow of the builder's pointer. -/
theorem reborrow_ptr {ptr : Nat} {l : Loc} (hl : Held ptr l) (cs : List Nat) (k : Nat) (hk : l.call ≤ k) (hcs : ∀ c ∈ cs, l.call ≤ c) :
    ∃ s, reborrow ptr { l with calls := cs, call := k } = (⟨⟨l.tag, .unique, none⟩ :: s, cs, l.tag + 1, k, true, false⟩, l.tag) ∧
      Held ptr ⟨⟨l.tag, .unique, none⟩ :: s, [], l.tag + 1, k, true, false⟩ := by
  obtain ⟨up, bot, hi, hup⟩ := hl.items
  obtain ⟨items, calls, tag, call, live, ub⟩ := l
  have := hl.live; have := hl.ub; have := hl.tag
  simp only at *
  subst live ub
  have hg := guarded_new (l := ⟨items, calls, tag, call, true, false⟩) (k := call) hl.prots hcs (popped ⟨ptr, .sharedRW, none⟩ up) (fun i h => by
    rw [hi]; exact List.mem_append_left _ (popped_sub _ _ i h))
  refine ⟨keep ⟨ptr, .sharedRW, none⟩ up ++ ⟨ptr, .sharedRW, none⟩ :: bot, ?_, ?_⟩
  · simp only [reborrow, Loc.act, Loc.write, hi, locate_ptr hup, hg]
    rfl
  · have sub : ∀ i ∈ keep ⟨ptr, .sharedRW, none⟩ up ++ ⟨ptr, .sharedRW, none⟩ :: bot, i ∈ items := by
      intro i h
      rw [hi]
      rcases List.mem_append.1 h with h | h
      · exact List.mem_append_left _ (keep_sub _ _ i h)
      · exact List.mem_append_right _ h
    refine ⟨⟨⟨tag, .unique, none⟩ :: keep ⟨ptr, .sharedRW, none⟩ up, bot, rfl, fun i h => ?_⟩, fun i h c hc => ?_, rfl, Nat.lt_succ_of_lt ‹_›, rfl, rfl⟩
    · rcases List.mem_cons.1 h with rfl | h
      · assumption
      · exact hup i (keep_sub _ _ i h)
    · rcases List.mem_cons.1 h with rfl | h
      · cases hc
      · exact Nat.lt_of_lt_of_le (hl.prots i (sub i h) c hc) hk

/-- More entries, younger ones. -/
theorem Held.cons {ptr : Nat} {s : List Item} {n k m j : Nat} (h : Held ptr ⟨s, [], n, k, true, false⟩) (i : Item) (hi : ptr < i.tag) (hp : ∀ c, i.prot = some c → c < j)
    (hm : n ≤ m) (hj : k ≤ j) : Held ptr ⟨i :: s, [], m, j, true, false⟩ := by
  obtain ⟨up, bot, e, hup⟩ := h.items
  have e' : s = up ++ ⟨ptr, .sharedRW, none⟩ :: bot := e
  refine ⟨⟨i :: up, bot, by rw [e']; rfl, fun x hx => ?_⟩, fun x hx c hc => ?_, rfl, Nat.lt_of_lt_of_le h.tag hm, rfl, rfl⟩
  · rcases List.mem_cons.1 hx with rfl | hx
    · exact hi
    · exact hup x hx
  · rcases List.mem_cons.1 hx with rfl | hx
    · exact hp c hc
    · exact Nat.lt_of_lt_of_le (h.prots x hx c hc) hj

theorem write_top (t : Nat) (p : Option Nat) (s : List Item) (cs : List Nat) (n k : Nat) :
    Loc.write t ⟨⟨t, .unique, p⟩ :: s, cs, n, k, true, false⟩ = ⟨⟨t, .unique, p⟩ :: s, cs, n, k, true, false⟩ := by
  simp [Loc.write, locate, Item.grants, popped, keep]

theorem read_top (t : Nat) (p : Option Nat) (s : List Item) (cs : List Nat) (n k : Nat) :
    Loc.read t ⟨⟨t, .unique, p⟩ :: s, cs, n, k, true, false⟩ = ⟨⟨t, .unique, p⟩ :: s, cs, n, k, true, false⟩ := by
  simp [Loc.read, locate, Item.grants]

theorem reborrow_top (t : Nat) (p : Option Nat) (s : List Item) (cs : List Nat) (n k : Nat) :
    reborrow t ⟨⟨t, .unique, p⟩ :: s, cs, n, k, true, false⟩ = (⟨⟨n, .unique, none⟩ :: ⟨t, .unique, p⟩ :: s, cs, n + 1, k, true, false⟩, n) := by
  simp only [reborrow, Loc.act, write_top]
  rfl

theorem argument_top (t : Nat) (p : Option Nat) (s : List Item) (cs : List Nat) (n k : Nat) :
    argument t ⟨⟨t, .unique, p⟩ :: s, cs, n, k, true, false⟩ = (⟨⟨n, .unique, some k⟩ :: ⟨t, .unique, p⟩ :: s, k :: cs, n + 1, k + 1, true, false⟩, n) := by
  simp only [argument, Loc.act, write_top]
  rfl

theorem enter_eq (s : List Item) (cs : List Nat) (n k : Nat) : Loc.act .enter ⟨s, cs, n, k, true, false⟩ = ⟨s, k :: cs, n, k + 1, true, false⟩ := rfl
theorem leave_eq (s : List Item) (c : Nat) (cs : List Nat) (n k : Nat) : leave ⟨s, c :: cs, n, k, true, false⟩ = ⟨s, cs, n, k, true, false⟩ := rfl
theorem read_act (t : Nat) (p : Option Nat) (s : List Item) (cs : List Nat) (n k : Nat) :
    Loc.act (.read t) ⟨⟨t, .unique, p⟩ :: s, cs, n, k, true, false⟩ = ⟨⟨t, .unique, p⟩ :: s, cs, n, k, true, false⟩ := read_top ..
theorem write_act (t : Nat) (p : Option Nat) (s : List Item) (cs : List Nat) (n k : Nat) :
    Loc.act (.write t) ⟨⟨t, .unique, p⟩ :: s, cs, n, k, true, false⟩ = ⟨⟨t, .unique, p⟩ :: s, cs, n, k, true, false⟩ := write_top ..

theorem lend_top (t : Nat) (p : Option Nat) (s : List Item) (n k : Nat) :
    lend t ⟨⟨t, .unique, p⟩ :: s, [], n, k, true, false⟩ =
      (Loc.over (⟨t, .unique, p⟩ :: s) ⟨[⟨n, .unique, some k⟩], [k], n + 1, k + 1, true, false⟩, ⟨[⟨n, .unique, some k⟩], [k], n + 1, k + 1, true, false⟩) := by
  simp only [lend, Loc.act, write_top]
  rfl

theorem lend_wf {lo n k : Nat} (h : lo < n) : Loc.WF lo ⟨[⟨n, .unique, some k⟩], [k], n + 1, k + 1, true, false⟩ := by
  refine ⟨?_, ?_, ?_, Nat.lt_succ_of_lt h, rfl, rfl⟩ <;> simp [h]

theorem derefMut_held {ptr : Nat} {l : Loc} (hl : Held ptr l) :
    ∃ s k, derefMut ptr l = (⟨⟨l.tag + 2, .unique, none⟩ :: s, [], l.tag + 3, k, true, false⟩, l.tag + 2) ∧
      Held ptr ⟨⟨l.tag + 2, .unique, none⟩ :: s, [], l.tag + 3, k, true, false⟩ := by
  obtain ⟨s, e, h⟩ := reborrow_ptr hl [l.call + 1, l.call] (l.call + 2) (by omega) (by simp)
  have e0 : (l.act .enter).act .enter = { l with calls := [l.call + 1, l.call], call := l.call + 2 } := by
    simp only [Loc.act, hl.calls]
  have ht := hl.tag
  refine ⟨_, _, ?_, ((h.cons ⟨l.tag + 1, .unique, none⟩ (by simp; omega) (by simp) (m := l.tag + 2) (by omega) (Nat.le_refl _)).cons ⟨l.tag + 2, .unique, none⟩ (by simp; omega) (by simp) (m := l.tag + 3) (by omega) (Nat.le_refl _))⟩
  simp only [derefMut, e0, e, leave_eq, reborrow_top]

theorem take_held {ptr : Nat} {l : Loc} (hl : Held ptr l) : Held ptr (take ptr l) := by
  obtain ⟨s, k, e, h⟩ := derefMut_held hl
  have ht := hl.tag
  simp only [take, e, reborrow_top, argument_top, read_act, write_act, leave_eq]
  exact ((h.cons ⟨l.tag + 2 + 1, .unique, none⟩ (by simp; omega) (by simp) (m := l.tag + 3 + 1) (j := k) (by omega) (by omega)).cons
    ⟨l.tag + 3 + 1, .unique, some k⟩ (by simp; omega) (by simp) (m := l.tag + 3 + 1 + 1) (j := k + 1) (by omega) (by omega)).cons
    ⟨l.tag + 3 + 1 + 1, .unique, some (k + 1)⟩ (by simp; omega) (by simp) (by omega) (by omega)

/-- The user's code runs on what it has been lent. -/
theorem held_over {ptr : Nat} {base : List Item} {v : Loc} (hv : v.WF ptr) (hc : v.calls = [])
    (hb : ∃ up bot, base = up ++ ⟨ptr, .sharedRW, none⟩ :: bot ∧ ∀ i ∈ up, ptr < i.tag) (hp : ∀ i ∈ base, ∀ c, i.prot = some c → c < v.call) : Held ptr (v.over base) := by
  obtain ⟨up, bot, rfl, hup⟩ := hb
  refine ⟨⟨v.items ++ up, bot, by simp [Loc.over], fun i hi => ?_⟩, fun i hi c e => ?_, hc, hv.tag, hv.live, hv.ub⟩
  · rcases List.mem_append.1 hi with hi | hi
    · exact hv.tags i hi
    · exact hup i hi
  · rcases List.mem_append.1 hi with hi | hi
    · exact hv.prots i hi c e
    · exact hp i hi c e

theorem act_call {a : Acc} {l : Loc} : l.call ≤ (l.act a).call := by
  cases a with
  | read t => simp only [Loc.act, Loc.read]; (repeat' split) <;> exact Nat.le_refl _
  | write t => simp only [Loc.act, Loc.write]; (repeat' split) <;> exact Nat.le_refl _
  | enter => exact Nat.le_succ _
  | leave => simp only [Loc.act]; split <;> exact Nat.le_refl _
  | reborrow p t prot =>
    cases p with
    | unique => simp only [Loc.act, Loc.push, Loc.write]; (repeat' split) <;> exact Nat.le_refl _
    | sharedRO => simp only [Loc.act, Loc.push, Loc.read]; (repeat' split) <;> exact Nat.le_refl _
    | sharedRW => simp only [Loc.act, Loc.raw]; (repeat' split) <;> exact Nat.le_refl _
    | disabled => exact Nat.le_refl _

theorem safeFold_call : ∀ (as : List Acc) (x : Loc × Loc), x.2.call ≤ (as.foldl safeStep x).2.call
  | [], _ => Nat.le_refl _
  | a :: as, x => by
    refine Nat.le_trans ?_ (safeFold_call as (safeStep x a))
    unfold safeStep
    split
    · exact Nat.le_refl _
    · exact act_call

theorem safeRun_call (as : List Acc) (x : Loc × Loc) : x.2.call ≤ (safeRun as x).2.call := safeFold_call as x

/-- What the builder's fields are like between two calls. -/
structure Inv (b : Bld) : Prop where
  held : Held b.ptr b.loc
  inner : ∀ v, b.inner = some v → v.WF b.ptr ∧ v.calls = [] ∧ ∃ base, b.loc = v.over base ∧
    (∃ up bot, base = up ++ ⟨b.ptr, .sharedRW, none⟩ :: bot ∧ ∀ i ∈ up, b.ptr < i.tag) ∧ ∀ i ∈ base, ∀ c, i.prot = some c → c < v.call

theorem Inv.user {b : Bld} (h : Inv b) (as : List Acc) : Inv (b.user as) ∧ (b.user as).ptr = b.ptr ∧ (b.user as).inner.isSome = b.inner.isSome := by
  unfold Bld.user
  cases hb : b.inner with
  | none => exact ⟨h, rfl, by rw [hb]⟩
  | some v =>
    obtain ⟨hv, hc, base, e, hbase, hp⟩ := h.inner v hb
    obtain ⟨v', e', hv', hc'⟩ := safeRun_over (base := base) as hv
    have hcall : v.call ≤ v'.call := by
      have := safeRun_call as (v.over base, v)
      rw [e'] at this
      exact this
    have hp' : ∀ i ∈ base, ∀ c, i.prot = some c → c < v'.call := fun i hi c hc => Nat.lt_of_lt_of_le (hp i hi c hc) hcall
    simp only [e, e']
    refine ⟨⟨held_over hv' hc' hbase hp', ?_⟩, trivial, rfl⟩
    intro w hw
    obtain rfl : v' = w := by simpa using hw
    exact ⟨hv', hc', base, rfl, hbase, hp'⟩

/-- The user's builder is gone. -/
theorem Inv.gone {b : Bld} (h : Inv b) : Inv { b with inner := none } := ⟨h.held, fun v hv => by simp at hv⟩

theorem Inv.finish {b : Bld} (h : Inv b) (acts : List Acc) (res : Res) (dacts : List Acc) (panics : Bool) : Inv (b.finish acts res dacts panics) := by
  unfold Bld.finish
  split
  · exact (h.user acts).1
  · have h1 := ((h.user acts).1.user dacts).1.gone
    split
    · exact h1
    · exact ⟨take_held h1.held, fun v hv => by simp at hv⟩

theorem locate_mem {t : Nat} {w : Bool} : ∀ {s : List Item}, (∃ i ∈ s, i.grants w t = true) → ∃ r, locate w t s = some r
  | [], h => by simp at h
  | i :: s, h => by
    unfold locate
    split
    · exact ⟨_, rfl⟩
    · rename_i hi
      obtain ⟨j, hj, hg⟩ := h
      rcases List.mem_cons.1 hj with rfl | hj
      · exact absurd hg hi
      · obtain ⟨r, e⟩ := locate_mem ⟨j, hj, hg⟩
        exact ⟨_, by rw [e]; rfl⟩

/-- The memory can be freed through a unique tag that is still on the stack. -/
theorem free_ok {t : Nat} {p : Option Nat} {s : List Item} {v : Loc} (hc : v.calls = []) (hl : v.live = true) (hu : v.ub = false) :
    (Loc.free t (v.over (⟨t, .unique, p⟩ :: s))).ub = false := by
  obtain ⟨⟨a, g, b⟩, e⟩ := locate_mem (t := t) (w := true) (s := v.items ++ ⟨t, .unique, p⟩ :: s)
    ⟨⟨t, .unique, p⟩, List.mem_append_right _ (List.mem_cons_self ..), by simp [Item.grants]⟩
  have ng : ∀ s : List Item, s.any (·.guarded []) = false := by
    intro s
    rw [List.any_eq_false]
    intro i _
    simp only [Item.guarded]
    split <;> simp
  simp only [Loc.free, Loc.write, Loc.over, hl, e, hc, ng, Bool.false_eq_true, if_false]
  exact hu

theorem free_live (t : Nat) (l : Loc) (hl : (l.free t).ub = false) : (l.free t).live = false := by
  simp only [Loc.free] at hl ⊢
  split at hl
  · simp [Loc.bad] at hl
  · rename_i hn
    rw [if_neg hn]

theorem dropBox_ok {ptr : Nat} {l : Loc} (hl : Held ptr l) (vacts : List Acc) : (dropBox vacts ptr l).ub = false := by
  obtain ⟨s, e, h⟩ := reborrow_ptr hl [l.call] (l.call + 1) (by omega) (by simp)
  have e0 : l.act .enter = { l with calls := [l.call], call := l.call + 1 } := by simp only [Loc.act, hl.calls]
  simp only [dropBox, e0, e, leave_eq, reborrow_top, lend_top]
  obtain ⟨v, e1, hv, hc⟩ := safeRun_over (base := ⟨l.tag + 1, .unique, none⟩ :: ⟨l.tag, .unique, none⟩ :: s) vacts (lend_wf (lo := l.tag + 1) (n := l.tag + 1 + 1) (k := l.call + 1) (by omega))
  rw [e1]
  exact free_ok hc hv.live hv.ub

theorem Inv.drop {b : Bld} (h : Inv b) (dacts : List Acc) (abort : Bool) (vacts : List Acc) : (b.drop dacts abort vacts).ub = false := by
  unfold Bld.drop
  have h1 := (h.user dacts).1
  split
  · exact h1.held.ub
  · exact dropBox_ok h1.held vacts

theorem newBox_held : Held newBox.2 newBox.1 ∧ newBox.1.tag = 5 :=
  ⟨⟨⟨[], _, rfl, by simp⟩, by decide, rfl, by decide, rfl, rfl⟩, rfl⟩

theorem start_ok (acts : List Acc) (res : Res) (vacts : List Acc) :
    (∃ l, start false acts res vacts = .inl l ∧ l.ub = false ∧ l.live = false) ∨ ∃ b, start false acts res vacts = .inr b ∧ Inv b := by
  obtain ⟨hn, ht⟩ := newBox_held
  obtain ⟨s, k, e, h⟩ := derefMut_held hn
  have hlt := hn.tag
  simp only [start]
  generalize newBox = nb at *
  obtain ⟨l, ptr⟩ := nb
  simp only at *
  have H := ((h.cons ⟨l.tag + 3, .unique, none⟩ (by simp; omega) (by simp) (m := l.tag + 3 + 1) (j := k) (by omega) (by omega)).cons
    ⟨l.tag + 3 + 1, .unique, some k⟩ (by simp; omega) (by simp) (m := l.tag + 3 + 1 + 1) (j := k + 1) (by omega) (by omega)).cons
    ⟨l.tag + 3 + 1 + 1, .unique, none⟩ (by simp; omega) (by simp) (m := l.tag + 3 + 1 + 1 + 1) (j := k + 1) (by omega) (by omega)
  simp only [e, reborrow_top, argument_top, leave_eq, move, Bool.false_eq_true, if_false, lend_top]
  obtain ⟨v, e1, hv, hc⟩ := safeRun_over
    (base := ⟨l.tag + 3 + 1 + 1, .unique, none⟩ :: ⟨l.tag + 3 + 1, .unique, some k⟩ :: ⟨l.tag + 3, .unique, none⟩ :: ⟨l.tag + 2, .unique, none⟩ :: s) acts
    (lend_wf (lo := ptr) (n := l.tag + 3 + 1 + 1 + 1) (k := k + 1) (by omega))
  have hcall := safeRun_call acts (Loc.over (⟨l.tag + 3 + 1 + 1, .unique, none⟩ :: ⟨l.tag + 3 + 1, .unique, some k⟩ :: ⟨l.tag + 3, .unique, none⟩ :: ⟨l.tag + 2, .unique, none⟩ :: s)
    ⟨[⟨l.tag + 3 + 1 + 1 + 1, .unique, some (k + 1)⟩], [k + 1], l.tag + 3 + 1 + 1 + 1 + 1, k + 1 + 1, true, false⟩,
    ⟨[⟨l.tag + 3 + 1 + 1 + 1, .unique, some (k + 1)⟩], [k + 1], l.tag + 3 + 1 + 1 + 1 + 1, k + 1 + 1, true, false⟩)
  rw [e1] at hcall ⊢
  simp only at hcall
  have hp : ∀ i ∈ (⟨l.tag + 3 + 1 + 1, .unique, none⟩ :: ⟨l.tag + 3 + 1, .unique, some k⟩ :: ⟨l.tag + 3, .unique, none⟩ :: ⟨l.tag + 2, .unique, none⟩ :: s : List Item),
      ∀ c, i.prot = some c → c < v.call := fun i hi c e => by
    have := H.prots i hi c e
    simp only at this
    omega
  have hh := held_over hv hc H.items hp
  split
  · exact .inr ⟨_, rfl, hh, fun w hw => by
      obtain rfl : v = w := by simpa using hw
      exact ⟨hv, hc, _, rfl, H.items, hp⟩⟩
  · exact .inl ⟨_, rfl, dropBox_ok hh vacts, free_live _ _ (dropBox_ok hh vacts)⟩

/-- The invariant of programs. -/
def WInv (w : World) : Prop := w.ub = false ∧ ∀ b, w.bld = some b → Inv b

theorem WInv.step {w : World} (h : WInv w) (c : BoxCall) : WInv (w.step false c) := by
  obtain ⟨bld, ub⟩ := w
  obtain ⟨rfl, hb⟩ := h
  have some_inv : ∀ {b' : Bld}, Inv b' → WInv ⟨some b', false⟩ := fun {b'} hb' => ⟨rfl, fun x hx => by
    obtain rfl : b' = x := by simpa using hx
    exact hb'⟩
  have none_inv : ∀ {u : Bool}, u = false → WInv ⟨none, u⟩ := fun hu => ⟨hu, fun x hx => by simp at hx⟩
  cases bld with
  | none =>
    cases c with
    | start acts res vacts =>
      rcases start_ok acts res vacts with ⟨l, e, hl, -⟩ | ⟨b, e, hi⟩
      · simp only [World.step, e]
        exact none_inv (by simpa using hl)
      · simp only [World.step, e]
        exact some_inv hi
    | child | finish | drop | forget => exact none_inv rfl
  | some b =>
    have hi := hb b rfl
    cases c with
    | start acts res vacts => exact some_inv hi
    | child acts => exact some_inv (hi.user acts).1
    | finish acts res dacts panics => exact some_inv (hi.finish acts res dacts panics)
    | drop dacts abort vacts => exact none_inv (by simpa using hi.drop dacts abort vacts)
    | forget => exact none_inv (by simpa using hi.held.ub)

theorem WInv.foldl : ∀ (prog : List BoxCall) {w : World}, WInv w → WInv (prog.foldl (World.step false) w)
  | [], _, h => h
  | c :: prog, _, h => WInv.foldl prog (h.step c)

theorem WInv.run (prog : List BoxCall) : WInv (World.run false prog) := WInv.foldl prog ⟨rfl, fun b hb => by simp at hb⟩

end Miniserde.BoxAlias
