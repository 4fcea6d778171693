import Verif.Spec.PanicMem

/-!
# Ownership in the array builder
-/

namespace Miniserde

/-- Dropped or leaked. -/
def Fate.gone (d : Fate) (l : Nat) : Nat := d.dropped.count l + d.leaked.count l

theorem Fate.gone_drop (d : Fate) (l a : Nat) : (d.drop l).gone a = d.gone a + [l].count a := by
  simp only [Fate.gone, Fate.drop, List.count_cons, List.count_nil]; omega
theorem Fate.gone_leak (d : Fate) (ls : List Nat) (a : Nat) : (d.leak ls).gone a = d.gone a + ls.count a := by
  simp only [Fate.gone, Fate.leak, List.count_append]; omega
theorem Fate.gone_check (d : Fate) (c : Bool) (a : Nat) : (d.check c).gone a = d.gone a := rfl

theorem glueDrop_spec (bomb : Nat → Bool) : ∀ (u : Bool) (ls : List Nat) (d : Fate),
    (∀ a, (glueDrop bomb u ls d).2.gone a = d.gone a + ls.count a) ∧ (glueDrop bomb u ls d).2.ub = d.ub ∧
      ((∀ l, bomb l = false) → (glueDrop bomb u ls d).2.leaked = d.leaked ∧ (glueDrop bomb u ls d).1 = if u then .panic else .ok)
  | u, [], d => by simp [glueDrop]
  | u, l :: ls, d => by
    unfold glueDrop
    split
    · rename_i hb
      split
      · refine ⟨fun a => ?_, rfl, fun h => by rw [h] at hb; cases hb⟩
        simp only [Fate.gone_leak, Fate.gone_drop, List.count_cons, List.count_nil]; omega
      · obtain ⟨h1, h2, h3⟩ := glueDrop_spec bomb true ls (d.drop l)
        refine ⟨fun a => ?_, h2, fun h => by rw [h] at hb; cases hb⟩
        rw [h1]; simp only [Fate.gone_drop, List.count_cons, List.count_nil]; omega
    · obtain ⟨h1, h2, h3⟩ := glueDrop_spec bomb u ls (d.drop l)
      refine ⟨fun a => ?_, h2, h3⟩
      rw [h1]; simp only [Fate.gone_drop, List.count_cons, List.count_nil]; omega

theorem loopDrop_spec (bomb : Nat → Bool) : ∀ (u : Bool) (ls : List Nat) (d : Fate),
    (∀ a, (loopDrop bomb u ls d).2.gone a = d.gone a + ls.count a) ∧ (loopDrop bomb u ls d).2.ub = d.ub ∧
      ((∀ l, bomb l = false) → (loopDrop bomb u ls d).2.leaked = d.leaked ∧ (loopDrop bomb u ls d).1 = if u then .panic else .ok)
  | u, [], d => by simp [loopDrop]
  | u, l :: ls, d => by
    unfold loopDrop
    split
    · rename_i hb
      refine ⟨fun a => ?_, rfl, fun h => by rw [h] at hb; cases hb⟩
      simp only [Fate.gone_leak, Fate.gone_drop, List.count_cons, List.count_nil]; omega
    · obtain ⟨h1, h2, h3⟩ := loopDrop_spec bomb u ls (d.drop l)
      refine ⟨fun a => ?_, h2, h3⟩
      rw [h1]; simp only [Fate.gone_drop, List.count_cons, List.count_nil]; omega

/-- The builder is well-formed. -/
structure ArrB.Wf (N : Nat) (b : ArrB) : Prop where
  size : b.array.length = N
  le : b.len ≤ N
  init : (b.array.take b.len).any Option.isNone = false

theorem ArrB.Wf.new (N : Nat) : (ArrB.new N).Wf N := ⟨by simp [ArrB.new], by simp [ArrB.new], by simp [ArrB.new]⟩

theorem take_set_succ : ∀ (l : List (Option Nat)) (n : Nat) (x : Option Nat), n < l.length → (l.set n x).take (n + 1) = l.take n ++ [x]
  | [], n, x, h => absurd h (Nat.not_lt_zero _)
  | y :: l, 0, x, h => rfl
  | y :: l, n + 1, x, h => by
    rw [List.set_cons_succ, List.take_succ_cons, take_set_succ l n x (by simpa using h)]; rfl

theorem shift_spec (bomb : Nat → Bool) {N : Nat} {b : ArrB} (h : b.Wf N) (d : Fate) :
    (b.shift bomb d).2.1.Wf N ∧
    (∀ a, (b.shift bomb d).2.1.owned.count a + (b.shift bomb d).2.2.gone a = b.owned.count a + d.gone a) ∧ (b.shift bomb d).2.2.ub = d.ub ∧
      (b.shift bomb d).2.2.leaked = d.leaked ∧ (b.shift bomb d).1 ≠ .abort ∧ ((b.shift bomb d).1 = .ok → (b.shift bomb d).2.1.element = none) := by
  obtain ⟨array, len, el⟩ := b
  obtain ⟨h1, h2, h3⟩ := h
  simp only at h1 h2 h3
  unfold ArrB.shift
  cases el with
  | none => exact ⟨⟨h1, h2, h3⟩, fun _ => rfl, rfl, rfl, by simp, fun _ => rfl⟩
  | some e =>
    simp only
    cases hs : array[len]? with
    | none =>
      refine ⟨⟨h1, h2, h3⟩, fun a => ?_, rfl, rfl, by simp only; split <;> simp, fun _ => rfl⟩
      simp only [ArrB.owned, Option.toList, List.count_append, List.count_nil, Fate.gone_drop]; omega
    | some x =>
      have hl : len < array.length := by
        rw [List.getElem?_eq_some_iff] at hs; exact hs.1
      have ht := take_set_succ array len (some e) hl
      refine ⟨⟨by simp [h1], by simp only; omega, ?_⟩, fun a => ?_, rfl, rfl, by simp, fun _ => rfl⟩
      · simp only
        rw [ht, List.any_append, h3]; rfl
      · simp only [ArrB.owned, ht, List.filterMap_append, Option.toList, List.count_append, List.count_nil]
        simp

theorem Flow.cases_ok (f : Flow) : f = .ok ∨ f ≠ .ok := by cases f <;> simp

theorem finish_spec (bomb : Nat → Bool) {N : Nat} {b : ArrB} (h : b.Wf N) (out : Option (List Nat)) (d : Fate) :
    (b.finish bomb N out d).2.1.Wf N ∧
    (∀ a, ((b.finish bomb N out d).2.2.1.getD []).count a + (b.finish bomb N out d).2.1.owned.count a + (b.finish bomb N out d).2.2.2.gone a =
      (out.getD []).count a + b.owned.count a + d.gone a) ∧
    (b.finish bomb N out d).2.2.2.ub = d.ub ∧
    ((∀ l, bomb l = false) → (b.finish bomb N out d).2.2.2.leaked = d.leaked) ∧
    ((∀ ls, out = some ls → ls.length = N) → ∀ ls, (b.finish bomb N out d).2.2.1 = some ls → ls.length = N) := by
  obtain ⟨s1, s2, s3, s4, s5, s6⟩ := shift_spec bomb h d
  unfold ArrB.finish
  generalize b.shift bomb d = r at s1 s2 s3 s4 s5 s6 ⊢
  obtain ⟨f, b', d'⟩ := r
  simp only at s1 s2 s3 s4 s5 s6
  have other : ∀ f, (f, b', out, d').2.1.Wf N ∧
    (∀ a, ((f, b', out, d').2.2.1.getD []).count a + (f, b', out, d').2.1.owned.count a + (f, b', out, d').2.2.2.gone a =
      (out.getD []).count a + b.owned.count a + d.gone a) ∧
    (f, b', out, d').2.2.2.ub = d.ub ∧
    ((∀ l, bomb l = false) → (f, b', out, d').2.2.2.leaked = d.leaked) ∧
    ((∀ ls, out = some ls → ls.length = N) → ∀ ls, (f, b', out, d').2.2.1 = some ls → ls.length = N) :=
    fun f : Flow => ⟨s1, fun a => by have := s2 a; simp only; omega, s3, fun _ => s4, fun h => h⟩
  cases f with
  | err => exact other .err
  | panic => exact other .panic
  | abort => exact other .abort
  | ok =>
    simp only
    split
    · exact other .err
    · rename_i hlen
      have hN : b'.len = N := Nat.le_antisymm s1.le (by omega)
      have hfull : b'.array.take b'.len = b'.array := List.take_of_length_le (by rw [hN, s1.size]; exact Nat.le_refl _)
      obtain ⟨g1, g2, g3⟩ := glueDrop_spec bomb false (out.getD []) d'
      unfold assignOut
      generalize glueDrop bomb false (out.getD []) d' = r at g1 g2 g3 ⊢
      obtain ⟨f, d2⟩ := r
      simp only at g1 g2 g3
      have other : ∀ f, (f, b', (none : Option (List Nat)), d2).2.1.Wf N ∧
        (∀ a, ((f, b', (none : Option (List Nat)), d2).2.2.1.getD []).count a + (f, b', (none : Option (List Nat)), d2).2.1.owned.count a + (f, b', (none : Option (List Nat)), d2).2.2.2.gone a =
          (out.getD []).count a + b.owned.count a + d.gone a) ∧
        (f, b', (none : Option (List Nat)), d2).2.2.2.ub = d.ub ∧
        ((∀ l, bomb l = false) → (f, b', (none : Option (List Nat)), d2).2.2.2.leaked = d.leaked) ∧
        ((∀ ls, out = some ls → ls.length = N) → ∀ ls, (f, b', (none : Option (List Nat)), d2).2.2.1 = some ls → ls.length = N) :=
        fun f : Flow => ⟨s1, fun a => by have := s2 a; have := g1 a; simp only [Option.getD_none, List.count_nil]; omega, g2.trans s3,
          fun h => (g3 h).1.trans s4, fun _ ls h => by cases h⟩
      cases f with
      | err => exact other .err
      | panic => exact other .panic
      | abort => exact other .abort
      | ok =>
        simp only [Option.getD_none, glueDrop, Bool.false_eq_true, if_false]
        have hi : b'.array.any Option.isNone = false := by rw [← hfull]; exact s1.init
        refine ⟨⟨s1.size, Nat.zero_le _, by simp⟩, fun a => ?_, ?_, fun h => (g3 h).1.trans s4, fun _ ls e => ?_⟩
        · have e1 := s2 a; have e2 := g1 a
          simp only [ArrB.owned, hfull, List.count_append, s6 rfl, Option.toList_none, List.count_nil] at e1
          simp only [List.count_append, Fate.gone_check, Option.getD_some, ArrB.owned, List.take_zero, List.filterMap_nil, List.nil_append, s6 rfl, Option.toList_none, List.count_nil, assumeInit]
          omega
        · simp only [Fate.check, hi, g2, s3, Bool.or_false]
        · cases e
          unfold assumeInit
          rw [← s1.size]
          generalize b'.array = l at hi
          induction l with
          | nil => rfl
          | cons x l ih =>
            cases x with
            | none => simp at hi
            | some x => simp only [List.any_cons, Option.isNone_some, Bool.false_or] at hi; simp [ih hi]

theorem drop_spec (bomb : Nat → Bool) {N : Nat} {b : ArrB} (h : b.Wf N) (u : Bool) (d : Fate) :
    (∀ a, (b.drop bomb u d).2.gone a = b.owned.count a + d.gone a) ∧ (b.drop bomb u d).2.ub = d.ub ∧
      ((∀ l, bomb l = false) → (b.drop bomb u d).2.leaked = d.leaked) := by
  unfold ArrB.drop
  have hlt : ¬ b.array.length < b.len := by have := h.size; have := h.le; omega
  have hchk : d.check ((b.array.take b.len).any Option.isNone || decide (b.array.length < b.len)) = d := by
    rw [h.init, decide_eq_false hlt]; simp [Fate.check]
  simp only [hchk]
  obtain ⟨g1, g2, g3⟩ := loopDrop_spec bomb u (assumeInit (b.array.take b.len)) d
  generalize loopDrop bomb u (assumeInit (b.array.take b.len)) d = r at g1 g2 g3 ⊢
  obtain ⟨f, d2⟩ := r
  simp only at g1 g2 g3
  have other : ∀ u', (∀ a, (glueDrop bomb u' b.element.toList d2).2.gone a = b.owned.count a + d.gone a) ∧ (glueDrop bomb u' b.element.toList d2).2.ub = d.ub ∧
      ((∀ l, bomb l = false) → (glueDrop bomb u' b.element.toList d2).2.leaked = d.leaked) := by
    intro u'
    obtain ⟨k1, k2, k3⟩ := glueDrop_spec bomb u' b.element.toList d2
    refine ⟨fun a => ?_, k2.trans g2, fun h => (k3 h).1.trans (g3 h).1⟩
    have := k1 a; have := g1 a
    simp only [ArrB.owned, List.count_append, assumeInit] at *
    omega
  cases f with
  | ok => exact other _
  | err => exact other _
  | panic => exact other _
  | abort =>
    refine ⟨fun a => ?_, g2, fun h => ?_⟩
    · have := g1 a
      simp only [ArrB.owned, List.count_append, assumeInit, Fate.gone_leak] at *
      omega
    · have := (g3 h).2; cases u <;> cases this

/-- Invariant of a program. -/
structure ArrMem.Inv (N : Nat) (m : ArrMem) : Prop where
  wf : ∀ b, m.bld = some b → b.Wf N
  places : ∀ a, m.held.count a + m.fate.gone a = if a < m.next then 1 else 0
  ub : m.fate.ub = false
  size : ∀ ls, m.out = some ls → ls.length = N

theorem count_erase_mem {l : List Nat} {x : Nat} (h : l.contains x = true) (a : Nat) : (l.erase x).count a + [x].count a = l.count a := by
  have hm : x ∈ l := by simpa using h
  rw [List.count_erase, List.count_cons, List.count_nil]
  by_cases e : x = a
  · subst e
    have := List.count_pos_iff.2 hm
    simp; omega
  · simp [e]

theorem count_filter_pool {pool ls : List Nat} {a : Nat} (hn : pool.count a ≤ 1) (hd : ls.Nodup) (hs : ∀ x ∈ ls, x ∈ pool) :
    (pool.filter fun l => !ls.contains l).count a + ls.count a = pool.count a := by
  by_cases h : a ∈ ls
  · have h1 := List.count_pos_iff.2 (hs a h)
    have h2 := List.count_pos_iff.2 h
    have h3 : ls.count a ≤ 1 := List.nodup_iff_count.1 hd a
    have h4 : (pool.filter fun l => !ls.contains l).count a = 0 := List.count_eq_zero.2 (by simp [h])
    omega
  · rw [List.count_filter (by simp [h]), List.count_eq_zero.2 h]; rfl

theorem ArrMem.Inv.init (N : Nat) : ArrMem.init.Inv N := by
  refine ⟨fun b h => (by cases h), fun a => ?_, rfl, fun ls h => (by cases h)⟩
  simp [ArrMem.init, ArrMem.held, Fate.gone]

theorem ArrMem.Inv.step {bomb : Nat → Bool} {N : Nat} {m : ArrMem} (h : m.Inv N) (op : ArrOp) : (m.step bomb N op).Inv N := by
  unfold ArrMem.step
  split
  · exact h
  obtain ⟨out, bld, pool, fate, next, dead⟩ := m
  obtain ⟨wf, places, ub, size⟩ := h
  simp only [ArrMem.held, List.count_append] at wf places ub size
  split
  · -- new
    refine ⟨wf, fun a => ?_, ub, size⟩
    have := places a
    simp only [ArrMem.held, List.count_append, List.count_cons, beq_iff_eq] at this ⊢
    generalize (match bld with | some b => b.owned | none => []).count a = z at *
    have e : (if a < next + 1 then 1 else 0) = (if a < next then 1 else 0) + if next = a then 1 else 0 := by
      by_cases h1 : a < next
      · rw [if_pos h1, if_pos (by omega), if_neg (by omega)]
      · by_cases h2 : next = a
        · rw [if_neg h1, if_pos (by omega), if_pos h2]
        · rw [if_neg h1, if_neg (by omega), if_neg h2]
    rw [e, ← this]
    omega
  · -- dropVal
    split
    · rename_i hc
      refine ⟨wf, fun a => ?_, ub, size⟩
      have := places a
      have := count_erase_mem hc a
      simp only [ArrMem.held, List.count_append, Fate.gone_drop] at *
      omega
    · exact ⟨wf, by simpa only [ArrMem.held, List.count_append] using places, ub, size⟩
  · -- start
    rename_i hb
    simp only at hb
    subst hb
    refine ⟨fun b h => by cases h; exact ArrB.Wf.new N, fun a => ?_, ub, size⟩
    have := places a
    simpa [ArrMem.held, ArrB.owned, ArrB.new] using this
  · -- element
    rename_i b hb
    simp only at hb
    subst hb
    obtain ⟨s1, s2, s3, -⟩ := shift_spec bomb (wf b rfl) fate
    refine ⟨fun b h => by cases h; exact s1, fun a => ?_, s3.trans ub, size⟩
    have := places a; have := s2 a
    simp only [ArrMem.held, List.count_append] at *
    omega
  · -- setElement
    rename_i l b hb
    simp only at hb
    subst hb
    split
    · rename_i hc
      obtain ⟨g1, g2, -⟩ := glueDrop_spec bomb false b.element.toList fate
      refine ⟨fun b' h => by cases h; exact ⟨(wf b rfl).size, (wf b rfl).le, (wf b rfl).init⟩, fun a => ?_, g2.trans ub, size⟩
      have := places a; have := g1 a
      have := count_erase_mem hc a
      simp only [ArrMem.held, List.count_append, ArrB.owned, Option.toList_some] at *
      omega
    · exact ⟨wf, by simpa only [ArrMem.held, List.count_append] using places, ub, size⟩
  · -- takeElement
    rename_i b hb
    simp only at hb
    subst hb
    refine ⟨fun b' h => by cases h; exact ⟨(wf b rfl).size, (wf b rfl).le, (wf b rfl).init⟩, fun a => ?_, ub, size⟩
    have := places a
    simp only [ArrMem.held, List.count_append, ArrB.owned, Option.toList_none, List.count_nil] at *
    omega
  · -- finish
    rename_i b hb
    simp only at hb
    subst hb
    obtain ⟨s1, s2, s3, -, s5⟩ := finish_spec bomb (wf b rfl) out fate
    refine ⟨fun b h => by cases h; exact s1, fun a => ?_, s3.trans ub, s5 size⟩
    have := places a; have := s2 a
    simp only [ArrMem.held, List.count_append] at *
    omega
  · -- dropBuilder
    rename_i u b hb
    simp only at hb
    subst hb
    obtain ⟨s1, s2, -⟩ := drop_spec bomb (wf b rfl) u fate
    refine ⟨fun b h => (by cases h), fun a => ?_, s2.trans ub, size⟩
    have := places a; have := s1 a
    simp only [ArrMem.held, List.count_append, List.count_nil] at *
    omega
  · -- forget
    rename_i b hb
    simp only at hb
    subst hb
    refine ⟨fun b h => (by cases h), fun a => ?_, ub, size⟩
    have := places a
    simp only [ArrMem.held, List.count_append, List.count_nil, Fate.gone_leak, ArrB.owned, assumeInit] at *
    omega
  · -- takeOut
    refine ⟨wf, fun a => ?_, ub, fun ls h => (by cases h)⟩
    have := places a
    simp only [ArrMem.held, List.count_append, Option.getD_none, List.count_nil] at *
    omega
  · -- putOut
    split
    · rename_i ls _ hc
      simp only [Bool.and_eq_true, decide_eq_true_eq, List.all_eq_true, beq_iff_eq, Option.isNone_iff_eq_none] at hc
      obtain ⟨⟨⟨rfl, hl⟩, hs⟩, hn⟩ := hc
      refine ⟨wf, fun a => ?_, ub, fun ls h => by cases h; exact hl⟩
      have h1 := places a
      have h3 : (if a < next then (1 : Nat) else 0) ≤ 1 := by split <;> omega
      have h2 : pool.count a ≤ 1 := by omega
      have := count_filter_pool h2 hn (fun x hx => by simpa using hs x hx)
      simp only [ArrMem.held, List.count_append, Option.getD_none, List.count_nil, Option.getD_some] at *
      omega
    · exact ⟨wf, by simpa only [ArrMem.held, List.count_append] using places, ub, size⟩
  · -- dropOut
    obtain ⟨g1, g2, -⟩ := glueDrop_spec bomb false (out.getD []) fate
    refine ⟨wf, fun a => ?_, g2.trans ub, fun ls h => (by cases h)⟩
    have := places a; have := g1 a
    simp only [ArrMem.held, List.count_append, Option.getD_none, List.count_nil, assignOut] at *
    omega
  · exact ⟨wf, by simpa only [ArrMem.held, List.count_append] using places, ub, size⟩

theorem ArrMem.Inv.foldl {bomb : Nat → Bool} {N : Nat} : ∀ (prog : List ArrOp) {m : ArrMem}, m.Inv N → (prog.foldl (ArrMem.step bomb N) m).Inv N
  | [], _, h => h
  | op :: prog, _, h => ArrMem.Inv.foldl prog (h.step op)

theorem ArrMem.step_calm {bomb : Nat → Bool} (hb : ∀ l, bomb l = false) {N : Nat} {m : ArrMem} (h : m.Inv N) {op : ArrOp} (ho : op ≠ .forget) :
    (m.step bomb N op).fate.leaked = m.fate.leaked := by
  unfold ArrMem.step
  split
  · rfl
  split
  · rfl
  · split <;> rfl
  · rfl
  · rename_i b hbd; exact (shift_spec bomb (h.wf b hbd) m.fate).2.2.2.1
  · split
    · exact ((glueDrop_spec bomb false _ m.fate).2.2 hb).1
    · rfl
  · rfl
  · rename_i b hbd; exact (finish_spec bomb (h.wf b hbd) m.out m.fate).2.2.2.1 hb
  · rename_i b hbd; exact (drop_spec bomb (h.wf b hbd) _ m.fate).2.2 hb
  · exact absurd rfl ho
  · rfl
  · split <;> rfl
  · exact ((glueDrop_spec bomb false _ m.fate).2.2 hb).1
  · rfl

theorem ArrMem.foldl_calm {bomb : Nat → Bool} (hb : ∀ l, bomb l = false) {N : Nat} : ∀ (prog : List ArrOp) {m : ArrMem}, m.Inv N → .forget ∉ prog →
    (prog.foldl (ArrMem.step bomb N) m).fate.leaked = m.fate.leaked
  | [], _, _, _ => rfl
  | op :: prog, m, h, ho => by
    rw [List.foldl_cons, ArrMem.foldl_calm hb prog (h.step op) (fun hm => ho (List.mem_cons_of_mem _ hm))]
    exact ArrMem.step_calm hb h (fun e => ho (by rw [e]; exact List.mem_cons_self))

theorem perm_range {ls : List Nat} {n : Nat} (h : ∀ a, ls.count a = if a < n then 1 else 0) : ls.Perm (List.range n) := by
  rw [List.perm_iff_count]
  intro a
  rw [h]
  have hn : (List.range n).count a ≤ 1 := List.nodup_iff_count.1 List.nodup_range a
  split
  · rename_i hl
    have := List.count_pos_iff.2 (List.mem_range.2 hl)
    omega
  · rename_i hl
    exact (List.count_eq_zero.2 (by simpa using hl)).symm

/-! ## `Box<T>` -/

/-- How often `a` is somewhere, seen from the code. -/
def pc (v : Option Nat) (pool : List Nat) (d : Fate) (a : Nat) : Nat := v.toList.count a + pool.count a + d.gone a

theorem runActs_spec (bomb : Nat → Bool) : ∀ (as : List Act) (p : BoxPlace),
    (∀ a, pc (runActs bomb as p).2.value (runActs bomb as p).2.pool (runActs bomb as p).2.fate a = pc p.value p.pool p.fate a) ∧
    (runActs bomb as p).2.fate.ub = p.fate.ub ∧ ((∀ l, bomb l = false) → (runActs bomb as p).2.fate.leaked = p.fate.leaked)
  | [], p => ⟨fun _ => rfl, rfl, fun _ => rfl⟩
  | .take :: as, p => by
    unfold runActs
    obtain ⟨h1, h2, h3⟩ := runActs_spec bomb as { p with value := none, pool := p.value.toList ++ p.pool }
    refine ⟨fun a => ?_, h2, h3⟩
    rw [h1]
    simp only [pc, Option.toList_none, List.count_nil, List.count_append]; omega
  | .set l :: as, p => by
    unfold runActs
    split
    · rename_i hc
      obtain ⟨g1, g2, g3⟩ := glueDrop_spec bomb false p.value.toList p.fate
      have e : ∀ a, pc (some l) (p.pool.erase l) (glueDrop bomb false p.value.toList p.fate).2 a = pc p.value p.pool p.fate a := by
        intro a
        have := g1 a
        have := count_erase_mem hc a
        simp only [pc, Option.toList_some] at *
        omega
      generalize glueDrop bomb false p.value.toList p.fate = r at g1 g2 g3 e ⊢
      obtain ⟨f, d⟩ := r
      simp only at g1 g2 g3 e
      cases f with
      | ok =>
        obtain ⟨h1, h2, h3⟩ := runActs_spec bomb as ⟨some l, p.pool.erase l, d⟩
        exact ⟨fun a => (h1 a).trans (e a), h2.trans g2, fun h => (h3 h).trans (g3 h).1⟩
      | err => exact ⟨e, g2, fun h => (g3 h).1⟩
      | panic => exact ⟨e, g2, fun h => (g3 h).1⟩
      | abort => exact ⟨e, g2, fun h => (g3 h).1⟩
    · exact runActs_spec bomb as p

/-- `m'` differs from `m` only in what user code owns and in the fate of values. -/
structure Frame' (m m' : BoxMem) : Prop where
  out : m'.out = m.out
  next : m'.next = m.next
  made : m'.made = m.made
  lost : m'.lost = m.lost
  ub : m'.fate.ub = m.fate.ub

theorem innerCall_spec (bomb : Nat → Bool) (acts : List Act) (res : Flow) {b : BoxB} (m : BoxMem) (ha : b.alive = true) (hf : b.freed = false) :
    Frame' m (innerCall bomb acts res b m).2.2 ∧ (innerCall bomb acts res b m).2.2.drops = m.drops ∧
    (∀ a, pc (innerCall bomb acts res b m).2.1.value (innerCall bomb acts res b m).2.2.pool (innerCall bomb acts res b m).2.2.fate a = pc b.value m.pool m.fate a) ∧
    ((innerCall bomb acts res b m).2.1.alive = true ∧ (innerCall bomb acts res b m).2.1.freed = false ∧ (innerCall bomb acts res b m).2.1.inner = b.inner) ∧
    ((∀ l, bomb l = false) → (innerCall bomb acts res b m).2.2.fate.leaked = m.fate.leaked) := by
  have hchk : m.fate.check (!b.alive || (b.freed && !acts.isEmpty)) = m.fate := by rw [ha, hf]; simp [Fate.check]
  unfold innerCall
  rw [hchk]
  obtain ⟨h1, h2, h3⟩ := runActs_spec bomb acts ⟨b.value, m.pool, m.fate⟩
  exact ⟨⟨rfl, rfl, rfl, rfl, h2⟩, rfl, h1, ⟨ha, hf, rfl⟩, h3⟩

/-- The user's builder is there exactly if the field holds it, and the allocation is there. -/
structure BoxB.Wf (b : BoxB) : Prop where
  alive : b.alive = b.inner
  freed : b.freed = false

def BoxB.n (b : BoxB) : Nat := if b.alive then 1 else 0

theorem innerDrop_spec (bomb : Nat → Bool) (u : Bool) (acts : List Act) (panics : Bool) {b : BoxB} (m : BoxMem) (h : b.Wf) :
    Frame' m (innerDrop bomb u acts panics b m).2.2 ∧ (innerDrop bomb u acts panics b m).2.2.drops = m.drops + b.n ∧
    (∀ a, pc (innerDrop bomb u acts panics b m).2.1.value (innerDrop bomb u acts panics b m).2.2.pool (innerDrop bomb u acts panics b m).2.2.fate a = pc b.value m.pool m.fate a) ∧
    ((innerDrop bomb u acts panics b m).2.1.alive = false ∧ (innerDrop bomb u acts panics b m).2.1.freed = false) ∧
    ((∀ l, bomb l = false) → (innerDrop bomb u acts panics b m).2.2.fate.leaked = m.fate.leaked) ∧
    ((innerDrop bomb u acts panics b m).1 = .abort → u = true) := by
  unfold innerDrop
  split
  · rename_i hi
    have ha : b.alive = true := by rw [h.alive, hi]
    obtain ⟨⟨a1, a2, a3, a4, a5⟩, a6, a7, a8, a9⟩ := innerCall_spec bomb acts (if panics then .panic else .ok) m ha h.freed
    simp only
    refine ⟨⟨a1, a2, a3, a4, a5⟩, by rw [a6]; simp [BoxB.n, ha], a7, ⟨trivial, a8.2.1⟩, a9, ?_⟩
    intro e
    cases u with
    | true => rfl
    | false =>
      simp only [Bool.false_eq_true, if_false] at e
      generalize (innerCall bomb acts (if panics = true then Flow.panic else Flow.ok) b m).1 = z at e
      revert e
      cases z <;> simp
  · rename_i hi
    have ha : b.alive = false := by rw [h.alive]; simpa using hi
    refine ⟨⟨rfl, rfl, rfl, rfl, rfl⟩, by simp [BoxB.n, ha], fun _ => rfl, ⟨ha, h.freed⟩, fun _ => rfl, ?_⟩
    intro e
    simp only at e
    split at e <;> cases e

theorem boxDrop_spec (bomb : Nat → Bool) (u : Bool) (acts : List Act) (panics : Bool) {b : BoxB} (m : BoxMem) (h : b.Wf) :
    Frame' m (b.drop bomb u acts panics m).2.2 ∧ (b.drop bomb u acts panics m).2.2.drops = m.drops + b.n ∧
    (∀ a, (b.drop bomb u acts panics m).2.2.pool.count a + (b.drop bomb u acts panics m).2.2.fate.gone a = pc b.value m.pool m.fate a) ∧
    ((∀ l, bomb l = false) → (b.drop bomb u acts panics m).1 ≠ .abort → (b.drop bomb u acts panics m).2.2.fate.leaked = m.fate.leaked) := by
  obtain ⟨⟨a1, a2, a3, a4, a5⟩, a6, a7, ⟨a8, a9⟩, a10, a11⟩ := innerDrop_spec bomb u acts panics m h
  unfold BoxB.drop
  generalize innerDrop bomb u acts panics b m = r at a1 a2 a3 a4 a5 a6 a7 a8 a9 a10 a11 ⊢
  obtain ⟨f, b', m'⟩ := r
  simp only at a1 a2 a3 a4 a5 a6 a7 a8 a9 a10 a11
  have other : ∀ f : Flow, Frame' m (valueDrop bomb (f == .panic) b' m').2.2 ∧ (valueDrop bomb (f == .panic) b' m').2.2.drops = m.drops + b.n ∧
      (∀ a, (valueDrop bomb (f == .panic) b' m').2.2.pool.count a + (valueDrop bomb (f == .panic) b' m').2.2.fate.gone a = pc b.value m.pool m.fate a) ∧
      ((∀ l, bomb l = false) → (valueDrop bomb (f == .panic) b' m').1 ≠ .abort → (valueDrop bomb (f == .panic) b' m').2.2.fate.leaked = m.fate.leaked) := by
    intro f
    have hchk : m'.fate.check (b'.alive || b'.freed) = m'.fate := by rw [a8, a9]; simp [Fate.check]
    simp only [valueDrop, hchk]
    obtain ⟨g1, g2, g3⟩ := glueDrop_spec bomb (f == .panic) b'.value.toList m'.fate
    refine ⟨⟨a1, a2, a3, a4, g2.trans a5⟩, a6, fun a => ?_, fun h _ => (g3 h).1.trans (a10 h)⟩
    have := g1 a; have := a7 a
    simp only [pc] at *
    omega
  cases f with
  | ok => exact other _
  | err => exact other _
  | panic => exact other _
  | abort =>
    refine ⟨⟨a1, a2, a3, a4, a5⟩, a6, fun a => ?_, fun _ h => absurd rfl h⟩
    have := a7 a
    simp only [pc, Fate.gone_leak] at *
    omega

theorem boxFinish_spec (bomb : Nat → Bool) (acts : List Act) (res : Flow) (dacts : List Act) (panics : Bool) {b : BoxB} (m : BoxMem) (h : b.Wf) :
    (b.finish bomb acts res dacts panics m).2.1.Wf ∧
    ((b.finish bomb acts res dacts panics m).2.2.next = m.next ∧ (b.finish bomb acts res dacts panics m).2.2.made = m.made ∧
      (b.finish bomb acts res dacts panics m).2.2.lost = m.lost ∧ (b.finish bomb acts res dacts panics m).2.2.fate.ub = m.fate.ub) ∧
    (b.finish bomb acts res dacts panics m).2.2.drops + (b.finish bomb acts res dacts panics m).2.1.n = m.drops + b.n ∧
    (∀ a, (b.finish bomb acts res dacts panics m).2.2.out.toList.count a + pc (b.finish bomb acts res dacts panics m).2.1.value (b.finish bomb acts res dacts panics m).2.2.pool (b.finish bomb acts res dacts panics m).2.2.fate a =
      m.out.toList.count a + pc b.value m.pool m.fate a) ∧
    ((∀ l, bomb l = false) → (b.finish bomb acts res dacts panics m).2.2.fate.leaked = m.fate.leaked) := by
  have first : ∃ r : Flow × BoxB × BoxMem, (if b.inner then innerCall bomb acts res b m else (.ok, b, m)) = r ∧ Frame' m r.2.2 ∧ r.2.2.drops = m.drops ∧
      (∀ a, pc r.2.1.value r.2.2.pool r.2.2.fate a = pc b.value m.pool m.fate a) ∧ r.2.1.Wf ∧ r.2.1.alive = b.alive ∧
      ((∀ l, bomb l = false) → r.2.2.fate.leaked = m.fate.leaked) := by
    split
    · rename_i hi
      have ha : b.alive = true := by rw [h.alive, hi]
      obtain ⟨a1, a2, a3, ⟨a4, a5, a6⟩, a7⟩ := innerCall_spec bomb acts res m ha h.freed
      exact ⟨_, rfl, a1, a2, a3, ⟨by rw [a4, a6, hi], a5⟩, a4.trans ha.symm, a7⟩
    · exact ⟨_, rfl, ⟨rfl, rfl, rfl, rfl, rfl⟩, rfl, fun _ => rfl, h, rfl, fun _ => rfl⟩
  obtain ⟨r, hr, ⟨f1, f2, f3, f4, f5⟩, f6, f7, f8, f9, f10⟩ := first
  unfold BoxB.finish
  rw [hr]
  obtain ⟨f, b1, m1⟩ := r
  clear hr
  simp only at f1 f2 f3 f4 f5 f6 f7 f8 f9 f10
  have other : ∀ f : Flow, (f, b1, m1).2.1.Wf ∧
    ((f, b1, m1).2.2.next = m.next ∧ (f, b1, m1).2.2.made = m.made ∧ (f, b1, m1).2.2.lost = m.lost ∧ (f, b1, m1).2.2.fate.ub = m.fate.ub) ∧
    (f, b1, m1).2.2.drops + (f, b1, m1).2.1.n = m.drops + b.n ∧
    (∀ a, (f, b1, m1).2.2.out.toList.count a + pc (f, b1, m1).2.1.value (f, b1, m1).2.2.pool (f, b1, m1).2.2.fate a =
      m.out.toList.count a + pc b.value m.pool m.fate a) ∧
    ((∀ l, bomb l = false) → (f, b1, m1).2.2.fate.leaked = m.fate.leaked) :=
    fun f => ⟨f8, ⟨f2, f3, f4, f5⟩, by simp only [f6, BoxB.n, f9], fun a => by simp only [f1, f7 a], f10⟩
  cases f with
  | err => exact other _
  | panic => exact other _
  | abort => exact other _
  | ok =>
    simp only
    obtain ⟨⟨a1, a2, a3, a4, a5⟩, a6, a7, ⟨a8, a9⟩, a10, -⟩ := innerDrop_spec bomb false dacts panics m1 f8
    generalize innerDrop bomb false dacts panics b1 m1 = r at a1 a2 a3 a4 a5 a6 a7 a8 a9 a10 ⊢
    obtain ⟨f, b2, m2⟩ := r
    simp only at a1 a2 a3 a4 a5 a6 a7 a8 a9 a10
    have hn : m2.drops = m.drops + b.n := by rw [a6, f6]; simp only [BoxB.n, f9]
    have hz : ({ b2 with inner := false } : BoxB).n = 0 := by simp [BoxB.n, a8]
    have other : ∀ f : Flow, (f, ({ b2 with inner := false } : BoxB), m2).2.1.Wf ∧
      ((f, ({ b2 with inner := false } : BoxB), m2).2.2.next = m.next ∧ (f, ({ b2 with inner := false } : BoxB), m2).2.2.made = m.made ∧ (f, ({ b2 with inner := false } : BoxB), m2).2.2.lost = m.lost ∧ (f, ({ b2 with inner := false } : BoxB), m2).2.2.fate.ub = m.fate.ub) ∧
      (f, ({ b2 with inner := false } : BoxB), m2).2.2.drops + (f, ({ b2 with inner := false } : BoxB), m2).2.1.n = m.drops + b.n ∧
      (∀ a, (f, ({ b2 with inner := false } : BoxB), m2).2.2.out.toList.count a + pc (f, ({ b2 with inner := false } : BoxB), m2).2.1.value (f, ({ b2 with inner := false } : BoxB), m2).2.2.pool (f, ({ b2 with inner := false } : BoxB), m2).2.2.fate a =
        m.out.toList.count a + pc b.value m.pool m.fate a) ∧
      ((∀ l, bomb l = false) → (f, ({ b2 with inner := false } : BoxB), m2).2.2.fate.leaked = m.fate.leaked) :=
      fun f => ⟨⟨a8, a9⟩, ⟨a2.trans f2, a3.trans f3, a4.trans f4, a5.trans f5⟩, by simp only [hz, hn]; rfl,
        fun a => by simp only [a1, f1, a7 a, f7 a], fun h => (a10 h).trans (f10 h)⟩
    cases f with
    | err => exact other _
    | panic => exact other _
    | abort => exact other _
    | ok =>
      have hchk : m2.fate.check (b2.alive || b2.freed) = m2.fate := by rw [a8, a9]; simp [Fate.check]
      simp only [hchk]
      cases hv : b2.value with
      | none => simpa only [hv] using other .panic
      | some v =>
        simp only
        obtain ⟨g1, g2, g3⟩ := glueDrop_spec bomb false m2.out.toList m2.fate
        refine ⟨⟨a8, a9⟩, ⟨a2.trans f2, a3.trans f3, a4.trans f4, g2.trans (a5.trans f5)⟩, ?_, fun a => ?_, fun h => (g3 h).1.trans ((a10 h).trans (f10 h))⟩
        · simp only [BoxB.n, a8] at hn ⊢
          simp [hn]
        · have e1 := g1 a; have e2 := a7 a; have e3 := f7 a
          rw [hv] at e2
          rw [a1, f1] at e1
          simp only [pc, a1, f1, Option.toList_some, Option.toList_none, List.count_nil] at *
          omega

/-- Invariant of a program. -/
structure BoxMem.Inv (m : BoxMem) : Prop where
  wf : ∀ b, m.bld = some b → b.Wf
  places : ∀ a, m.held.count a + m.fate.gone a = if a < m.next then 1 else 0
  ub : m.fate.ub = false
  inner : m.made = m.drops + m.lost + m.open

theorem BoxMem.Inv.init : BoxMem.init.Inv := by
  refine ⟨fun b h => (by cases h), fun a => ?_, rfl, rfl⟩
  simp [BoxMem.init, BoxMem.held, Fate.gone]

theorem start_spec (bomb : Nat → Bool) (acts : List Act) (res : Flow) (m : BoxMem) :
    (m.start bomb acts res).2.out = m.out ∧ (m.start bomb acts res).2.next = m.next ∧ (m.start bomb acts res).2.lost = m.lost ∧ (m.start bomb acts res).2.drops = m.drops ∧
    (m.start bomb acts res).2.fate.ub = m.fate.ub ∧ ((∀ l, bomb l = false) → (m.start bomb acts res).2.fate.leaked = m.fate.leaked) ∧
    (((m.start bomb acts res).2.made = m.made + 1 ∧ ∃ v, (m.start bomb acts res).2.bld = some ⟨v, false, true, true⟩ ∧
        ∀ a, pc v (m.start bomb acts res).2.pool (m.start bomb acts res).2.fate a = m.pool.count a + m.fate.gone a) ∨
      ((m.start bomb acts res).2.made = m.made ∧ (m.start bomb acts res).2.bld = m.bld ∧
        ∀ a, (m.start bomb acts res).2.pool.count a + (m.start bomb acts res).2.fate.gone a = m.pool.count a + m.fate.gone a)) := by
  unfold BoxMem.start
  obtain ⟨h1, h2, h3⟩ := runActs_spec bomb acts ⟨none, m.pool, m.fate⟩
  generalize runActs bomb acts ⟨none, m.pool, m.fate⟩ = r at h1 h2 h3 ⊢
  obtain ⟨f, v, pool, fate⟩ := r
  simp only [pc, Option.toList_none, List.count_nil, Nat.zero_add] at h1 h2 h3 ⊢
  generalize f.then res = f
  have other : ∀ (f : Flow) (u : Bool), (if (glueDrop bomb u v.toList fate).1 = .ok then f else (glueDrop bomb u v.toList fate).1, ({ m with pool := pool, fate := (glueDrop bomb u v.toList fate).2 } : BoxMem)).2.out = m.out ∧
      (glueDrop bomb u v.toList fate).2.ub = m.fate.ub ∧ ((∀ l, bomb l = false) → (glueDrop bomb u v.toList fate).2.leaked = m.fate.leaked) ∧
      ∀ a, pool.count a + (glueDrop bomb u v.toList fate).2.gone a = m.pool.count a + m.fate.gone a := by
    intro f u
    obtain ⟨g1, g2, g3⟩ := glueDrop_spec bomb u v.toList fate
    refine ⟨rfl, g2.trans h2, fun h => (g3 h).1.trans (h3 h), fun a => ?_⟩
    have := g1 a; have := h1 a
    omega
  cases f with
  | ok => exact ⟨rfl, rfl, rfl, rfl, h2, h3, .inl ⟨rfl, v, rfl, h1⟩⟩
  | err => exact ⟨rfl, rfl, rfl, rfl, (other .err false).2.1, (other .err false).2.2.1, .inr ⟨rfl, rfl, (other .err false).2.2.2⟩⟩
  | panic => exact ⟨rfl, rfl, rfl, rfl, (other .err true).2.1, (other .err true).2.2.1, .inr ⟨rfl, rfl, (other .err true).2.2.2⟩⟩
  | abort => exact ⟨rfl, rfl, rfl, rfl, (other .err false).2.1, (other .err false).2.2.1, .inr ⟨rfl, rfl, (other .err false).2.2.2⟩⟩

theorem BoxMem.Inv.step {bomb : Nat → Bool} {m : BoxMem} (h : m.Inv) (op : BoxOp) : (m.step bomb op).Inv := by
  unfold BoxMem.step
  split
  · exact h
  obtain ⟨wf, places, ub, inner⟩ := h
  simp only [BoxMem.held, List.count_append] at wf places ub
  split
  · -- new
    refine ⟨wf, fun a => ?_, ub, inner⟩
    have := places a
    simp only [BoxMem.held, List.count_append, List.count_cons, beq_iff_eq] at this ⊢
    generalize (match m.bld with | some b => b.value.toList | none => []).count a = z at *
    have e : (if a < m.next + 1 then 1 else 0) = (if a < m.next then 1 else 0) + if m.next = a then 1 else 0 := by
      by_cases h1 : a < m.next
      · rw [if_pos h1, if_pos (by omega), if_neg (by omega)]
      · by_cases h2 : m.next = a
        · rw [if_neg h1, if_pos (by omega), if_pos h2]
        · rw [if_neg h1, if_neg (by omega), if_neg h2]
    rw [e, ← this]
    omega
  · -- dropVal
    split
    · rename_i hc
      refine ⟨wf, fun a => ?_, ub, inner⟩
      have := places a
      have := count_erase_mem hc a
      simp only [BoxMem.held, List.count_append, Fate.gone_drop] at *
      omega
    · exact ⟨wf, by simpa only [BoxMem.held, List.count_append] using places, ub, inner⟩
  · -- start
    rename_i acts res hb
    obtain ⟨s1, s2, s3, s4, s5, -, s7⟩ := start_spec bomb acts res m
    simp only [hb, List.count_nil] at places
    simp only [BoxMem.open, hb] at inner
    rcases s7 with ⟨k1, v, k2, k3⟩ | ⟨k1, k2, k3⟩
    · refine ⟨fun b h => ?_, fun a => ?_, s5.trans ub, ?_⟩
      · simp only [k2, Option.some.injEq] at h
        subst h
        exact ⟨rfl, rfl⟩
      · have := places a; have := k3 a
        simp only [BoxMem.held, List.count_append, k2, s1, s2, pc] at *
        omega
      · simp only [BoxMem.open, k2, k1, s3, s4, inner]; rfl
    · refine ⟨fun b h => ?_, fun a => ?_, s5.trans ub, ?_⟩
      · simp only [k2, hb] at h; cases h
      · have := places a; have := k3 a
        simp only [BoxMem.held, List.count_append, k2, s1, s2, hb, List.count_nil] at *
        omega
      · simp only [BoxMem.open, k2, k1, s3, s4, inner, hb]
  · -- child
    rename_i acts res b hb
    split
    · rename_i hi
      have w := wf b hb
      have ha : b.alive = true := by rw [w.alive, hi]
      obtain ⟨⟨a1, a2, a3, a4, a5⟩, a6, a7, ⟨a8, a9, a10⟩, -⟩ := innerCall_spec bomb acts res m ha w.freed
      simp only [hb] at places
      simp only [BoxMem.open, hb, ha] at inner
      refine ⟨fun b h => ?_, fun a => ?_, a5.trans ub, ?_⟩
      · simp only [Option.some.injEq] at h
        subst h
        exact ⟨by rw [a8, a10, hi], a9⟩
      · have := places a; have := a7 a
        simp only [BoxMem.held, List.count_append, a1, a2, pc] at *
        omega
      · simp only [BoxMem.open, a8, a3, a4, a6, inner]
    · exact ⟨wf, by simpa only [BoxMem.held, List.count_append] using places, ub, inner⟩
  · -- finish
    rename_i acts res dacts panics b hb
    obtain ⟨s1, ⟨s2, s3, s4, s5⟩, s6, s7, -⟩ := boxFinish_spec bomb acts res dacts panics m (wf b hb)
    simp only [hb] at places
    simp only [BoxMem.open, hb] at inner
    refine ⟨fun b h => ?_, fun a => ?_, s5.trans ub, ?_⟩
    · simp only [Option.some.injEq] at h
      subst h; exact s1
    · have := places a; have := s7 a
      simp only [BoxMem.held, List.count_append, s2, pc] at *
      omega
    · simp only [BoxMem.open, s3, s4, BoxB.n] at *
      omega
  · -- dropBuilder
    rename_i u dacts panics b hb
    obtain ⟨⟨a1, a2, a3, a4, a5⟩, a6, a7, -⟩ := boxDrop_spec bomb u dacts panics m (wf b hb)
    simp only [hb] at places
    simp only [BoxMem.open, hb] at inner
    refine ⟨fun b h => (by cases h), fun a => ?_, a5.trans ub, ?_⟩
    · have := places a; have := a7 a
      simp only [BoxMem.held, List.count_append, a1, a2, pc, List.count_nil] at *
      omega
    · simp only [BoxMem.open, a3, a4, a6, BoxB.n] at *
      omega
  · -- forget
    rename_i b hb
    simp only [hb] at places
    simp only [BoxMem.open, hb] at inner
    refine ⟨fun b h => (by cases h), fun a => ?_, ub, ?_⟩
    · have := places a
      simp only [BoxMem.held, List.count_append, List.count_nil, Fate.gone_leak] at *
      omega
    · simp only [BoxMem.open] at *
      omega
  · -- takeOut
    refine ⟨wf, fun a => ?_, ub, inner⟩
    have := places a
    simp only [BoxMem.held, List.count_append, Option.toList_none, List.count_nil] at *
    omega
  · -- putOut
    split
    · rename_i l _ hc
      simp only [Bool.and_eq_true, Option.isNone_iff_eq_none] at hc
      refine ⟨wf, fun a => ?_, ub, inner⟩
      have := places a
      have := count_erase_mem hc.2 a
      simp only [BoxMem.held, List.count_append, Option.toList_none, List.count_nil, Option.toList_some, hc.1] at *
      omega
    · exact ⟨wf, by simpa only [BoxMem.held, List.count_append] using places, ub, inner⟩
  · -- dropOut
    obtain ⟨g1, g2, -⟩ := glueDrop_spec bomb false m.out.toList m.fate
    refine ⟨wf, fun a => ?_, g2.trans ub, inner⟩
    have := places a; have := g1 a
    simp only [BoxMem.held, List.count_append, Option.toList_none, List.count_nil] at *
    omega
  · exact ⟨wf, by simpa only [BoxMem.held, List.count_append] using places, ub, inner⟩

theorem BoxMem.Inv.foldl {bomb : Nat → Bool} : ∀ (prog : List BoxOp) {m : BoxMem}, m.Inv → (prog.foldl (BoxMem.step bomb) m).Inv
  | [], _, h => h
  | op :: prog, _, h => BoxMem.Inv.foldl prog (h.step op)

theorem BoxMem.step_calm {bomb : Nat → Bool} (hb : ∀ l, bomb l = false) {m : BoxMem} (h : m.Inv) {op : BoxOp} (ho : op ≠ .forget)
    (hd : (m.step bomb op).dead = false) : (m.step bomb op).fate.leaked = m.fate.leaked := by
  revert hd
  unfold BoxMem.step
  split
  · exact fun _ => rfl
  split
  · exact fun _ => rfl
  · split <;> exact fun _ => rfl
  · intro _; exact (start_spec bomb _ _ m).2.2.2.2.2.1 hb
  · rename_i acts res b hbd
    split
    · rename_i hi
      intro _
      have w := h.wf b hbd
      exact (innerCall_spec bomb acts res m (by rw [w.alive, hi]) w.freed).2.2.2.2 hb
    · exact fun _ => rfl
  · rename_i b hbd; intro _; exact (boxFinish_spec bomb _ _ _ _ m (h.wf b hbd)).2.2.2.2 hb
  · rename_i b hbd
    intro hd
    refine (boxDrop_spec bomb _ _ _ m (h.wf b hbd)).2.2.2 hb fun e => ?_
    simp only [e] at hd
    cases hd
  · exact absurd rfl ho
  · exact fun _ => rfl
  · split <;> exact fun _ => rfl
  · intro _; exact ((glueDrop_spec bomb false _ m.fate).2.2 hb).1
  · exact fun _ => rfl

theorem BoxMem.step_dead {bomb : Nat → Bool} {m : BoxMem} (op : BoxOp) (hd : m.dead = true) : (m.step bomb op).dead = true := by
  unfold BoxMem.step
  rw [if_pos hd]; exact hd

theorem BoxMem.foldl_dead {bomb : Nat → Bool} : ∀ (prog : List BoxOp) {m : BoxMem}, m.dead = true → (prog.foldl (BoxMem.step bomb) m).dead = true
  | [], _, h => h
  | op :: prog, _, h => BoxMem.foldl_dead prog (BoxMem.step_dead op h)

theorem BoxMem.foldl_calm {bomb : Nat → Bool} (hb : ∀ l, bomb l = false) : ∀ (prog : List BoxOp) {m : BoxMem}, m.Inv → .forget ∉ prog →
    (prog.foldl (BoxMem.step bomb) m).dead = false → (prog.foldl (BoxMem.step bomb) m).fate.leaked = m.fate.leaked
  | [], _, _, _, _ => rfl
  | op :: prog, m, h, ho, hd => by
    rw [List.foldl_cons] at hd ⊢
    have h1 : (m.step bomb op).dead = false := by
      cases e : (m.step bomb op).dead with
      | false => rfl
      | true => rw [BoxMem.foldl_dead prog e] at hd; cases hd
    rw [BoxMem.foldl_calm hb prog (h.step op) (fun hm => ho (List.mem_cons_of_mem _ hm)) hd]
    exact BoxMem.step_calm hb h (fun e => ho (by rw [e]; exact List.mem_cons_self)) h1

end Miniserde
