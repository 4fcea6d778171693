import Verif.Proof.SerThreads
import Verif.Proof.ThreadsPool

/-!
# `to_string` on shared values: all threads
-/

namespace Miniserde.SerThreads
open Miniserde

variable {E : Env} {order : List (Bytes × Val) → List Nat} {ryu : F64 → Bytes} {vals : List Val} {calls : List (Ty × Nat)}

/-- At the head of the main loop. -/
def isHead : SProg PExit → Bool
  | .ret (.running _) => true
  | _ => false

/-- The memory consists of the values, unchanged, and the streams `hs i` of the threads, all disjoint; thread `i` is in iteration `ns i`. -/
structure Inv (E : Env) (order : List (Bytes × Val) → List Nat) (ryu : F64 → Bytes) (vals : List Val) (calls : List (Ty × Nat)) (P : SPool) (hs : Nat → Own) (ns : Nat → Nat) : Prop where
  length : P.threads.length = calls.length
  safe : ∀ (i : Nat) (c : Ty × Nat) (v : Val) (p : SProg PExit), calls[i]? = some c → vals[c.2]? = some v → P.threads[i]? = some p →
    Safe vals (At E order ryu vals c.1 v (ns i)) p (hs i)
  own : ∀ i a s, hs i a = some s → P.heap.mem a = some (.stream s)
  shared : ∀ a v, vals[a]? = some v → P.heap.mem a = some (.val v)
  apart : ∀ i, Apart vals (hs i)
  disj : ∀ i j a, i ≠ j → hs i a ≠ none → hs j a = none
  cover : ∀ a, P.heap.mem a ≠ none → a < vals.length ∨ ∃ i, i < calls.length ∧ hs i a ≠ none
  next : vals.length ≤ P.heap.next
  fresh : ∀ a, P.heap.next ≤ a → P.heap.mem a = none
  fault : P.heap.fault = false

theorem inv_start (ho : IteratesAll order) : Inv E order ryu vals calls (SPool.start E order vals calls) (fun _ _ => none) fun _ => 0 := by
  refine ⟨by simp [SPool.start], ?_, by nofun, ?_, fun _ _ _ => rfl, fun _ _ _ _ h => absurd rfl h, ?_, Nat.le_refl _, ?_, rfl⟩
  · intro i c v p hc hv hp
    simp only [SPool.start, List.getElem?_map, hc, Option.map_some, Option.some.injEq] at hp
    subst hp
    exact at_start ho ryu hv
  · intro a v h; simp [SPool.start, SMem.start, h]
  · intro a h
    left
    apply Nat.lt_of_not_le
    intro h'
    simp [SPool.start, SMem.start, List.getElem?_eq_none h'] at h
  · intro a h
    simp only [SPool.start, SMem.start] at h
    simp [SPool.start, SMem.start, List.getElem?_eq_none h]

/-- A step that leaves the memory as it is. -/
theorem inv_same {P : SPool} {hs : Nat → Own} {ns : Nat → Nat} (inv : Inv E order ryu vals calls P hs ns) {i : Nat} (hi : i < P.threads.length) {p' : SProg PExit} {n : Nat}
    (hs' : ∀ (c : Ty × Nat) (v : Val), calls[i]? = some c → vals[c.2]? = some v → Safe vals (At E order ryu vals c.1 v n) p' (hs i)) :
    Inv E order ryu vals calls { threads := P.threads.set i p', heap := P.heap } hs fun j => if j = i then n else ns j := by
  refine ⟨by simp only [List.length_set]; exact inv.length, ?_, inv.own, inv.shared, inv.apart, inv.disj, inv.cover, inv.next, inv.fresh, inv.fault⟩
  intro j d w q hd hw hq
  by_cases e : j = i
  · subst e
    simp only [List.getElem?_set_self hi, Option.some.injEq] at hq
    subst hq
    simp only [if_true]; exact hs' d w hd hw
  · simp only [List.getElem?_set_ne (Ne.symm e)] at hq
    simp only [e, if_false]; exact inv.safe j d w q hd hw hq

/-- A step of thread `i` that changes its stream at `a`, or allocates or frees it. -/
theorem inv_upd {P : SPool} {hs : Nat → Own} {ns : Nat → Nat} (inv : Inv E order ryu vals calls P hs ns) {i : Nat} (hi : i < P.threads.length) {p' : SProg PExit} {a m : Nat} {o : Option PStream}
    (ha : vals.length ≤ a) (hm : hs i a ≠ none ∨ P.heap.mem a = none) (hn : P.heap.next ≤ m) (hlt : a < m)
    (hs' : ∀ (c : Ty × Nat) (v : Val), calls[i]? = some c → vals[c.2]? = some v → Safe vals (At E order ryu vals c.1 v (ns i)) p' (upd (hs i) a o)) :
    Inv E order ryu vals calls { threads := P.threads.set i p', heap := { P.heap.put a (o.map .stream) with next := m } }
      (fun j => if j = i then upd (hs i) a o else hs j) ns := by
  have hic : i < calls.length := by rw [← inv.length]; exact hi
  have other : ∀ j, j ≠ i → hs j a = none := by
    intro j hj
    rcases hm with hm | hm
    · exact inv.disj i j a (Ne.symm hj) hm
    · cases e : hs j a with
      | none => rfl
      | some s => rw [inv.own j a s e] at hm; cases hm
  refine ⟨by simp only [List.length_set]; exact inv.length, ?_, ?_, ?_, ?_, ?_, ?_, Nat.le_trans inv.next hn, ?_, inv.fault⟩
  · intro j d w q hd hw hq
    by_cases e : j = i
    · subst e
      simp only [List.getElem?_set_self hi, Option.some.injEq] at hq
      subst hq
      simp only [if_true]; exact hs' d w hd hw
    · simp only [List.getElem?_set_ne (Ne.symm e)] at hq
      simp only [e, if_false]; exact inv.safe j d w q hd hw hq
  · intro j b s
    by_cases e : j = i
    · simp only [e, if_true, SMem.put, upd]
      by_cases e' : b = a
      · simp only [e', if_true]; intro h; rw [h]; rfl
      · simp only [e', if_false]; exact inv.own i b s
    · simp only [e, if_false, SMem.put]
      intro h
      have : b ≠ a := by rintro rfl; rw [other j e] at h; cases h
      simp only [this, if_false]; exact inv.own j b s h
  · intro b v h
    have : b ≠ a := by have := (List.getElem?_eq_some_iff.1 h).1; omega
    simp only [SMem.put, this, if_false]; exact inv.shared b v h
  · intro j
    by_cases e : j = i
    · simp only [e, if_true]; exact (inv.apart i).upd (.inl ha)
    · simp only [e, if_false]; exact inv.apart j
  · intro j k b hjk
    by_cases ej : j = i
    · subst ej
      simp only [if_true, Ne.symm hjk, if_false]
      by_cases e : b = a
      · subst e; intro _; exact other k (Ne.symm hjk)
      · rw [upd_ne _ _ e]; exact inv.disj j k b hjk
    · simp only [ej, if_false]
      intro hb
      by_cases ek : k = i
      · subst ek
        simp only [if_true]
        have e : b ≠ a := by rintro rfl; exact hb (other j ej)
        rw [upd_ne _ _ e]; exact inv.disj j k b hjk hb
      · simp only [ek, if_false]; exact inv.disj j k b hjk hb
  · intro b hb
    simp only [SMem.put] at hb
    by_cases e : b = a
    · subst e
      simp only [if_true] at hb
      right
      refine ⟨i, hic, ?_⟩
      simp only [if_true, upd_same]
      rintro rfl; exact hb rfl
    · simp only [e, if_false] at hb
      rcases inv.cover b hb with h | ⟨j, h1, h2⟩
      · exact .inl h
      · right
        refine ⟨j, h1, ?_⟩
        by_cases ej : j = i
        · subst ej; simp only [if_true]; rw [upd_ne _ _ e]; exact h2
        · simp only [ej, if_false]; exact h2
  · intro b hb
    simp only [SMem.put] at hb ⊢
    have : b ≠ a := by omega
    simp only [this, if_false]; exact inv.fresh b (by omega)

theorem Inv.lt_next {P : SPool} {hs : Nat → Own} {ns : Nat → Nat} (inv : Inv E order ryu vals calls P hs ns) {i a : Nat} (h : hs i a ≠ none) : a < P.heap.next := by
  apply Nat.lt_of_not_le
  intro h'
  cases e : hs i a with
  | none => exact h e
  | some s => have := inv.fresh a h'; rw [inv.own i a s e] at this; cases this

theorem inv_step (ho : IteratesAll order) (hcalls : ∀ c ∈ calls, c.2 < vals.length) {P : SPool} {hs : Nat → Own} {ns : Nat → Nat} (inv : Inv E order ryu vals calls P hs ns) (i : Nat) :
    ∃ hs' ns', Inv E order ryu vals calls (P.step E order ryu i) hs' ns' ∧ P.heap.next ≤ (P.step E order ryu i).heap.next ∧
      (∀ k b, hs' k b ≠ none → hs k b ≠ none ∨ P.heap.next ≤ b) ∧ (∀ j, j ≠ i → ns' j = ns j) ∧
      ∀ p, P.threads[i]? = some p → ns' i = if isHead p then ns i + 1 else ns i := by
  unfold SPool.step
  cases hp : P.threads[i]? with
  | none => exact ⟨hs, ns, inv, Nat.le_refl _, fun _ _ h => .inl h, fun _ _ => rfl, by nofun⟩
  | some p =>
    have hi : i < P.threads.length := (List.getElem?_eq_some_iff.1 hp).1
    have hic : i < calls.length := by rw [← inv.length]; exact hi
    have hlt : calls[i].2 < vals.length := hcalls _ (List.getElem_mem hic)
    have hc : calls[i]? = some calls[i] := List.getElem?_eq_getElem hic
    have hv : vals[calls[i].2]? = some vals[calls[i].2] := List.getElem?_eq_getElem hlt
    have s := inv.safe i _ _ p hc hv hp
    generalize vals[calls[i].2] = v at hv s
    generalize calls[i] = c at hc hv s
    clear hlt
    have only : ∀ {n : Nat} {p' : SProg PExit} {own : Own}, Safe vals (At E order ryu vals c.1 v n) p' own →
        ∀ (c : Ty × Nat) (v : Val), calls[i]? = some c → vals[c.2]? = some v → Safe vals (At E order ryu vals c.1 v n) p' own := by
      intro n p' own h c' v' h1 h2
      rw [hc] at h1; cases h1
      rw [hv] at h2; cases h2
      exact h
    have hn : ∀ (p : SProg PExit), isHead p = false → ∀ q, some p = some q → ns i = if isHead q then ns i + 1 else ns i := by
      intro p h q e; cases e; simp [h]
    have same : (fun j => if j = i then ns i else ns j) = ns := by
      funext j; split
      · rename_i e; rw [e]
      · rfl
    have dom : ∀ {a : Nat} {o : Option PStream}, hs i a ≠ none ∨ P.heap.next ≤ a → ∀ k b, (if k = i then upd (hs i) a o else hs k) b ≠ none → hs k b ≠ none ∨ P.heap.next ≤ b := by
      intro a o h0 k b hb
      by_cases e : k = i
      · subst e
        simp only [if_true] at hb
        by_cases e' : b = a
        · subst e'; exact h0
        · rw [upd_ne _ _ e'] at hb; exact .inl hb
      · simp only [e, if_false] at hb; exact .inl hb
    cases p with
    | ret x =>
      cases x with
      | running st =>
        refine ⟨hs, _, inv_same inv hi (n := ns i + 1) (only (at_step ho ryu s)), Nat.le_refl _, fun _ _ h => .inl h, fun j hj => by simp [hj], ?_⟩
        intro q e; cases e; simp [isHead]
      | finished r =>
        have := inv_same inv hi (only s)
        rw [same] at this
        exact ⟨hs, ns, this, Nat.le_refl _, fun _ _ h => .inl h, fun _ _ => rfl, hn _ rfl⟩
    | load a k =>
      simp only [threadStep, SProg.step]
      rcases s with ⟨s, h1, h2⟩ | ⟨h0, w, h1, h2⟩
      · rw [inv.own i a s h1]
        have := inv_same inv hi (only h2)
        rw [same] at this
        exact ⟨hs, ns, this, Nat.le_refl _, fun _ _ h => .inl h, fun _ _ => rfl, hn _ rfl⟩
      · rw [inv.shared a w h1]
        have := inv_same inv hi (only h2)
        rw [same] at this
        exact ⟨hs, ns, this, Nat.le_refl _, fun _ _ h => .inl h, fun _ _ => rfl, hn _ rfl⟩
    | store a o k =>
      obtain ⟨h0, s, rfl, h2⟩ := s
      obtain ⟨s0, e0⟩ := Option.ne_none_iff_exists'.1 h0
      simp only [threadStep, SProg.step]
      rw [inv.own i a s0 e0]
      exact ⟨_, ns, inv_upd inv hi ((inv.apart i).le e0) (.inl h0) (Nat.le_refl _) (inv.lt_next h0) (only h2), Nat.le_refl _, dom (.inl h0), fun _ _ => rfl, hn _ rfl⟩
    | alloc o k =>
      obtain ⟨s, rfl, h2⟩ := s
      simp only [threadStep, SProg.step]
      have h0 : hs i P.heap.next = none := by
        cases e : hs i P.heap.next with
        | none => rfl
        | some s => exact absurd (inv.lt_next (i := i) (a := P.heap.next) (by rw [e]; nofun)) (Nat.lt_irrefl _)
      exact ⟨_, ns, inv_upd inv hi inv.next (.inr (inv.fresh _ (Nat.le_refl _))) (Nat.le_succ _) (Nat.lt_succ_self _) (only (h2 _ h0 inv.next)), Nat.le_succ _, dom (.inr (Nat.le_refl _)),
        fun _ _ => rfl, hn _ rfl⟩
    | free a k =>
      obtain ⟨h0, h2⟩ := s
      obtain ⟨s0, e0⟩ := Option.ne_none_iff_exists'.1 h0
      simp only [threadStep, SProg.step]
      rw [inv.own i a s0 e0]
      exact ⟨_, ns, inv_upd inv hi (o := none) ((inv.apart i).le e0) (.inl h0) (Nat.le_refl _) (inv.lt_next h0) (only h2), Nat.le_refl _, dom (.inl h0), fun _ _ => rfl, hn _ rfl⟩
    | fault k => exact s.elim

theorem inv_run (ho : IteratesAll order) (hcalls : ∀ c ∈ calls, c.2 < vals.length) : ∀ (sched : List Nat) {P : SPool} {hs : Nat → Own} {ns : Nat → Nat}, Inv E order ryu vals calls P hs ns →
    ∃ hs' ns', Inv E order ryu vals calls (P.run E order ryu sched) hs' ns'
  | [], _, _, _, inv => ⟨_, _, inv⟩
  | i :: sched, P, hs, ns, inv => by
    obtain ⟨hs1, ns1, inv1, -⟩ := inv_step ho hcalls inv i
    exact inv_run ho hcalls sched inv1

/-! ## Who accesses what -/

/-- A thread accesses its own streams, and reads the values. -/
theorem touch (hcalls : ∀ c ∈ calls, c.2 < vals.length) {P : SPool} {hs : Nat → Own} {ns : Nat → Nat} (inv : Inv E order ryu vals calls P hs ns) {i a : Nat} {w : Bool}
    (h : P.accesses i = some (a, w)) : hs i a ≠ none ∨ (w = false ∧ a < vals.length) := by
  obtain ⟨p, hp, ha⟩ := Option.bind_eq_some_iff.1 h
  have hi : i < calls.length := by rw [← inv.length]; exact (List.getElem?_eq_some_iff.1 hp).1
  have s := inv.safe i _ _ p (List.getElem?_eq_getElem hi) (List.getElem?_eq_getElem (hcalls _ (List.getElem_mem hi))) hp
  cases p with
  | ret x => cases ha
  | load b k =>
    cases ha
    rcases s with ⟨s, h1, -⟩ | ⟨-, v, h1, -⟩
    · left; rw [h1]; nofun
    · exact .inr ⟨rfl, (List.getElem?_eq_some_iff.1 h1).1⟩
  | store b o k => cases ha; exact .inl s.1
  | alloc o k => cases ha
  | free b k => cases ha; exact .inl s.1
  | fault k => cases ha

/-- A stream of thread `i` never becomes one of another thread. -/
theorem own_after (ho : IteratesAll order) (hcalls : ∀ c ∈ calls, c.2 < vals.length) {i a : Nat} : ∀ (sched : List Nat) {P : SPool} {hs : Nat → Own} {ns : Nat → Nat},
    Inv E order ryu vals calls P hs ns → a < P.heap.next → (∀ k, k ≠ i → hs k a = none) →
    ∃ hs' ns', Inv E order ryu vals calls (P.run E order ryu sched) hs' ns' ∧ ∀ k, k ≠ i → hs' k a = none
  | [], _, _, _, inv, _, h => ⟨_, _, inv, h⟩
  | j :: sched, P, hs, ns, inv, hn, h => by
    obtain ⟨hs1, ns1, inv1, h1, h2, -⟩ := inv_step ho hcalls inv j
    refine own_after ho hcalls sched inv1 (Nat.lt_of_lt_of_le hn h1) fun k hk => ?_
    cases e : hs1 k a with
    | none => rfl
    | some o =>
      rcases h2 k a (by rw [e]; nofun) with h3 | h3
      · exact absurd (h k hk) h3
      · omega

/-! ## Progress -/

theorem run_append (P : SPool) (s t : List Nat) : P.run E order ryu (s ++ t) = (P.run E order ryu s).run E order ryu t := List.foldl_append

theorem after_succ (P : SPool) (sched : Nat → Nat) (T : Nat) : P.after E order ryu sched (T + 1) = (P.after E order ryu sched T).step E order ryu (sched T) := by
  rw [SPool.after, SPool.after, List.range_succ, List.map_append, run_append]; rfl

theorem step_other {P : SPool} {i j : Nat} (h : j ≠ i) : (P.step E order ryu j).threads[i]? = P.threads[i]? := by
  unfold SPool.step
  split
  · exact List.getElem?_set_ne h
  · rfl

theorem step_self {P : SPool} {i : Nat} {p : SProg PExit} (h : P.threads[i]? = some p) :
    (P.step E order ryu i).threads[i]? = some (threadStep E order ryu p P.heap).1 := by
  unfold SPool.step
  rw [h]
  exact List.getElem?_set_self (List.getElem?_eq_some_iff.1 h).1

theorem after_idle (ho : IteratesAll order) (hcalls : ∀ c ∈ calls, c.2 < vals.length) {P : SPool} {sched : Nat → Nat} {i : Nat} {p : SProg PExit} {T n : Nat} :
    ∀ (d : Nat), (∀ t, T ≤ t → t < T + d → sched t ≠ i) → (P.after E order ryu sched T).threads[i]? = some p →
      (∃ hs ns, Inv E order ryu vals calls (P.after E order ryu sched T) hs ns ∧ ns i = n) →
      (P.after E order ryu sched (T + d)).threads[i]? = some p ∧ ∃ hs ns, Inv E order ryu vals calls (P.after E order ryu sched (T + d)) hs ns ∧ ns i = n
  | 0, _, h, hi => ⟨h, hi⟩
  | d + 1, hi, h, hn => by
    rw [← Nat.add_assoc, after_succ]
    have hne := hi (T + d) (by omega) (by omega)
    rw [step_other hne]
    obtain ⟨h1, hs, ns, inv, e⟩ := after_idle ho hcalls d (fun t h1 h2 => hi t h1 (by omega)) h hn
    obtain ⟨hs', ns', inv', -, -, k, -⟩ := inv_step ho hcalls inv (sched (T + d))
    exact ⟨h1, hs', ns', inv', by rw [k i (Ne.symm hne), e]⟩

/-- The next turn of thread `i`. -/
theorem turn (ho : IteratesAll order) (hcalls : ∀ c ∈ calls, c.2 < vals.length) {P : SPool} {sched : Nat → Nat} {i : Nat} (fair : Threads.KeepsRunning sched i) {p : SProg PExit} {T n : Nat}
    (h : (P.after E order ryu sched T).threads[i]? = some p) (hn : ∃ hs ns, Inv E order ryu vals calls (P.after E order ryu sched T) hs ns ∧ ns i = n) :
    ∃ T' H, (P.after E order ryu sched T').threads[i]? = some (threadStep E order ryu p H).1 ∧
      ∃ hs ns, Inv E order ryu vals calls (P.after E order ryu sched T') hs ns ∧ ns i = if isHead p then n + 1 else n := by
  obtain ⟨d, h1, h2⟩ := Threads.next_turn (fair T)
  obtain ⟨k1, hs, ns, inv, e⟩ := after_idle ho hcalls d h2 h hn
  obtain ⟨hs', ns', inv', -, -, -, k⟩ := inv_step ho hcalls inv i
  refine ⟨T + d + 1, (P.after E order ryu sched (T + d)).heap, ?_, hs', ns', ?_, ?_⟩
  · rw [after_succ, h1]; exact step_self k1
  · rw [after_succ, h1]; exact inv'
  · rw [k p k1, e]

theorem progress (ho : IteratesAll order) (hcalls : ∀ c ∈ calls, c.2 < vals.length) {P : SPool} {sched : Nat → Nat} {i : Nat} (fair : Threads.KeepsRunning sched i) {c : Ty × Nat} {v : Val}
    (hc : calls[i]? = some c) (hv : vals[c.2]? = some v) {N : Nat} {o : Option Bytes} {w : SHeap} (hN : toStringN (G E order) ryu N (c.1, v) SHeap.empty = .finished o w) :
    ∀ (k n : Nat), N < n + k → ∀ (p : SProg PExit) (T : Nat), (P.after E order ryu sched T).threads[i]? = some p →
      (∃ hs ns, Inv E order ryu vals calls (P.after E order ryu sched T) hs ns ∧ ns i = n) →
      ∃ T' r, (P.after E order ryu sched T').Returned i r := by
  intro k
  induction k with
  | zero =>
    -- the thread would be beyond the last iteration
    intro n hn p
    induction p with
    | ret x =>
      intro T h hi
      cases x with
      | finished r => exact ⟨T, r, h⟩
      | running st =>
        obtain ⟨hs, ns, inv, rfl⟩ := hi
        have s := inv.safe i c v _ hc hv h
        have e := runS_mono (Nat.le_of_lt hn) hN
        simp only [Safe, At, toStringN] at s
        rw [Nat.add_zero] at e
        rw [e] at s
        cases s
    | load a k ih =>
      intro T h hi
      obtain ⟨T', H, h1, h2⟩ := turn ho hcalls fair h hi
      simp only [threadStep, SProg.step] at h1
      cases hm : H.mem a with
      | none => rw [hm] at h1; exact ih _ T' h1 h2
      | some o => rw [hm] at h1; exact ih _ T' h1 h2
    | store a o k ih =>
      intro T h hi
      obtain ⟨T', H, h1, h2⟩ := turn ho hcalls fair h hi
      simp only [threadStep, SProg.step] at h1
      cases hm : H.mem a with
      | none => rw [hm] at h1; exact ih T' h1 h2
      | some o => rw [hm] at h1; exact ih T' h1 h2
    | alloc o k ih => intro T h hi; obtain ⟨T', H, h1, h2⟩ := turn ho hcalls fair h hi; exact ih _ T' h1 h2
    | free a k ih =>
      intro T h hi
      obtain ⟨T', H, h1, h2⟩ := turn ho hcalls fair h hi
      simp only [threadStep, SProg.step] at h1
      cases hm : H.mem a with
      | none => rw [hm] at h1; exact ih T' h1 h2
      | some o => rw [hm] at h1; exact ih T' h1 h2
    | fault k ih => intro T h hi; obtain ⟨T', H, h1, h2⟩ := turn ho hcalls fair h hi; exact ih T' h1 h2
  | succ k ihk =>
    intro n hn p
    induction p with
    | ret x =>
      intro T h hi
      cases x with
      | finished r => exact ⟨T, r, h⟩
      | running st =>
        obtain ⟨T', H, h1, h2⟩ := turn ho hcalls fair h hi
        exact ihk (n + 1) (by omega) _ T' h1 h2
    | load a k ih =>
      intro T h hi
      obtain ⟨T', H, h1, h2⟩ := turn ho hcalls fair h hi
      simp only [threadStep, SProg.step] at h1
      cases hm : H.mem a with
      | none => rw [hm] at h1; exact ih _ T' h1 h2
      | some o => rw [hm] at h1; exact ih _ T' h1 h2
    | store a o k ih =>
      intro T h hi
      obtain ⟨T', H, h1, h2⟩ := turn ho hcalls fair h hi
      simp only [threadStep, SProg.step] at h1
      cases hm : H.mem a with
      | none => rw [hm] at h1; exact ih T' h1 h2
      | some o => rw [hm] at h1; exact ih T' h1 h2
    | alloc o k ih => intro T h hi; obtain ⟨T', H, h1, h2⟩ := turn ho hcalls fair h hi; exact ih _ T' h1 h2
    | free a k ih =>
      intro T h hi
      obtain ⟨T', H, h1, h2⟩ := turn ho hcalls fair h hi
      simp only [threadStep, SProg.step] at h1
      cases hm : H.mem a with
      | none => rw [hm] at h1; exact ih T' h1 h2
      | some o => rw [hm] at h1; exact ih T' h1 h2
    | fault k ih => intro T h hi; obtain ⟨T', H, h1, h2⟩ := turn ho hcalls fair h hi; exact ih T' h1 h2

end Miniserde.SerThreads
