import Verif.Proof.ThreadsDriver
import Verif.Spec.Threads

/-!
# Threads on a shared heap
-/

namespace Miniserde.Threads
open Miniserde

theorem bump_fault (w : W) : (tick w).fault = w.1.fault := rfl

theorem loadH_fault {a : Nat} {h : Heap} (e : h.fault = true) : (loadH a h).fault = true := by
  unfold loadH; split
  · exact e
  · rfl

theorem storeH_fault {a : Nat} {o : Obj} {h : Heap} (e : h.fault = true) : (storeH a o h).fault = true := by
  unfold storeH; split
  · exact e
  · rfl

theorem free_fault {a : Nat} {h : Heap} (e : h.fault = true) : (h.free a).fault = true := by
  unfold Heap.free; split
  · simp [e]
  · exact e
  · rfl

/-- A fault is never forgotten. -/
theorem runJ_fault {α : Type} (p : Prog α) : ∀ {w : W}, w.1.fault = true → (runJ p w).2.1.fault = true := by
  induction p with
  | ret x => intro w h; exact h
  | load a k ih => intro w h; exact ih _ (loadH_fault h)
  | store a o k ih => intro w h; exact ih (storeH_fault h)
  | alloc o k ih => intro w h; exact ih _ h
  | free a k ih => intro w h; exact ih (free_fault h)
  | fault k ih => intro w h; exact ih rfl

/-- Whatever happens around it, the program returns `r` and leaves nothing behind. -/
def Safe {α : Type} (r : α) (p : Prog α) (h : Heap) : Prop := ∀ J : List Nat, ∃ w', runJ p (h, J) = (r, w') ∧ Empty w'.1

theorem Safe.noFault {α : Type} {r : α} {p : Prog α} {h : Heap} (s : Safe r p h) : h.fault = false := by
  obtain ⟨w', e1, e2⟩ := s []
  cases hf : h.fault with
  | false => rfl
  | true =>
    have := runJ_fault p (w := (h, [])) hf
    rw [e1, e2.fault] at this; cases this

theorem Safe.ret {α : Type} {r x : α} {h : Heap} (s : Safe r (.ret x) h) : x = r ∧ Empty h := by
  obtain ⟨w', e1, e2⟩ := s []
  cases e1
  exact ⟨rfl, e2⟩

/-- One memory operation of a safe program, after the next address moved by `n`. -/
theorem Safe.step {α : Type} {r : α} {p : Prog α} {h : Heap} (s : Safe r p h) (n : Nat) (hr : ∀ x, p ≠ .ret x) :
    Safe r (p.step (bump h n)).1 (p.step (bump h n)).2 := by
  intro J
  obtain ⟨w', e1, e2⟩ := s (n :: J)
  refine ⟨w', ?_, e2⟩
  rw [← e1]
  cases p with
  | ret x => exact absurd rfl (hr x)
  | load a k =>
    simp only [Prog.step, runJ, loadH, tick, List.headD_cons, List.tail_cons]
    cases hm : h.mem a with
    | none => simp only [bump, hm]
    | some o => simp only [bump, hm]
  | store a o k =>
    simp only [Prog.step, runJ, storeH, tick, List.headD_cons, List.tail_cons]
    cases hm : h.mem a with
    | none => simp only [bump, hm]
    | some o => simp only [bump, hm]
  | alloc o k => rfl
  | free a k => rfl
  | fault k => rfl

/-- What one operation does: `h`, `h'` is the thread's own memory, `H`, `H'` the shared heap. -/
structure Framed (h h' H H' : Heap) : Prop where
  fault : H'.fault = false
  own : ∀ a, h'.mem a ≠ none → H'.mem a = h'.mem a
  other : ∀ a, h.mem a = none → h'.mem a = none → H'.mem a = H.mem a
  freed : ∀ a, h.mem a ≠ none → h'.mem a = none → H'.mem a = none
  new : ∀ a, h.mem a = none → h'.mem a ≠ none → H.mem a = none
  next : h'.next = H'.next
  grow : H.next ≤ H'.next
  fresh : ∀ a, H'.next ≤ a → H'.mem a = none

theorem frame_step {α : Type} (p : Prog α) {h H : Heap} (hf : H.fault = false) (own : ∀ a, h.mem a ≠ none → H.mem a = h.mem a)
    (fresh : ∀ a, H.next ≤ a → H.mem a = none) (hn : h.next = H.next) (ok : (p.step h).2.fault = false) :
    (p.step H).1 = (p.step h).1 ∧ Framed h (p.step h).2 H (p.step H).2 := by
  have triv : Framed h h H H := ⟨hf, own, fun _ _ _ => rfl, fun a h1 h2 => absurd h2 h1, fun a h1 h2 => absurd h1 h2, hn, Nat.le_refl _, fresh⟩
  have live : ∀ {a : Nat} {o : Obj}, h.mem a = some o → H.mem a = some o := by
    intro a o e; rw [own a (by rw [e]; nofun), e]
  cases p with
  | ret x => exact ⟨rfl, triv⟩
  | load a k =>
    simp only [Prog.step] at ok ⊢
    cases hm : h.mem a with
    | none => rw [hm] at ok; cases ok
    | some o => rw [live hm]; exact ⟨rfl, triv⟩
  | store a o k =>
    simp only [Prog.step] at ok ⊢
    cases hm : h.mem a with
    | none => rw [hm] at ok; cases ok
    | some o' =>
      rw [live hm]
      refine ⟨rfl, hf, ?_, ?_, ?_, ?_, hn, Nat.le_refl _, ?_⟩
      · intro b hb
        simp only [Heap.set] at hb ⊢
        by_cases e : b = a
        · subst e; simp
        · rw [Mem.set_ne _ _ e] at hb ⊢; rw [Mem.set_ne _ _ e]; exact own b hb
      · intro b h1 h2
        have e : b ≠ a := by rintro rfl; rw [hm] at h1; cases h1
        simp only [Heap.set]; rw [Mem.set_ne _ _ e]
      · intro b h1 h2
        simp only [Heap.set] at h2
        by_cases e : b = a
        · subst e; simp at h2
        · rw [Mem.set_ne _ _ e] at h2; exact absurd h2 h1
      · intro b h1 h2
        simp only [Heap.set] at h2
        by_cases e : b = a
        · subst e; rw [hm] at h1; cases h1
        · rw [Mem.set_ne _ _ e] at h2; exact absurd h1 h2
      · intro b hb
        have e : b ≠ a := by rintro rfl; have := fresh b hb; rw [live hm] at this; cases this
        simp only [Heap.set]; rw [Mem.set_ne _ _ e]; exact fresh b hb
  | alloc o k =>
    simp only [Prog.step, Heap.alloc] at ok ⊢
    have h0 : H.mem H.next = none := fresh _ (Nat.le_refl _)
    have h00 : h.mem H.next = none := by
      cases hm : h.mem H.next with
      | none => rfl
      | some o => rw [live hm] at h0; cases h0
    refine ⟨by rw [hn], hf, ?_, ?_, ?_, ?_, by simp only [hn], Nat.le_succ _, ?_⟩
    · intro b hb
      simp only [hn] at hb ⊢
      by_cases e : b = H.next
      · subst e; simp
      · rw [Mem.set_ne _ _ e] at hb ⊢; rw [Mem.set_ne _ _ e]; exact own b hb
    · intro b h1 h2
      simp only [hn] at h2 ⊢
      by_cases e : b = H.next
      · subst e; simp at h2
      · rw [Mem.set_ne _ _ e]
    · intro b h1 h2
      simp only [hn] at h2
      by_cases e : b = H.next
      · subst e; simp at h2
      · rw [Mem.set_ne _ _ e] at h2; exact absurd h2 h1
    · intro b h1 h2
      simp only [hn] at h2
      by_cases e : b = H.next
      · subst e; exact h0
      · rw [Mem.set_ne _ _ e] at h2; exact absurd h1 h2
    · intro b hb
      simp only at hb ⊢
      rw [Mem.set_ne _ _ (by omega)]; exact fresh b (by omega)
  | free a k =>
    simp only [Prog.step] at ok ⊢
    cases hm : h.mem a with
    | none => simp only [Heap.free, hm, Heap.bad] at ok; cases ok
    | some o =>
      have hmem : (h.free a).mem = h.mem.set a none := by
        cases o <;> simp only [Heap.free, hm]
      have Hmem : (H.free a).mem = H.mem.set a none := by
        cases o <;> simp only [Heap.free, live hm]
      have hnx : (h.free a).next = h.next := by cases o <;> simp only [Heap.free, hm]
      have Hnx : (H.free a).next = H.next := by cases o <;> simp only [Heap.free, live hm]
      have Hf : (H.free a).fault = false := by
        cases o with
        | builder out core =>
          simp only [Heap.free, hm, Bool.or_eq_false_iff] at ok
          simp only [Heap.free, live hm, hf, ok.2, Bool.or_self]
        | slot c => simp only [Heap.free, live hm, hf]
        | boxB x y z => simp only [Heap.free, live hm, hf]
      refine ⟨trivial, Hf, ?_, ?_, ?_, ?_, by rw [hnx, Hnx, hn], by rw [Hnx]; exact Nat.le_refl _, ?_⟩
      · intro b hb
        rw [hmem] at hb ⊢; rw [Hmem]
        by_cases e : b = a
        · subst e; simp at hb
        · rw [Mem.set_ne _ _ e] at hb ⊢; rw [Mem.set_ne _ _ e]; exact own b hb
      · intro b h1 h2
        have e : b ≠ a := by rintro rfl; rw [hm] at h1; cases h1
        rw [Hmem, Mem.set_ne _ _ e]
      · intro b h1 h2
        rw [hmem] at h2; rw [Hmem]
        by_cases e : b = a
        · subst e; simp
        · rw [Mem.set_ne _ _ e] at h2; exact absurd h2 h1
      · intro b h1 h2
        rw [hmem] at h2
        by_cases e : b = a
        · subst e; simp at h2
        · rw [Mem.set_ne _ _ e] at h2; exact absurd h1 h2
      · intro b hb
        rw [Hnx] at hb; rw [Hmem]
        by_cases e : b = a
        · subst e; simp
        · rw [Mem.set_ne _ _ e]; exact fresh b hb
  | fault k => cases ok

variable (E : Env)

/-- The shared heap is the disjoint union of the memories `hs i` of the threads, and each thread is safe in its own. -/
structure Inv (calls : List (Ty × Bytes)) (P : Pool) (hs : Nat → Heap) : Prop where
  length : P.threads.length = calls.length
  safe : ∀ (i : Nat) (c : Ty × Bytes) (p : Prog (Option (Res Val))), calls[i]? = some c → P.threads[i]? = some p →
    Safe ((fromStr E c.1 c.2).map Prod.fst) p (hs i)
  own : ∀ i a, (hs i).mem a ≠ none → P.heap.mem a = (hs i).mem a
  disj : ∀ i j a, i ≠ j → (hs i).mem a ≠ none → (hs j).mem a = none
  cover : ∀ a, P.heap.mem a ≠ none → ∃ i, i < calls.length ∧ (hs i).mem a ≠ none
  next : ∀ i, (hs i).next ≤ P.heap.next
  fresh : ∀ a, P.heap.next ≤ a → P.heap.mem a = none
  fault : P.heap.fault = false

theorem inv_start (calls : List (Ty × Bytes)) : Inv E calls (Pool.start E calls) fun _ => { mem := fun _ => none, next := 0, fault := false } := by
  refine ⟨by simp [Pool.start], ?_, fun i a h => absurd rfl h, fun i j a _ h => absurd rfl h, fun a h => absurd rfl h,
    fun _ => Nat.le_refl _, fun _ _ => rfl, rfl⟩
  intro i c p hc hp J
  simp only [Pool.start, List.getElem?_map, hc, Option.map_some, Option.some.injEq] at hp
  subst hp
  exact fromStrP_run E c.2 c.1 ⟨rfl, rfl⟩

/-- A new object gets a new address. -/
theorem step_dom {α : Type} (p : Prog α) (h : Heap) (b : Nat) (hb : (p.step h).2.mem b ≠ none) : h.mem b ≠ none ∨ h.next ≤ b := by
  cases p with
  | ret x => exact .inl hb
  | load a k =>
    simp only [Prog.step] at hb
    split at hb
    · exact .inl hb
    · exact .inl hb
  | store a o k =>
    simp only [Prog.step] at hb
    split at hb
    · rename_i e
      simp only [Heap.set] at hb
      by_cases c : b = a
      · subst c; left; rw [e]; nofun
      · rw [Mem.set_ne _ _ c] at hb; exact .inl hb
    · exact .inl hb
  | alloc o k =>
    simp only [Prog.step, Heap.alloc] at hb
    by_cases c : b = h.next
    · subst c; exact .inr (Nat.le_refl _)
    · rw [Mem.set_ne _ _ c] at hb; exact .inl hb
  | free a k =>
    simp only [Prog.step, Heap.free] at hb
    by_cases c : b = a
    · subst c
      cases e : h.mem b with
      | none => rw [e] at hb; exact absurd e hb
      | some o => left; nofun
    · left
      split at hb
      · simp only at hb; rwa [Mem.set_ne _ _ c] at hb
      · simp only at hb; rwa [Mem.set_ne _ _ c] at hb
      · exact hb
  | fault k => exact .inl hb

theorem inv_step {calls : List (Ty × Bytes)} {P : Pool} {hs : Nat → Heap} (inv : Inv E calls P hs) (i : Nat) :
    ∃ hs', Inv E calls (P.step i) hs' ∧ P.heap.next ≤ (P.step i).heap.next ∧ ∀ k b, (hs' k).mem b ≠ none → (hs k).mem b ≠ none ∨ P.heap.next ≤ b := by
  unfold Pool.step
  cases hp : P.threads[i]? with
  | none => exact ⟨hs, inv, Nat.le_refl _, fun _ _ h => .inl h⟩
  | some p =>
    have hi : i < P.threads.length := (List.getElem?_eq_some_iff.1 hp).1
    have hic : i < calls.length := by rw [← inv.length]; exact hi
    obtain ⟨c, hc⟩ : ∃ c, calls[i]? = some c := ⟨_, List.getElem?_eq_getElem hic⟩
    have s := inv.safe i c p hc hp
    by_cases hr : ∃ x, p = .ret x
    · obtain ⟨x, rfl⟩ := hr
      refine ⟨hs, ?_⟩
      have : P.threads.set i (.ret x) = P.threads := by
        apply List.ext_getElem? ; intro j
        by_cases e : i = j
        · subst e; rw [List.getElem?_set_self hi, hp]
        · rw [List.getElem?_set_ne e]
      simp only [Prog.step, this]
      exact ⟨inv, Nat.le_refl _, fun _ _ h => .inl h⟩
    have hr' : ∀ x, p ≠ .ret x := fun x e => hr ⟨x, e⟩
    have s' := s.step (P.heap.next - (hs i).next) hr'
    generalize hb : bump (hs i) (P.heap.next - (hs i).next) = h at s'
    have hbm : h.mem = (hs i).mem := by subst hb; rfl
    have hbn : h.next = P.heap.next := by
      subst hb
      have := inv.next i
      simp only [bump]; omega
    obtain ⟨e1, f⟩ := frame_step p (h := h) (H := P.heap) inv.fault (by rw [hbm]; exact inv.own i) inv.fresh hbn s'.noFault
    have dom := step_dom p h
    rw [hbm, hbn] at dom
    generalize hp' : p.step h = q at s' e1 f dom
    generalize hP' : p.step P.heap = Q at e1 f
    obtain ⟨q1, h'⟩ := q
    obtain ⟨Q1, H'⟩ := Q
    simp only at e1 f s'
    subst e1
    simp only [hP']
    have fo := f.other; have ff := f.freed; have fn := f.new
    rw [hbm] at fo ff fn
    refine ⟨fun j => if j = i then h' else hs j, ⟨?_, ?_, ?_, ?_, ?_, ?_, f.fresh, f.fault⟩, f.grow, ?_⟩
    · simp only [List.length_set]; exact inv.length
    · intro j d q hd hq
      by_cases e : j = i
      · subst e
        simp only [List.getElem?_set_self hi, Option.some.injEq] at hq
        rw [hc] at hd
        cases hd
        subst hq
        simp only [if_true]; exact s'
      · simp only [List.getElem?_set_ne (Ne.symm e)] at hq
        simp only [e, if_false]
        exact inv.safe j d q hd hq
    · intro j a
      by_cases e : j = i
      · subst e; simp only [if_true]; exact f.own a
      · simp only [e, if_false]
        intro hj
        have h0 : (hs i).mem a = none := inv.disj j i a e hj
        have h1 : h'.mem a = none := by
          cases hx : h'.mem a with
          | none => rfl
          | some o =>
            have := fn a h0 (by rw [hx]; nofun)
            rw [inv.own j a hj] at this
            exact absurd this hj
        rw [fo a h0 h1]
        exact inv.own j a hj
    · intro j k a hjk
      by_cases ej : j = i
      · subst ej
        have ek : k ≠ j := Ne.symm hjk
        simp only [if_true, ek, if_false]
        intro hj
        cases hx : (hs k).mem a with
        | none => rfl
        | some o =>
          have h0 : (hs j).mem a = none := inv.disj k j a ek (by rw [hx]; nofun)
          have := fn a h0 hj
          rw [inv.own k a (by rw [hx]; nofun), hx] at this
          cases this
      · simp only [ej, if_false]
        intro hj
        by_cases ek : k = i
        · subst ek
          simp only [if_true]
          have h0 : (hs k).mem a = none := inv.disj j k a hjk hj
          cases hx : h'.mem a with
          | none => rfl
          | some o =>
            have := fn a h0 (by rw [hx]; nofun)
            rw [inv.own j a hj] at this
            exact absurd this hj
        · simp only [ek, if_false]; exact inv.disj j k a hjk hj
    · intro a ha
      by_cases h1 : h'.mem a = none
      · by_cases h0 : (hs i).mem a = none
        · have : P.heap.mem a ≠ none := by rw [← fo a h0 h1]; exact ha
          obtain ⟨j, j1, j2⟩ := inv.cover a this
          refine ⟨j, j1, ?_⟩
          have : j ≠ i := by rintro rfl; exact j2 h0
          simp only [this, if_false]; exact j2
        · exact absurd (ff a h0 h1) ha
      · exact ⟨i, hic, by simp only [if_true]; exact h1⟩
    · intro j
      by_cases e : j = i
      · subst e; simp only [if_true]; exact Nat.le_of_eq f.next
      · simp only [e, if_false]; exact Nat.le_trans (inv.next j) f.grow
    · intro k b
      by_cases e : k = i
      · subst e; simp only [if_true]; exact dom b
      · simp only [e, if_false]; exact .inl

theorem inv_run {calls : List (Ty × Bytes)} : ∀ (sched : List Nat) {P : Pool} {hs : Nat → Heap}, Inv E calls P hs →
    ∃ hs', Inv E calls (P.run sched) hs'
  | [], _, _, inv => ⟨_, inv⟩
  | i :: sched, P, hs, inv => by
    obtain ⟨hs1, inv1, -⟩ := inv_step E inv i
    exact inv_run sched inv1

/-! ## Who accesses what -/

/-- A thread accesses its own memory only. -/
theorem touch_own {calls : List (Ty × Bytes)} {P : Pool} {hs : Nat → Heap} (inv : Inv E calls P hs) {i a : Nat} {p : Prog (Option (Res Val))}
    (hp : P.threads[i]? = some p) (ha : p.accesses = some a) : (hs i).mem a ≠ none := by
  have hi : i < calls.length := by rw [← inv.length]; exact (List.getElem?_eq_some_iff.1 hp).1
  have s := inv.safe i _ p (List.getElem?_eq_getElem hi) hp
  have hr : ∀ x, p ≠ .ret x := by rintro x rfl; cases ha
  have s' := (s.step 0 hr).noFault
  intro e
  cases p with
  | ret x => cases ha
  | load b k =>
    obtain rfl := Option.some.inj ha
    simp only [Prog.step, bump, e] at s'
    cases s'
  | store b o k =>
    obtain rfl := Option.some.inj ha
    simp only [Prog.step, bump, e] at s'
    cases s'
  | alloc o k => cases ha
  | free b k =>
    obtain rfl := Option.some.inj ha
    simp only [Prog.step, Heap.free, bump, e] at s'
    cases s'
  | fault k => cases ha

/-- An object of thread `i` never becomes one of another thread. -/
theorem own_after {calls : List (Ty × Bytes)} {i a : Nat} : ∀ (sched : List Nat) {P : Pool} {hs : Nat → Heap}, Inv E calls P hs → a < P.heap.next → (∀ k, k ≠ i → (hs k).mem a = none) →
    ∃ hs', Inv E calls (P.run sched) hs' ∧ ∀ k, k ≠ i → (hs' k).mem a = none
  | [], _, _, inv, _, h => ⟨_, inv, h⟩
  | j :: sched, P, hs, inv, hn, h => by
    obtain ⟨hs1, inv1, h1, h2⟩ := inv_step E inv j
    refine own_after sched inv1 (Nat.lt_of_lt_of_le hn h1) fun k hk => ?_
    cases e : (hs1 k).mem a with
    | none => rfl
    | some o =>
      rcases h2 k a (by rw [e]; nofun) with h3 | h3
      · exact absurd (h k hk) h3
      · omega

/-! ## Progress -/

theorem step_other {P : Pool} {i j : Nat} (h : j ≠ i) : (P.step j).threads[i]? = P.threads[i]? := by
  unfold Pool.step
  split
  · exact List.getElem?_set_ne h
  · rfl

theorem step_self {P : Pool} {i : Nat} {p : Prog (Option (Res Val))} (h : P.threads[i]? = some p) :
    (P.step i).threads[i]? = some (p.step P.heap).1 := by
  unfold Pool.step
  rw [h]
  exact List.getElem?_set_self (List.getElem?_eq_some_iff.1 h).1

theorem run_append (P : Pool) (s t : List Nat) : P.run (s ++ t) = (P.run s).run t := List.foldl_append

theorem after_succ (P : Pool) (sched : Nat → Nat) (T : Nat) : P.after sched (T + 1) = (P.after sched T).step (sched T) := by
  rw [Pool.after, Pool.after, List.range_succ, List.map_append, run_append]; rfl

theorem after_idle {P : Pool} {sched : Nat → Nat} {i : Nat} {p : Prog (Option (Res Val))} {T : Nat} :
    ∀ (d : Nat), (∀ t, T ≤ t → t < T + d → sched t ≠ i) → (P.after sched T).threads[i]? = some p →
      (P.after sched (T + d)).threads[i]? = some p
  | 0, _, h => h
  | d + 1, hi, h => by
    rw [← Nat.add_assoc, after_succ, step_other (hi (T + d) (by omega) (by omega))]
    exact after_idle d (fun t h1 h2 => hi t h1 (by omega)) h

/-- The next turn of thread `i`. -/
theorem next_turn {sched : Nat → Nat} {i T : Nat} (h : ∃ T', T ≤ T' ∧ sched T' = i) :
    ∃ d, sched (T + d) = i ∧ ∀ t, T ≤ t → t < T + d → sched t ≠ i := by
  obtain ⟨T', h1, h2⟩ := h
  have : ∀ (n : Nat), (∃ d, d < n ∧ sched (T + d) = i ∧ ∀ t, T ≤ t → t < T + d → sched t ≠ i) ∨
      ∀ t, T ≤ t → t < T + n → sched t ≠ i := by
    intro n
    induction n with
    | zero => right; intro t h1 h2; omega
    | succ n ih =>
      rcases ih with ⟨d, k1, k2⟩ | ih
      · exact .inl ⟨d, by omega, k2⟩
      · by_cases e : sched (T + n) = i
        · exact .inl ⟨n, by omega, e, ih⟩
        · right; intro t h1 h2
          by_cases e' : t = T + n
          · subst e'; exact e
          · exact ih t h1 (by omega)
  rcases this (T' - T + 1) with ⟨d, _, k⟩ | k
  · exact ⟨d, k⟩
  · exact absurd h2 (k T' h1 (by omega))

theorem progress {P : Pool} {sched : Nat → Nat} {i : Nat} (fair : ∀ T, ∃ T', T ≤ T' ∧ sched T' = i) (p : Prog (Option (Res Val))) :
    ∀ (T : Nat), (P.after sched T).threads[i]? = some p → ∃ T' r, (P.after sched T').threads[i]? = some (.ret r) := by
  have turn : ∀ (p : Prog (Option (Res Val))) (T : Nat), (P.after sched T).threads[i]? = some p →
      ∃ T' H, (P.after sched T').threads[i]? = some (p.step H).1 := by
    intro p T h
    obtain ⟨d, h1, h2⟩ := next_turn (fair T)
    refine ⟨T + d + 1, (P.after sched (T + d)).heap, ?_⟩
    rw [after_succ, h1]
    exact step_self (after_idle d h2 h)
  induction p with
  | ret x => intro T h; exact ⟨T, x, h⟩
  | load a k ih =>
    intro T h
    obtain ⟨T', H, e⟩ := turn _ T h
    simp only [Prog.step] at e
    cases hm : H.mem a with
    | none => rw [hm] at e; exact ih _ T' e
    | some o => rw [hm] at e; exact ih _ T' e
  | store a o k ih =>
    intro T h
    obtain ⟨T', H, e⟩ := turn _ T h
    simp only [Prog.step] at e
    cases hm : H.mem a with
    | none => rw [hm] at e; exact ih T' e
    | some o => rw [hm] at e; exact ih T' e
  | alloc o k ih => intro T h; obtain ⟨T', H, e⟩ := turn _ T h; exact ih _ T' e
  | free a k ih => intro T h; obtain ⟨T', H, e⟩ := turn _ T h; exact ih T' e
  | fault k ih => intro T h; obtain ⟨T', H, e⟩ := turn _ T h; exact ih T' e

end Miniserde.Threads
