import Verif.Proof.SerThreadsPool
import Verif.Props.Ser

/-!
# C92: `to_string` on several threads, also of the same value
-/

namespace Miniserde.SerThreads
open Miniserde
variable (E : Env) (order : List (Bytes × Val) → List Nat) (ryu : F64 → Bytes)

/-- `vals` are the values in memory, `calls[i] = (t, a)` says that thread `i` calls `to_string` on a reference to the `a`-th of them, as a `t`.  Whatever the other threads
do and in whatever order the single memory operations are executed, a thread that has returned (or panicked) has done exactly what the same call does when it runs alone. -/
theorem C92_result (ho : IteratesAll order) (vals : List Val) (calls : List (Ty × Nat)) (hcalls : ∀ c ∈ calls, c.2 < vals.length) (sched : List Nat) (i : Nat) (t : Ty) (a : Nat) (v : Val)
    (r : Option Bytes) (hc : calls[i]? = some (t, a)) (hv : vals[a]? = some v) (h : ((SPool.start E order vals calls).run E order ryu sched).Returned i r) :
    ∃ n w, toStringN (serLib E fun _ => reorder order) ryu n (t, v) SHeap.empty = .finished r w := by
  obtain ⟨hs, ns, inv⟩ := inv_run ho hcalls sched (inv_start (E := E) (ryu := ryu) (calls := calls) ho)
  have s := inv.safe i (t, a) v _ hc hv h
  unfold Safe At at s
  simp only at s
  generalize hx : toStringN (G E order) ryu (ns i) (t, v) SHeap.empty = x at s
  cases s
  exact ⟨_, _, hx⟩

theorem reorder_perm (ho : IteratesAll order) (ms : List (Bytes × Val)) : (reorder order ms).Perm ms := by
  have := (ho ms).filterMap (ms[·]?)
  rwa [filterMap_range] at this

/-- For values of their types it is therefore never a panic: it is the compact JSON text of the value. -/
theorem C92_text (ho : IteratesAll order) (hE : E.Utf8) (lit : F64 → NumLit) (hr : RyuSyntax ryu lit) (vals : List Val) (calls : List (Ty × Nat)) (hcalls : ∀ c ∈ calls, c.2 < vals.length)
    (sched : List Nat) (i : Nat) (t : Ty) (a : Nat) (v : Val) (r : Option Bytes) (hc : calls[i]? = some (t, a)) (hv : vals[a]? = some v) (ht : HasTy E t v)
    (h : ((SPool.start E order vals calls).run E order ryu sched).Returned i r) :
    ∃ x, Encodes E t v x ∧ r = some (compact (x.json lit)) := by
  obtain ⟨n, w, e⟩ := C92_result E order ryu ho vals calls hcalls sched i t a v r hc hv h
  obtain ⟨o, h', ⟨m, hm⟩, -, -, x, hx, -, ho', -⟩ := C28_total E (fun _ => reorder order) (fun _ => reorder_perm order ho) hE hr t v ht
  have h1 := runS_mono (Nat.le_max_left n m) e
  have h2 := runS_mono (Nat.le_max_right n m) hm
  rw [h1] at h2
  cases h2
  exact ⟨x, hx, by rw [ho']⟩

/-- Two threads that serialize the same value, as the same type, at overlapping times, return the same text. -/
theorem C92_same_text (ho : IteratesAll order) (vals : List Val) (calls : List (Ty × Nat)) (hcalls : ∀ c ∈ calls, c.2 < vals.length) (sched : List Nat) (i j : Nat) (t : Ty) (a : Nat)
    (r s : Option Bytes) (hi : calls[i]? = some (t, a)) (hj : calls[j]? = some (t, a)) (h : ((SPool.start E order vals calls).run E order ryu sched).Returned i r)
    (h' : ((SPool.start E order vals calls).run E order ryu sched).Returned j s) : r = s := by
  have ha : a < vals.length := hcalls (t, a) (List.mem_of_getElem? hi)
  have hv : vals[a]? = some vals[a] := List.getElem?_eq_getElem ha
  obtain ⟨n, w, e⟩ := C92_result E order ryu ho vals calls hcalls sched i t a _ r hi hv h
  obtain ⟨m, w', e'⟩ := C92_result E order ryu ho vals calls hcalls sched j t a _ s hj hv h'
  have h1 := runS_mono (Nat.le_max_left n m) e
  have h2 := runS_mono (Nat.le_max_right n m) e'
  rw [h1] at h2
  cases h2
  rfl

theorem at_finished {vals : List Val} {t : Ty} {v : Val} {n : Nat} {r : Option Bytes} {own : Own} (h : At E order ryu vals t v n (.finished r) own) : own = fun _ => none := by
  unfold At at h
  generalize toStringN (G E order) ryu n (t, v) SHeap.empty = x at h
  cases h with
  | finished e => exact e

/-- At no point of any schedule has a thread read, overwritten or freed memory that is not live; the shared values are as they were; and when all threads have
returned, nothing but these values is left in memory. -/
theorem C92_memory (ho : IteratesAll order) (vals : List Val) (calls : List (Ty × Nat)) (hcalls : ∀ c ∈ calls, c.2 < vals.length) (sched : List Nat) :
    let P := (SPool.start E order vals calls).run E order ryu sched
    P.heap.fault = false ∧ (∀ a, (h : a < vals.length) → P.heap.mem a = some (.val vals[a])) ∧ (P.AllReturned → ∀ a, vals.length ≤ a → P.heap.mem a = none) := by
  intro P
  obtain ⟨hs, ns, inv⟩ := inv_run ho hcalls sched (inv_start (E := E) (ryu := ryu) (calls := calls) ho)
  refine ⟨inv.fault, fun a h => inv.shared a _ (List.getElem?_eq_getElem h), fun done a ha => ?_⟩
  cases hm : P.heap.mem a with
  | none => rfl
  | some o =>
    rcases inv.cover a (fun e => by rw [show P.heap.mem a = none from e] at hm; cases hm) with h | ⟨i, h1, h2⟩
    · omega
    · obtain ⟨r, hr⟩ := done i (by rw [show P.threads.length = calls.length from inv.length]; exact h1)
      have s := inv.safe i _ _ _ (List.getElem?_eq_getElem h1) (List.getElem?_eq_getElem (hcalls _ (List.getElem_mem h1))) hr
      have hlt := hcalls _ (List.getElem_mem h1)
      exact absurd (congrFun (at_finished E order ryu s) a) h2

theorem race_free_lt (ho : IteratesAll order) (vals : List Val) (calls : List (Ty × Nat)) (hcalls : ∀ c ∈ calls, c.2 < vals.length) (s₁ s₂ : List Nat) (i j a : Nat) (w₁ w₂ : Bool)
    (h₁ : ((SPool.start E order vals calls).run E order ryu s₁).accesses i = some (a, w₁))
    (h₂ : ((SPool.start E order vals calls).run E order ryu (s₁ ++ s₂)).accesses j = some (a, w₂)) : i = j ∨ (a < vals.length ∧ w₁ = false ∧ w₂ = false) := by
  obtain ⟨hs, ns, inv⟩ := inv_run ho hcalls s₁ (inv_start (E := E) (ryu := ryu) (calls := calls) ho)
  rw [run_append] at h₂
  rcases touch hcalls inv h₁ with own | ⟨e1, lt⟩
  · obtain ⟨hs', ns', inv', h'⟩ := own_after ho hcalls (i := i) (a := a) s₂ inv (inv.lt_next own) fun k hk => inv.disj i k a hk.symm own
    by_cases e : j = i
    · exact .inl e.symm
    · rcases touch hcalls inv' h₂ with own' | ⟨-, lt⟩
      · exact absurd (h' j e) own'
      · exact absurd (inv.apart i a lt) own
  · obtain ⟨hs', ns', inv'⟩ := inv_run ho hcalls s₂ inv
    rcases touch hcalls inv' h₂ with own' | ⟨e2, -⟩
    · exact absurd (inv'.apart j a lt) own'
    · exact .inr ⟨lt, e1, e2⟩

/-- When two threads access the same object, be it at the same time or one after the other, then it is one of the shared values, and both only read it.  So there are no data races, and the results do
not depend on the order in which the hardware makes the operations of one thread visible to the others. -/
theorem C92_race_free (ho : IteratesAll order) (vals : List Val) (calls : List (Ty × Nat)) (hcalls : ∀ c ∈ calls, c.2 < vals.length) (sched : Nat → Nat) (T₁ T₂ i j a : Nat) (w₁ w₂ : Bool)
    (h₁ : ((SPool.start E order vals calls).after E order ryu sched T₁).accesses i = some (a, w₁))
    (h₂ : ((SPool.start E order vals calls).after E order ryu sched T₂).accesses j = some (a, w₂)) : i = j ∨ (a < vals.length ∧ w₁ = false ∧ w₂ = false) := by
  have key : ∀ T d i j w₁ w₂, ((SPool.start E order vals calls).after E order ryu sched T).accesses i = some (a, w₁) →
      ((SPool.start E order vals calls).after E order ryu sched (T + d)).accesses j = some (a, w₂) → i = j ∨ (a < vals.length ∧ w₁ = false ∧ w₂ = false) := by
    intro T d i j w₁ w₂ h₁ h₂
    refine race_free_lt E order ryu ho vals calls hcalls ((List.range T).map sched) ((List.range' T d).map sched) i j a w₁ w₂ h₁ ?_
    have : (List.range T).map sched ++ (List.range' T d).map sched = (List.range (T + d)).map sched := by
      have := List.range'_append_1 (s := 0) (m := T) (n := d)
      rw [Nat.zero_add] at this
      rw [← List.map_append, List.range_eq_range', List.range_eq_range', this]
    rw [this]
    exact h₂
  rcases Nat.le_total T₁ T₂ with h | h
  · obtain ⟨d, rfl⟩ := Nat.le.dest h
    exact key T₁ d i j w₁ w₂ h₁ h₂
  · obtain ⟨d, rfl⟩ := Nat.le.dest h
    rcases key T₂ d j i w₂ w₁ h₂ h₁ with e | ⟨e1, e2, e3⟩
    · exact .inl e.symm
    · exact .inr ⟨e1, e3, e2⟩

/-- A thread that keeps getting turns returns, even if the other threads are stopped forever at the worst moment. -/
theorem C92_progress (ho : IteratesAll order) (hE : E.Utf8) (lit : F64 → NumLit) (hr : RyuSyntax ryu lit) (vals : List Val) (calls : List (Ty × Nat)) (hcalls : ∀ c ∈ calls, c.2 < vals.length)
    (sched : Nat → Nat) (i : Nat) (t : Ty) (a : Nat) (v : Val) (hc : calls[i]? = some (t, a)) (hv : vals[a]? = some v) (ht : HasTy E t v) (fair : Threads.KeepsRunning sched i) :
    ∃ T r, ((SPool.start E order vals calls).after E order ryu sched T).Returned i r := by
  obtain ⟨o, h', ⟨N, hN⟩, -⟩ := C28_total E (fun _ => reorder order) (fun _ => reorder_perm order ho) hE hr t v ht
  have : ((SPool.start E order vals calls).after E order ryu sched 0).threads[i]? = some (beginWithP E order [] [] (t, ⟨a, []⟩)) := by
    simp [SPool.after, SPool.run, SPool.start, hc]
  exact progress ho hcalls fair hc hv (N := N) hN (N + 1) 0 (by omega) _ 0 this ⟨_, _, inv_start ho, rfl⟩

/-! ## A concrete case -/

/-- Two values in memory: a list of lists, and an object. -/
def exVals : List Val :=
  [.seq [.box (.seq [.int 1, .int 2]), .box (.seq [])], .map [(str!"a", .seq [.bool true]), (str!"b", .null)]]

/-- Three threads: two of them serialize the same list of lists, the third one the object. -/
def exCalls : List (Ty × Nat) := [(.vec (.box (.vec (.int false 8))), 0), (.vec (.box (.vec (.int false 8))), 0), (.value, 1)]

/-- The threads take turns. -/
def exTurns : Nat → Nat := fun T => T % 3

/-- Listed order. -/
def exListed : List (Bytes × Val) → List Nat := fun ms => List.range ms.length

theorem exListed_all : IteratesAll exListed := fun _ => List.Perm.refl _

/-- What `ryu` would print; not used here. -/
def exText : F64 → Bytes := fun x => (exLit x).text

/-- All three return the right text; while they run they are really interleaved, and own streams of their own. -/
def exCheck : Bool :=
  let P := (SPool.start exEnv exListed exVals exCalls).run exEnv exListed exText ((List.range 150).map exTurns)
  let M := (SPool.start exEnv exListed exVals exCalls).run exEnv exListed exText ((List.range 18).map exTurns)
  (match P.threads with
    | [.ret (.finished (some x)), .ret (.finished (some y)), .ret (.finished (some z))] => x == str!"[[1,2],[]]" && y == x && z == str!"{\"a\":[true],\"b\":null}"
    | _ => false) &&
  (match M.threads with
    | [.ret (.finished _), _, _] => false
    | [_, .ret (.finished _), _] => false
    | [_, _, .ret (.finished _)] => false
    | _ => true) && (M.heap.mem 2).isSome && (M.heap.mem 3).isSome && (M.heap.mem 4).isSome

example : exCheck = true := by decide +kernel

/-- At the start all threads are about to read the shared values, two of them the same one. -/
example : [0, 1, 2].map ((SPool.start exEnv exListed exVals exCalls).accesses) = [some (0, false), some (0, false), some (1, false)] := by decide +kernel

theorem exVal_ty : HasTy exEnv .value (.map [(str!"a", .seq [.bool true]), (str!"b", .null)]) := by
  refine .object (.inr rfl) ?_ (by unfold SortedKeys; decide) ?_
  · intro m hm
    refine valid_ascii ?_
    simp only [List.mem_cons, List.not_mem_nil, or_false] at hm
    rcases hm with rfl | rfl <;> decide
  · intro m hm
    simp only [List.mem_cons, List.not_mem_nil, or_false] at hm
    rcases hm with rfl | rfl
    · refine .array (.inr rfl) fun v hv => ?_
      simp only [List.mem_cons, List.not_mem_nil, or_false] at hv
      subst hv
      exact .vBool true
    · exact .vNull

example : ∃ T r, ((SPool.start exEnv exListed exVals exCalls).after exEnv exListed exText exTurns T).Returned 2 r :=
  C92_progress exEnv exListed exText exListed_all exEnv_utf8 exLit exRyu exVals exCalls (by decide) exTurns 2 .value 1 _ rfl rfl
    exVal_ty fun T => ⟨3 * T + 2, by omega, by simp [exTurns]⟩

end Miniserde.SerThreads
