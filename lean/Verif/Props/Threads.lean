import Verif.Proof.ThreadsPool
import Verif.Props.Typed

/-!
# C88: `from_str` on several threads
-/

namespace Miniserde.Threads
open Miniserde
variable (E : Env)

/-- Whatever the other threads do and in whatever order the single memory operations are executed, a thread that has returned has
returned exactly what the same call returns when it runs alone. -/
theorem C88_result (calls : List (Ty × Bytes)) (sched : List Nat) (i : Nat) (t : Ty) (j : Bytes) (r : Option (Res Val))
    (hc : calls[i]? = some (t, j)) (h : ((Pool.start E calls).run sched).Returned i r) :
    r = (fromStr E t j).map Prod.fst := by
  obtain ⟨hs, inv⟩ := inv_run E sched (inv_start E calls)
  exact (inv.safe i (t, j) _ hc h).ret.1

/-- At no point of any schedule has a thread read, overwritten or freed memory that is not live, or freed an array builder in a
wrong state; and when all threads have returned, nothing is left allocated. -/
theorem C88_memory (calls : List (Ty × Bytes)) (sched : List Nat) :
    ((Pool.start E calls).run sched).heap.fault = false ∧
    (((Pool.start E calls).run sched).AllReturned → ∀ a, ((Pool.start E calls).run sched).heap.mem a = none) := by
  obtain ⟨hs, inv⟩ := inv_run E sched (inv_start E calls)
  refine ⟨inv.fault, fun done a => ?_⟩
  cases hm : ((Pool.start E calls).run sched).heap.mem a with
  | none => rfl
  | some o =>
    obtain ⟨i, h1, h2⟩ := inv.cover a (by rw [hm]; nofun)
    obtain ⟨r, hr⟩ := done i (by rw [inv.length]; exact h1)
    have := (inv.safe i _ _ (List.getElem?_eq_getElem h1) hr).ret.2.mem
    exact absurd (congrFun this a) h2

theorem race_free_lt (calls : List (Ty × Bytes)) (s₁ s₂ : List Nat) (i j a : Nat) (h₁ : ((Pool.start E calls).run s₁).accesses i = some a)
    (h₂ : ((Pool.start E calls).run (s₁ ++ s₂)).accesses j = some a) : i = j := by
  obtain ⟨hs, inv⟩ := inv_run E s₁ (inv_start E calls)
  rw [run_append] at h₂
  obtain ⟨p, hp, h₁⟩ := Option.bind_eq_some_iff.1 h₁
  have own := touch_own E inv hp h₁
  have lt : a < ((Pool.start E calls).run s₁).heap.next := by
    apply Nat.lt_of_not_le
    intro h
    have := inv.fresh a h
    rw [inv.own i a own] at this
    exact own this
  obtain ⟨hs', inv', h'⟩ := own_after E (i := i) (a := a) s₂ inv lt fun k hk => inv.disj i k a hk.symm own
  obtain ⟨q, hq, h₂⟩ := Option.bind_eq_some_iff.1 h₂
  have own' := touch_own E inv' hq h₂
  by_cases e : j = i
  · exact e.symm
  · exact absurd (h' j e) own'

/-- No object is ever accessed by two threads, be it at the same time or one after the other.  So there are no data races, and the results do not depend on the order in which the hardware makes the
operations of one thread visible to the others. -/
theorem C88_race_free (calls : List (Ty × Bytes)) (sched : Nat → Nat) (T₁ T₂ i j a : Nat) (h₁ : ((Pool.start E calls).after sched T₁).accesses i = some a)
    (h₂ : ((Pool.start E calls).after sched T₂).accesses j = some a) : i = j := by
  have key : ∀ T d i j, ((Pool.start E calls).after sched T).accesses i = some a → ((Pool.start E calls).after sched (T + d)).accesses j = some a → i = j := by
    intro T d i j h₁ h₂
    refine race_free_lt E calls ((List.range T).map sched) ((List.range' T d).map sched) i j a h₁ ?_
    have : (List.range T).map sched ++ (List.range' T d).map sched = (List.range (T + d)).map sched := by
      have := List.range'_append_1 (s := 0) (m := T) (n := d)
      rw [Nat.zero_add] at this
      rw [← List.map_append, List.range_eq_range', List.range_eq_range', this]
    rw [this]
    exact h₂
  rcases Nat.le_total T₁ T₂ with h | h
  · obtain ⟨d, rfl⟩ := Nat.le.dest h
    exact key T₁ d i j h₁ h₂
  · obtain ⟨d, rfl⟩ := Nat.le.dest h
    exact (key T₂ d j i h₂ h₁).symm

/-- A thread that keeps getting turns returns, even if the other threads are stopped forever at the worst moment. -/
theorem C88_progress (calls : List (Ty × Bytes)) (sched : Nat → Nat) (i : Nat) (hi : i < calls.length) (fair : KeepsRunning sched i) :
    ∃ T r, ((Pool.start E calls).after sched T).Returned i r := by
  have : ((Pool.start E calls).after sched 0).threads[i]? = some (fromStrP E calls[i].1 calls[i].2) := by
    simp [Pool.after, Pool.run, Pool.start, List.getElem?_eq_getElem hi]
  exact progress fair _ 0 this

/-! ## A concrete case -/

/-- Three threads, one of which parses an invalid document. -/
def exCalls : List (Ty × Bytes) :=
  [(.vec (.box (.vec (.int false 8))), str!"[[1,2],[3]]"), (.tup (.opt .bool) .string, str!"[null,\"x\"]"), (.value, str!"{\"a\":[1")]

/-- The threads take turns. -/
def exTurns : Nat → Nat := fun T => T % 3

/-- The first thread has returned the right value, the second too, the third an error; while they ran they were really
interleaved (after 24 turns, 8 each, no thread has returned). -/
def exCheck : Bool :=
  let P := (Pool.start exEnv exCalls).run ((List.range 400).map exTurns)
  let M := (Pool.start exEnv exCalls).run ((List.range 24).map exTurns)
  (match P.threads with
    | [.ret (some (.ok (.seq [.box (.seq [.int 1, .int 2]), .box (.seq [.int 3])]))), .ret (some (.ok (.seq [.optNone, .str s]))), .ret (some .err)] =>
      s == str!"x"
    | _ => false) &&
  (match M.threads with
    | [.ret _, _, _] => false
    | [_, .ret _, _] => false
    | [_, _, .ret _] => false
    | _ => true) && (M.heap.mem 0).isSome && (M.heap.mem 1).isSome && (M.heap.mem 2).isSome

example : exCheck = true := by decide +kernel

/-- After 24 turns of that run all threads are about to access objects. -/
def exAccess : List (Option Nat) :=
  let M := (Pool.start exEnv exCalls).run ((List.range 24).map exTurns)
  [M.accesses 0, M.accesses 1, M.accesses 2]

example : (exAccess.all Option.isSome && exAccess.Nodup) = true := by decide +kernel

example : KeepsRunning exTurns 1 := fun T => ⟨3 * T + 1, by omega, by simp [exTurns]⟩

example : ∃ T r, ((Pool.start exEnv exCalls).after exTurns T).Returned 1 r :=
  C88_progress exEnv exCalls exTurns 1 (by decide) fun T => ⟨3 * T + 1, by omega, by simp [exTurns]⟩

end Miniserde.Threads
