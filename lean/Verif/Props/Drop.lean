import Verif.Proof.Drop

/-!
# Dropping a `Value`

`DState` (`Model/Drop.lean`) is a machine with an explicit call stack; `DNode.owns` (`Spec/Drop.lean`) lists the heap objects of a value.
-/

namespace Miniserde

/-- **C37.** Dropping a `Value`, however deeply nested, never has more than five calls active at once ... -/
theorem C37_bounded_depth (v : DNode) (n : Nat) : (DState.run n ⟨[.value v], []⟩).calls.length ≤ 5 := (drops_value v).runs.2 n

/-- **C37.** ... it terminates, and frees every string, key, array and object of the value exactly once. -/
theorem C37_frees_once (v : DNode) : ∃ n freed, DState.run n ⟨[.value v], []⟩ = ⟨[], freed⟩ ∧ freed.Perm v.owns := (drops_value v).runs.1

/-- **C37.** The same for dropping an `Array` or an `Object` itself. -/
theorem C37_array (i : Nat) (xs : List DNode) :
    (∀ n, (DState.run n ⟨[.array i xs], []⟩).calls.length ≤ 4) ∧
    ∃ n freed, DState.run n ⟨[.array i xs], []⟩ = ⟨[], freed⟩ ∧ freed.Perm (DNode.array i xs).owns :=
  ⟨(drops_array i xs).runs.2, (drops_array i xs).runs.1⟩

theorem C37_object (i : Nat) (ms : List (Nat × DNode)) :
    (∀ n, (DState.run n ⟨[.object i ms], []⟩).calls.length ≤ 4) ∧
    ∃ n freed, DState.run n ⟨[.object i ms], []⟩ = ⟨[], freed⟩ ∧ freed.Perm (DNode.object i ms).owns :=
  ⟨(drops_object i ms).runs.2, (drops_object i ms).runs.1⟩

/-- **C54.** When `from_str::<Value>` gives up on an input, in whatever state (`st` are the arrays and objects open at that moment, innermost first, each
with the parts read so far; `out` what has been delivered), it cleans up without recursion: at most eleven calls are active at once ... -/
theorem C54_bounded_depth (buffer stackId : Nat) (st : List DLayer) (out : Option DNode) (n : Nat) :
    (DState.run n ⟨[.fromStrErr buffer stackId st out], []⟩).calls.length ≤ 11 := (drops_fromStrErr buffer stackId st out).runs.2 n

/-- **C54.** ... and it frees everything read so far, the builders and its own buffers exactly once. -/
theorem C54_frees_once (buffer stackId : Nat) (st : List DLayer) (out : Option DNode) :
    ∃ n freed, DState.run n ⟨[.fromStrErr buffer stackId st out], []⟩ = ⟨[], freed⟩ ∧
      freed.Perm (buffer :: stackId :: ownsLayers st ++ ownsOpt out) := (drops_fromStrErr buffer stackId st out).runs.1

/-- **C55.** Giving up an owning iterator over an `Array` after any number of elements: the remaining elements are dropped without recursion, each freed
once. -/
theorem C55_array_iter (i : Nat) (rest : List DNode) :
    (∀ n, (DState.run n ⟨[.vecIter i rest], []⟩).calls.length ≤ 6) ∧
    ∃ n freed, DState.run n ⟨[.vecIter i rest], []⟩ = ⟨[], freed⟩ ∧ freed.Perm (i :: ownsAll rest) :=
  ⟨(drops_vecIter i rest).runs.2, (drops_vecIter i rest).runs.1⟩

/-- **C55.** The same for an `Object`. -/
theorem C55_object_iter (i : Nat) (rest : List (Nat × DNode)) :
    (∀ n, (DState.run n ⟨[.mapIter i rest], []⟩).calls.length ≤ 6) ∧
    ∃ n freed, DState.run n ⟨[.mapIter i rest], []⟩ = ⟨[], freed⟩ ∧ freed.Perm (i :: ownsEntries rest) :=
  ⟨(drops_mapIter i rest).runs.2, (drops_mapIter i rest).runs.1⟩

/-- `[{"k": ["s"]}]` -/
def exDNode : DNode := .array 0 [.object 1 [(2, .array 3 [.scalar 4])], .scalar 5]

/-- `[[{"k": ["s"]}],{"a":1,"b":` and then an error. -/
example : (DState.run 60 ⟨[.fromStrErr 20 21 [.map 10 11 [(12, .scalar 13)] (some 14) none, .seq 15 16 [exDNode] none] none], []⟩).freed =
    [12, 13, 11, 14, 10, 0, 5, 2, 1, 3, 4, 16, 15, 20, 21] := by decide +kernel

example : DState.run 30 ⟨[.value exDNode], []⟩ = ⟨[], [2, 1, 3, 4, 5, 0]⟩ ∧ exDNode.owns = [0, 1, 2, 3, 4, 5] := ⟨rfl, by decide⟩

end Miniserde
