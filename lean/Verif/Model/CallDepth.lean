import Verif.Model.ValueApi
import Verif.Model.Pretty

/-!
# `Clone` and `Debug` of `Value` with a limited stack

As `LVal.clone` (`Model/ValueApi.lean`) and `formatDebug` (`Model/Pretty.lean`), but at most `d` calls of `Value::clone` / `<Value as Debug>::fmt` can be active at
once: a further call overflows the stack (`none`).
-/

namespace Miniserde

mutual

/-- `src/json/value.rs:29` `#[derive(Clone)]` on `Value`, `src/json/array.rs:50-55`, `src/json/object.rs:16`, as `LVal.clone`. -/
def LVal.cloneL (d n : Nat) (v : LVal) : Option (Nat × LVal) :=
  match d with
  | 0 => none
  | d + 1 =>
    match v with
    | .scalar _ s => some (n + 1, .scalar n s)
    | .array _ xs => (LVal.clonesL d (n + 1) xs).map fun r => (r.1, .array n r.2)
    | .object _ ms => (LVal.cloneEntriesL d (n + 1) ms).map fun r => (r.1, .object n r.2)
termination_by (d, 0)

/-- `Vec::clone`: one element after the other. `src/json/array.rs:50-55`. -/
def LVal.clonesL (d n : Nat) (xs : List LVal) : Option (Nat × List LVal) :=
  match xs with
  | [] => some (n, [])
  | x :: xs => (LVal.cloneL d n x).bind fun r => (LVal.clonesL d r.1 xs).map fun q => (q.1, r.2 :: q.2)
termination_by (d, xs.length + 1)

/-- `BTreeMap::clone`: one entry after the other.  (std's `clone_subtree` itself nests as deep as the B-tree, which is logarithmic in the number of entries; not
counted.) `src/json/object.rs:16` (derived). -/
def LVal.cloneEntriesL (d n : Nat) (ms : List (Bytes × Nat × LVal)) : Option (Nat × List (Bytes × Nat × LVal)) :=
  match ms with
  | [] => some (n, [])
  | (k, _, x) :: ms => (LVal.cloneL d (n + 1) x).bind fun r => (LVal.cloneEntriesL d r.1 ms).map fun q => (q.1, (k, n, r.2) :: q.2)
termination_by (d, ms.length + 1)

end

section
variable (ryu : F64 → Bytes) (strWrites : Bytes → List Bytes) (alt : Bool)

mutual

/-- `src/json/value.rs:46-57`, `src/json/array.rs:100-105`, `src/json/object.rs:94-99`, as `fmtValue`. -/
def fmtValueL (d : Nat) (v : Val) {σ : Type} (w : σ → Bytes → σ) (s : σ) : Option σ :=
  match d with
  | 0 => none
  | d + 1 =>
    match v with
    | .seq vs => (fmtEntriesL d vs false w (w (w s (str! "Array ")) (str! "["))).map fun s => w s (str! "]")
    | .map ms => (fmtMembersL d ms false w (w (w s (str! "Object ")) (str! "{"))).map fun s => w s (str! "}")
    -- no nested call
    | v => some (fmtValue ryu strWrites alt v w s)
termination_by (d, 0)

/-- `core::fmt::builders::DebugList::entries`, as `fmtEntries`. `src/json/array.rs:100-105`. -/
def fmtEntriesL (d : Nat) (vs : List Val) (has : Bool) {σ : Type} (w : σ → Bytes → σ) (s : σ) : Option σ :=
  match vs with
  | [] => some s
  | v :: vs =>
    if alt then
      (fmtValueL d v (padWrite w) (true, if has then s else w s (str! "\n"))).bind fun st => fmtEntriesL d vs true w (padWrite w st (str! ",\n")).2
    else
      (fmtValueL d v w (if has then w s (str! ", ") else s)).bind fun s => fmtEntriesL d vs true w s
termination_by (d, vs.length + 1)

/-- `core::fmt::builders::DebugMap::entries`, as `fmtMembers`. `src/json/object.rs:94-99`. -/
def fmtMembersL (d : Nat) (ms : List (Bytes × Val)) (has : Bool) {σ : Type} (w : σ → Bytes → σ) (s : σ) : Option σ :=
  match ms with
  | [] => some s
  | (k, v) :: ms =>
    if alt then
      (fmtValueL d v (padWrite w) (padWrite w ((strWrites k).foldl (padWrite w) (true, if has then s else w s (str! "\n"))) (str! ": "))).bind fun st =>
        fmtMembersL d ms true w (padWrite w st (str! ",\n")).2
    else
      (fmtValueL d v w (w ((strWrites k).foldl w (if has then w s (str! ", ") else s)) (str! ": "))).bind fun s => fmtMembersL d ms true w s
termination_by (d, ms.length + 1)

end

/-- `format!("{:?}", v)`, `format!("{:#?}", v)`. `src/json/value.rs:46-57`. -/
def formatDebugL (d : Nat) (v : Val) : Option Bytes := fmtValueL ryu strWrites alt d v (fun s x => s ++ x) []

end

end Miniserde
