import Verif.Model.ValueApi
import Verif.Spec.Encode
import Verif.Spec.Drop

/-!
# What programs that use `Value` are to do

The variables of a program as plain trees (`Val`): no labels, no memory.  Operations are described with list functions; an object is a list of entries in
key order.
-/

namespace Miniserde

def Scalar.val : Scalar → Val
  | .null => .null
  | .bool b => .bool b
  | .numU n => .numU n
  | .numI z => .numI z
  | .numF x => .numF x
  | .str s => .str s

mutual

/-- The tree of a value in memory. -/
def LVal.val : LVal → Val
  | .scalar _ s => s.val
  | .array _ xs => .seq (LVal.vals xs)
  | .object _ ms => .map (LVal.valEntries ms)

def LVal.vals : List LVal → List Val
  | [] => []
  | x :: xs => x.val :: LVal.vals xs

def LVal.valEntries : List (Bytes × Nat × LVal) → List (Bytes × Val)
  | [] => []
  | (k, _, x) :: ms => (k, x.val) :: LVal.valEntries ms

end

/-- All heap objects of the variables. -/
def Prog.owned (p : Prog) : List Nat := p.vars.flatMap fun v => v.node.owns

/-- The machine integers, floats and strings a program can write are those of their Rust types. -/
def Scalar.WF : Scalar → Prop
  | .null => True
  | .bool _ => True
  | .numU n => n ≤ u64Max
  | .numI z => i64Min ≤ z ∧ z ≤ i64Max
  | .numF x => x.Valid binary64
  | .str s => ValidUtf8 s

/-- The operation is well-typed: its literals are values of their Rust types. -/
def ApiOp.WF : ApiOp → Prop
  | .scalar s => s.WF
  | .parse s => ValidUtf8 s
  | .collectPairs ks => ∀ k ∈ ks, ValidUtf8 k
  | .edit _ _ (.insertKey k) => ValidUtf8 k
  | _ => True

/-- The entries with `k` mapped to `v`. -/
def withKey {α : Type} (k : Bytes) (v : α) (ms : List (Bytes × α)) : List (Bytes × α) :=
  ms.filter (fun m => strLt m.1 k) ++ (k, v) :: ms.filter (fun m => strLt k m.1)

/-- The entries without `k`. -/
def withoutKey {α : Type} (k : Bytes) (ms : List (Bytes × α)) : List (Bytes × α) := ms.filter fun m => m.1 != k

/-- The part of a tree at the end of a path. -/
def Val.get : List Loc → Val → Option Val
  | [], v => some v
  | .idx i :: p, .seq vs => vs[i]?.bind (Val.get p)
  | .key k :: p, .map ms => (ms.lookup k).bind (Val.get p)
  | _, _ => none

/-- The tree with the part at the end of a path changed, and what `f` returns. -/
def Val.modify (f : Val → Option (Val × List Val)) : List Loc → Val → Option (Val × List Val)
  | [], v => f v
  | .idx i :: p, .seq vs => vs[i]?.bind fun v => (Val.modify f p v).map fun r => (.seq (vs.set i r.1), r.2)
  | .key k :: p, .map ms => (ms.lookup k).bind fun v => (Val.modify f p v).map fun r => (.map (withKey k r.1 ms), r.2)
  | _, _ => none

/-- What an operation makes of the tree at its place, and what it returns; `none`: it panics. -/
def Edit.spec (e : Edit) (arg : Option Val) (src : Option Val) (place : Val) : Option (Val × List Val) :=
  match e, arg, place with
  | .assign, some a, _ => some (a, [])
  | .replace, some a, old => some (a, [old])
  | .take, none, old => some (.null, [old])
  | .push, some a, .seq vs => some (.seq (vs ++ [a]), [])
  | .pop, none, .seq vs => some (.seq vs.dropLast, vs.getLast?.toList)
  | .insert j, some a, .seq vs => if j ≤ vs.length then some (.seq (vs.take j ++ a :: vs.drop j), []) else none
  | .remove j, none, .seq vs => vs[j]?.map fun v => (.seq (vs.eraseIdx j), [v])
  | .truncate k, none, .seq vs => some (.seq (vs.take k), [])
  | .clear, none, .seq _ => some (.seq [], [])
  | .cloneFrom _ _, none, .seq _ =>
    match src with
    | some (.seq ys) => some (.seq ys, [])
    | _ => none
  | .insertKey k, some a, .map ms => some (.map (withKey k a ms), (ms.lookup k).toList)
  | .removeKey k, none, .map ms => some (.map (withoutKey k ms), (ms.lookup k).toList)
  | .clear, none, .map _ => some (.map [], [])
  | .rearrange kept ret gone, none, .seq vs =>
    if (kept ++ ret ++ gone).Perm (List.range vs.length) then some (.seq (kept.map fun i => vs.getD i .null), ret.map fun i => vs.getD i .null) else none
  | .select fates, none, .map ms =>
    if fates.length = ms.length then
      some (.map (((ms.zip fates).filter fun p => p.2 = .keep).map Prod.fst), ((ms.zip fates).filter fun p => p.2 = .give).map fun p => p.1.2)
    else none
  | _, _, _ => none

/-- The value behind the shared reference an operation takes. -/
def Edit.sourceSpec (vars : List Val) : Edit → Option Val
  | .cloneFrom y q => vars[y]?.bind (Val.get q)
  | _ => none

/-- The operations that consume a value: the newest variable. -/
def Edit.consumes : Edit → Bool
  | .assign => true
  | .replace => true
  | .take => false
  | .push => true
  | .pop => false
  | .insert _ => true
  | .remove _ => false
  | .truncate _ => false
  | .cloneFrom _ _ => false
  | .insertKey _ => true
  | .removeKey _ => false
  | .clear => false
  | .rearrange _ _ _ => false
  | .select _ => false

/-- What an operation makes of the variables; `none`: it panics. -/
def ApiOp.spec (read : Bytes → Option Val) (vars : List Val) : ApiOp → Option (List Val)
  | .scalar s => some (s.val :: vars)
  | .array => some (.seq [] :: vars)
  | .object => some (.map [] :: vars)
  | .parse s => some ((read s).toList ++ vars)
  | .clone x p => (vars[x]?.bind (Val.get p)).map (· :: vars)
  | .drop x => vars[x]?.map fun _ => vars.eraseIdx x
  | .move x => vars[x]?.map (· :: vars.eraseIdx x)
  | .collect n => if n ≤ vars.length then some (.seq (vars.take n) :: vars.drop n) else none
  | .collectPairs ks =>
    if ks.length ≤ vars.length then
      some (.map ((ks.zip (vars.take ks.length)).foldl (fun ms kv => withKey kv.1 kv.2 ms) []) :: vars.drop ks.length)
    else none
  | .intoIter n =>
    match vars with
    | .seq vs :: vars => some (vs.take n ++ vars)
    | .map ms :: vars => some ((ms.take n).map Prod.snd ++ vars)
    | _ => none
  | .edit x p e =>
    match e.consumes, vars with
    | true, a :: rest => rest[x]?.bind fun v => (v.modify (e.spec (some a) (e.sourceSpec vars)) p).map fun r => r.2 ++ rest.set x r.1
    | false, vars => vars[x]?.bind fun v => (v.modify (e.spec none (e.sourceSpec vars)) p).map fun r => r.2 ++ vars.set x r.1
    | true, [] => none

/-- A whole program; a panic leaves no variables. -/
def specRun (read : Bytes → Option Val) : List Val → List ApiOp → List Val
  | vars, [] => vars
  | vars, op :: ops => specRun read ((op.spec read vars).getD []) ops

end Miniserde
