import Verif.Model.Types
import Verif.Model.Drop

/-!
# Programs that use `Value`, `Array` and `Object`

`LVal` is a `json::Value` in memory: its data together with the labels (`Model/Drop.lean`) of its heap objects.  A program has a list of local variables, newest
first, and executes operations `ApiOp`; an operation that needs an argument by value takes the newest variable, results become the newest variables.

Simplifications: `Array` and `Object` deref to `Vec<Value>` and `BTreeMap<String, Value>`; of the API of these std types a representative selection is modelled,
by what it does to a list of elements or a list of entries in key order.  The label of an array stands for its buffer across reallocations.  Access paths
(`&mut v[i]["k"]..`) are evaluated by the operation that uses them.  An operation that panics (index out of range, wrong variant) unwinds: all variables are dropped.
-/

namespace Miniserde

/-- The scalars of `src/json/value.rs:29-37` `enum Value`, and `src/json/number.rs:6-12` `enum Number`. -/
inductive Scalar where
  | null
  | bool (b : Bool)
  | numU (n : Nat)
  | numI (z : Int)
  | numF (x : F64)
  | str (s : Bytes)

/-- `src/json/value.rs:29-37` `enum Value`, with labels. -/
inductive LVal where
  | scalar (id : Nat) (s : Scalar)
  | array (id : Nat) (xs : List LVal)
  /-- every entry: the text of the key, the label of the key, the value -/
  | object (id : Nat) (ms : List (Bytes × Nat × LVal))

mutual

/-- The labels, as the destructor sees them. `src/json/value.rs:30-37`, `src/json/array.rs:15-17`, `src/json/object.rs:17-19`. -/
def LVal.node : LVal → DNode
  | .scalar i _ => .scalar i
  | .array i xs => .array i (LVal.nodes xs)
  | .object i ms => .object i (LVal.nodeEntries ms)

/-- `src/json/array.rs:15-17`. -/
def LVal.nodes : List LVal → List DNode
  | [] => []
  | x :: xs => x.node :: LVal.nodes xs

/-- `src/json/object.rs:17-19`. -/
def LVal.nodeEntries : List (Bytes × Nat × LVal) → List (Nat × DNode)
  | [] => []
  | (_, l, x) :: ms => (l, x.node) :: LVal.nodeEntries ms

end

mutual

/-- `src/json/value.rs:29` `#[derive(Clone)]` on `Value`; `src/json/array.rs:50-55` `Array::clone`; `src/json/object.rs:16` `#[derive(Clone)]` on `Object`;
`Vec::clone`, `BTreeMap::clone`, `String::clone`: every heap object is allocated anew, from label `n` on. -/
def LVal.clone (n : Nat) : LVal → Nat × LVal
  | .scalar _ s => (n + 1, .scalar n s)
  | .array _ xs => ((LVal.clones (n + 1) xs).1, .array n (LVal.clones (n + 1) xs).2)
  | .object _ ms => ((LVal.cloneEntries (n + 1) ms).1, .object n (LVal.cloneEntries (n + 1) ms).2)

/-- `src/json/array.rs:50-55`. -/
def LVal.clones (n : Nat) : List LVal → Nat × List LVal
  | [] => (n, [])
  | x :: xs => ((LVal.clones (x.clone n).1 xs).1, (x.clone n).2 :: (LVal.clones (x.clone n).1 xs).2)

/-- `src/json/object.rs:16` (derived). -/
def LVal.cloneEntries (n : Nat) : List (Bytes × Nat × LVal) → Nat × List (Bytes × Nat × LVal)
  | [] => (n, [])
  | (k, _, x) :: ms =>
    ((LVal.cloneEntries (x.clone (n + 1)).1 ms).1, (k, n, (x.clone (n + 1)).2) :: (LVal.cloneEntries (x.clone (n + 1)).1 ms).2)

end

mutual

/-- A value just read by `json::from_str` (`src/json/de.rs:30-37`; its data is that of `Model/Visitors.lean`): all heap objects are new, from label `n` on. -/
def LVal.fresh (n : Nat) : Val → Nat × LVal
  | .null => (n + 1, .scalar n .null)
  | .bool b => (n + 1, .scalar n (.bool b))
  | .numU k => (n + 1, .scalar n (.numU k))
  | .numI z => (n + 1, .scalar n (.numI z))
  | .numF x => (n + 1, .scalar n (.numF x))
  | .str s => (n + 1, .scalar n (.str s))
  | .seq vs => ((LVal.freshAll (n + 1) vs).1, .array n (LVal.freshAll (n + 1) vs).2)
  | .map ms => ((LVal.freshEntries (n + 1) ms).1, .object n (LVal.freshEntries (n + 1) ms).2)
  -- not a `Value`
  | _ => (n + 1, .scalar n .null)

/-- `src/json/array.rs:133-153`. -/
def LVal.freshAll (n : Nat) : List Val → Nat × List LVal
  | [] => (n, [])
  | v :: vs => ((LVal.freshAll (LVal.fresh n v).1 vs).1, (LVal.fresh n v).2 :: (LVal.freshAll (LVal.fresh n v).1 vs).2)

/-- `src/json/object.rs:138-159`. -/
def LVal.freshEntries (n : Nat) : List (Bytes × Val) → Nat × List (Bytes × Nat × LVal)
  | [] => (n, [])
  | (k, v) :: ms =>
    ((LVal.freshEntries (LVal.fresh (n + 1) v).1 ms).1, (k, n, (LVal.fresh (n + 1) v).2) :: (LVal.freshEntries (LVal.fresh (n + 1) v).1 ms).2)

end

/-- A step of an access path: `&mut array[i]`, `object.get_mut(k)`. `src/json/array.rs:36-48`, `src/json/object.rs:42-54`. -/
inductive Loc where
  | idx (i : Nat)
  | key (k : Bytes)

/-- What becomes of an entry of a map: it stays, its value is returned and the key dropped, or both are dropped. Through `src/json/object.rs:50-54`. -/
inductive EntryFate where
  | keep
  | give
  | gone
  deriving DecidableEq

/-- Operations on the value at the end of an access path. `src/json/array.rs:36-98`, `src/json/object.rs:42-92`. -/
inductive Edit where
  /-- `*place = arg` -/
  | assign
  /-- `let r = mem::replace(place, arg)` -/
  | replace
  /-- `mem::take(place)`: `src/json/value.rs:39-44` `Value::default` is left behind -/
  | take
  /-- `array.push(arg)` -/
  | push
  /-- `array.pop()` -/
  | pop
  /-- `array.insert(i, arg)` -/
  | insert (i : Nat)
  /-- `array.remove(i)` -/
  | remove (i : Nat)
  /-- `array.truncate(n)` -/
  | truncate (n : Nat)
  /-- `array.clone_from(&src)` -/
  | cloneFrom (src : Nat) (path : List Loc)
  /-- `object.insert(k, arg)` -/
  | insertKey (k : Bytes)
  /-- `object.remove(k)` -/
  | removeKey (k : Bytes)
  /-- `array.clear()`, `object.clear()` -/
  | clear
  /-- any other operation of `Vec<Value>` that is given no element: of the elements (by index) those in `kept` stay, in that order, those in `ret` are returned, those in
  `gone` are dropped (`sort_by`, `reverse`, `swap`, `rotate_left`, `swap_remove`, `retain`, `dedup_by`, `drain`, `split_off`, ...).  It panics if an element would be
  lost or duplicated. -/
  | rearrange (kept ret gone : List Nat)
  /-- any other operation of `BTreeMap<String, Value>` that is given no entry: what becomes of each entry, in key order (`retain`, `pop_first`, `split_off`,
  `first_entry`, ...) -/
  | select (fates : List EntryFate)

/-- Does the operation take an argument by value? `src/json/array.rs:44-48`, `src/json/object.rs:50-54`. -/
def Edit.takesArg : Edit → Bool
  | .assign | .replace | .push | .insert _ | .insertKey _ => true
  | _ => false

/-- What an operation does besides changing its place: values returned, calls of destructors, heap objects freed directly, and the first label not yet used. `src/json/array.rs:19-98`, `src/json/object.rs:21-92`. -/
structure OpResult where
  ret : List LVal
  dead : List DFrame
  freed : List Nat
  next : Nat

/-- `BTreeMap::remove`. Through `src/json/object.rs:50-54`. -/
def entryRemove {α : Type} (k : Bytes) : List (Bytes × α) → Option (α × List (Bytes × α))
  | [] => none
  | (k', v) :: ms => if k' = k then some (v, ms) else (entryRemove k ms).map fun r => (r.1, (k', v) :: r.2)

/-- An entry of a map: its position and contents. Through `src/json/object.rs:42-54`. -/
def entryFind {α : Type} (k : Bytes) : List (Bytes × α) → Option (Nat × α)
  | [] => none
  | (k', v) :: ms => if k' = k then some (0, v) else (entryFind k ms).map fun r => (r.1 + 1, r.2)

/-- `src/json/array.rs:57-59` `Array::clone_from`: `Vec::clone_from` truncates, assigns clones to the elements that are left (`Value::clone_from` is
`*self = other.clone()`) and appends clones of the rest. -/
def vecCloneFrom (n : Nat) (xs src : List LVal) : List LVal × OpResult :=
  ((LVal.clones n src).2,
    ⟨[], (xs.drop src.length ++ xs.take src.length).map fun x => .value x.node, [], (LVal.clones n src).1⟩)

/-- The elements with the given indices. Through `src/json/array.rs:44-48`. -/
def pick {α : Type} (xs : List α) (is : List Nat) : List α := is.filterMap fun i => xs[i]?

/-- The entries with a given fate. Through `src/json/object.rs:50-54`. -/
def entriesOf {α : Type} (f : EntryFate) (fates : List EntryFate) (ms : List α) : List α :=
  ((fates.zip ms).filter fun p => p.1 == f).map Prod.snd

/-- An operation on a `&mut Value`, with the argument `arg` if it takes one, `src` what a borrowed argument refers to, `n` the next label. `src/json/array.rs:36-98`, `src/json/object.rs:42-92`. -/
def Edit.run (e : Edit) (arg : Option LVal) (src : Option LVal) (n : Nat) (place : LVal) : Option (LVal × OpResult) :=
  match e, arg, place with
  | .assign, some a, old => some (a, ⟨[], [.value old.node], [], n⟩)
  | .replace, some a, old => some (a, ⟨[old], [], [], n⟩)
  | .take, none, old => some (.scalar n .null, ⟨[old], [], [], n + 1⟩)
  -- `src/json/array.rs:36-48` `Deref`, `DerefMut`
  | .push, some a, .array i xs => some (.array i (xs ++ [a]), ⟨[], [], [], n⟩)
  | .pop, none, .array i xs =>
    match xs.reverse with
    | [] => some (.array i [], ⟨[], [], [], n⟩)
    | x :: ys => some (.array i ys.reverse, ⟨[x], [], [], n⟩)
  | .insert j, some a, .array i xs => if j ≤ xs.length then some (.array i (xs.take j ++ a :: xs.drop j), ⟨[], [], [], n⟩) else none
  | .remove j, none, .array i xs => xs[j]?.map fun x => (.array i (xs.eraseIdx j), ⟨[x], [], [], n⟩)
  | .truncate k, none, .array i xs => some (.array i (xs.take k), ⟨[], (xs.drop k).map fun x => .value x.node, [], n⟩)
  | .clear, none, .array i xs => some (.array i [], ⟨[], xs.map fun x => .value x.node, [], n⟩)
  | .cloneFrom _ _, none, .array i xs =>
    match src with
    | some (.array _ ys) => some (.array i (vecCloneFrom n xs ys).1, (vecCloneFrom n xs ys).2)
    | _ => none
  -- `src/json/object.rs:42-54` `Deref`, `DerefMut`; a key that is already there stays, the key passed in is dropped
  | .insertKey k, some a, .object i ms =>
    match entryFind k ms with
    | some (j, l, old) => some (.object i (ms.set j (k, l, a)), ⟨[old], [], [n], n + 1⟩)
    | none => some (.object i (btreeInsert bytesLt k (n, a) ms), ⟨[], [], [], n + 1⟩)
  | .removeKey k, none, .object i ms =>
    match entryRemove k ms with
    | some ((l, x), ms') => some (.object i ms', ⟨[x], [], [l], n⟩)
    | none => some (.object i ms, ⟨[], [], [], n⟩)
  -- `BTreeMap::clear` drops the map and starts a new one
  | .clear, none, .object i ms => some (.object n [], ⟨[], [.mapIter i (LVal.nodeEntries ms)], [], n + 1⟩)
  | .rearrange kept ret gone, none, .array i xs =>
    if (kept ++ ret ++ gone).isPerm (List.range xs.length) then
      some (.array i (pick xs kept), ⟨pick xs ret, (pick xs gone).map fun x => .value x.node, [], n⟩)
    else none
  | .select fates, none, .object i ms =>
    if fates.length = ms.length then
      some (.object i (entriesOf .keep fates ms),
        ⟨(entriesOf .give fates ms).map fun m => m.2.2, (entriesOf .gone fates ms).map fun m => .value m.2.2.node,
          (entriesOf .give fates ms ++ entriesOf .gone fates ms).map fun m => m.2.1, n⟩)
    else none
  | _, _, _ => none

/-- Following an access path. `src/json/array.rs:36-42`, `src/json/object.rs:42-48`. -/
def LVal.get : List Loc → LVal → Option LVal
  | [], v => some v
  | .idx i :: p, .array _ xs => xs[i]?.bind (LVal.get p)
  | .key k :: p, .object _ ms => (entryFind k ms).bind fun r => LVal.get p r.2.2
  | _, _ => none

/-- The value behind the shared reference an operation takes. `src/json/array.rs:56-59`. -/
def Edit.source (vars : List LVal) : Edit → Option LVal
  | .cloneFrom y q => vars[y]?.bind (LVal.get q)
  | _ => none

/-- Changing a value through an access path. `src/json/array.rs:44-48`, `src/json/object.rs:50-54`. -/
def LVal.modify (f : LVal → Option (LVal × OpResult)) : List Loc → LVal → Option (LVal × OpResult)
  | [], v => f v
  | .idx i :: p, .array id xs =>
    match xs[i]? with
    | some x => (LVal.modify f p x).map fun r => (.array id (xs.set i r.1), r.2)
    | none => none
  | .key k :: p, .object id ms =>
    match entryFind k ms with
    | some (j, l, x) => (LVal.modify f p x).map fun r => (.object id (ms.set j (k, l, r.1)), r.2)
    | none => none
  | _, _ => none

/-- `src/json/array.rs:25-28` `take`: the elements, and the destructor calls made by the function: none, because of `ManuallyDrop`. -/
def takeArray (i : Nat) (xs : List LVal) : (Nat × List LVal) × List DFrame := ((i, xs), [])

/-- `src/json/object.rs:29-32` `take`. -/
def takeObject (i : Nat) (ms : List (Bytes × Nat × LVal)) : (Nat × List (Bytes × Nat × LVal)) × List DFrame := ((i, ms), [])

/-- `BTreeMap::from_iter` on pairs, from label `n` on for the keys: of equal keys the last entry stays, the others are dropped.  (std sorts the pairs and
drops neighbours.). `src/json/object.rs:83-92`. -/
def fromPairs (n : Nat) : List (Bytes × LVal) → List (Bytes × Nat × LVal) → Nat × List (Bytes × Nat × LVal) × List DFrame × List Nat
  | [], ms => (n, ms, [], [])
  | (k, v) :: kvs, ms =>
    match entryFind k ms with
    | some (j, l, old) =>
      let r := fromPairs (n + 1) kvs (ms.set j (k, n, v))
      (r.1, r.2.1, .value old.node :: r.2.2.1, l :: r.2.2.2)
    | none => fromPairs (n + 1) kvs (btreeInsert bytesLt k (n, v) ms)

/-- The operations of a program. `src/json/value.rs:39-44`, `src/json/array.rs:30-98`, `src/json/object.rs:34-92`, `src/json/de.rs:30-37`. -/
inductive ApiOp where
  /-- `Value::Null`, `Value::Bool(b)`, ... -/
  | scalar (s : Scalar)
  /-- `Value::Array(Array::new())`, `Array::default()` -/
  | array
  /-- `Value::Object(Object::new())`, `Object::default()` -/
  | object
  /-- `json::from_str::<Value>(s)` that succeeds; nothing happens if it fails -/
  | parse (s : Bytes)
  /-- `x.clone()` for the value at the end of a path -/
  | clone (x : Nat) (path : List Loc)
  /-- `drop(x)` -/
  | drop (x : Nat)
  /-- make `x` the newest variable -/
  | move (x : Nat)
  /-- collect the `n` newest variables, newest first, into an `Array` -/
  | collect (n : Nat)
  /-- collect the newest variables under the given keys into an `Object` -/
  | collectPairs (ks : List Bytes)
  /-- move the first `n` elements out of the newest variable (an array or object) with `into_iter`, drop the iterator -/
  | intoIter (n : Nat)
  /-- an operation on the value at the end of a path -/
  | edit (x : Nat) (path : List Loc) (e : Edit)

/-- The variables, newest first, the next label, the labels freed. A user of `src/json/value.rs:30-37`. -/
structure Prog where
  vars : List LVal
  next : Nat
  freed : List Nat

/-- `src/json/array.rs:62-69`, `src/json/object.rs:56-63` `into_iter` and `next` called `n` times: the values handed out, the destructor calls. -/
def LVal.intoIter (n : Nat) : LVal → Option (List LVal × List DFrame × List Nat)
  | .array i xs =>
    let r := takeArray i xs
    some (r.1.2.take n, r.2 ++ [.vecIter r.1.1 (LVal.nodes (r.1.2.drop n))], [])
  | .object i ms =>
    let r := takeObject i ms
    -- the keys handed out are dropped by the program
    some ((r.1.2.take n).map fun m => m.2.2, r.2 ++ [.mapIter r.1.1 (LVal.nodeEntries (r.1.2.drop n))], (r.1.2.take n).map fun m => m.2.1)
  | .scalar .. => none

/-- One operation: the new variables and what has to be dropped; `none` if it panics.  `read` is `json::from_str::<Value>`. `src/json/value.rs:29-44`, `src/json/array.rs:30-98`, `src/json/object.rs:34-92`, `src/json/de.rs:30-37`. -/
def ApiOp.exec (read : Bytes → Option Val) (m : Prog) : ApiOp → Option (List LVal × OpResult)
  | .scalar s => some (.scalar m.next s :: m.vars, ⟨[], [], [], m.next + 1⟩)
  | .array => some (.array m.next [] :: m.vars, ⟨[], [], [], m.next + 1⟩)
  | .object => some (.object m.next [] :: m.vars, ⟨[], [], [], m.next + 1⟩)
  | .parse s =>
    match read s with
    | some v => some ((LVal.fresh m.next v).2 :: m.vars, ⟨[], [], [], (LVal.fresh m.next v).1⟩)
    | none => some (m.vars, ⟨[], [], [], m.next⟩)
  | .clone x p =>
    match m.vars[x]?.bind (LVal.get p) with
    | some v => some ((v.clone m.next).2 :: m.vars, ⟨[], [], [], (v.clone m.next).1⟩)
    | none => none
  | .drop x =>
    match m.vars[x]? with
    | some v => some (m.vars.eraseIdx x, ⟨[], [.value v.node], [], m.next⟩)
    | none => none
  | .move x =>
    match m.vars[x]? with
    | some v => some (v :: m.vars.eraseIdx x, ⟨[], [], [], m.next⟩)
    | none => none
  -- `src/json/array.rs:89-98` `FromIterator`
  | .collect n => if n ≤ m.vars.length then some (.array m.next (m.vars.take n) :: m.vars.drop n, ⟨[], [], [], m.next + 1⟩) else none
  -- `src/json/object.rs:83-92` `FromIterator`
  | .collectPairs ks =>
    if ks.length ≤ m.vars.length then
      let r := fromPairs (m.next + 1) (ks.zip (m.vars.take ks.length)) []
      some (.object m.next r.2.1 :: m.vars.drop ks.length, ⟨[], r.2.2.1, r.2.2.2, r.1⟩)
    else none
  | .intoIter n =>
    match m.vars with
    | v :: vars => (v.intoIter n).map fun r => (r.1 ++ vars, ⟨[], r.2.1, r.2.2, m.next⟩)
    | [] => none
  | .edit x p e =>
    match e.takesArg, m.vars with
    | true, a :: vars =>
      vars[x]?.bind fun v => (v.modify (e.run (some a) (e.source m.vars) m.next) p).map fun r => (r.2.ret ++ vars.set x r.1, r.2)
    | false, vars =>
      vars[x]?.bind fun v => (v.modify (e.run none (e.source m.vars) m.next) p).map fun r => (r.2.ret ++ vars.set x r.1, r.2)
    | true, [] => none

/-- The destructor calls `fs`, one after the other, free `log`. `src/json/array.rs:19-23`, `src/json/object.rs:21-27`, `src/json/drop.rs:4-27`. -/
inductive DropAll : List DFrame → List Nat → Prop
  | nil : DropAll [] []
  | cons {f : DFrame} {fs : List DFrame} {n : Nat} {log log' : List Nat} (h : DState.run n ⟨[f], []⟩ = ⟨[], log⟩) (hs : DropAll fs log') :
      DropAll (f :: fs) (log ++ log')

/-- A step of the program. A user of `src/json/value.rs:30-37`. -/
inductive ApiStep (read : Bytes → Option Val) : Prog → ApiOp → Prog → Prop
  | ok {m : Prog} {op : ApiOp} {vars : List LVal} {o : OpResult} {log : List Nat} (h : op.exec read m = some (vars, o)) (hd : DropAll o.dead log) :
      ApiStep read m op ⟨vars, o.next, m.freed ++ log ++ o.freed⟩
  /-- a panic drops all variables -/
  | panic {m : Prog} {op : ApiOp} {log : List Nat} (h : op.exec read m = none) (hd : DropAll (m.vars.map fun v => .value v.node) log) :
      ApiStep read m op ⟨[], m.next, m.freed ++ log⟩

/-- A program run. A user of `src/json/value.rs:30-37`. -/
inductive ApiRun (read : Bytes → Option Val) : Prog → List ApiOp → Prog → Prop
  | nil (m : Prog) : ApiRun read m [] m
  | cons {m m' m'' : Prog} {op : ApiOp} {ops : List ApiOp} (h : ApiStep read m op m') (hs : ApiRun read m' ops m'') : ApiRun read m (op :: ops) m''

/-- Nothing allocated yet. A user of `src/json/value.rs:30-37`. -/
def Prog.start : Prog := ⟨[], 0, []⟩

end Miniserde
