import Verif.Proof.Token
import Verif.Spec.Traversal

/-!
# Partial parse trees

Any input, also a malformed one, determines a *partial* tree: the part of the tree that the driver traverses before
it stops.  `PVal d t o` says that reading one value at `d` gives the partial tree `t` and ends at `o` (`none`: reading stopped
inside the value).
-/

namespace Miniserde

/-- How the list of children of a container ends: closing bracket read, or reading stopped. -/
inductive End where
  | closed
  | stop (panic : Bool)
  deriving DecidableEq, Repr

/-- Partial parse trees. -/
inductive PT where
  | leaf (ev : Event)
  | bad (panic : Bool)
  | seq (xs : List PT) (e : End)
  | map (ms : List (Bytes × PT)) (e : End)
  deriving Repr

/-- A failure. -/
def failure (panic : Bool) : Res α := if panic then .panic else .err

/-- `visitEvent` yields no layer: the event is a scalar. -/
def Event.isLeaf : Event → Bool
  | .seqStart => false
  | .mapStart => false
  | _ => true

section
variable {σ : Type} (P : Proto σ)

/-- The leaf call of a scalar event. -/
def leafCall (v : P.V) (ev : Event) (w : σ) : Res Unit × σ :=
  match ev with
  | .null => P.null v w
  | .bool b => P.boolean v b w
  | .negative n => P.negative v n w
  | .nonnegative n => P.nonnegative v n w
  | .float n => P.float v n w
  | .str s => P.string v s w
  | _ => (.panic, w)

mutual

/-- Traversal of a partial tree. -/
def drivePT (v : P.V) : PT → σ → Res Unit × σ
  | .leaf ev, w => leafCall P v ev w
  | .bad p, w => (failure p, w)
  | .seq xs e, w =>
    match P.seq v w with
    | (.ok q, w) => ((driveElemsPT q xs e w).1, P.dropSeq q (driveElemsPT q xs e w).2)
    | (.err, w) => (.err, w)
    | (.panic, w) => (.panic, w)
  | .map ms e, w =>
    match P.map v w with
    | (.ok m, w) => ((driveMembersPT m ms e w).1, P.dropMap m (driveMembersPT m ms e w).2)
    | (.err, w) => (.err, w)
    | (.panic, w) => (.panic, w)

def driveElemsPT (q : P.Q) : List PT → End → σ → Res Unit × σ
  | [], .closed, w => P.seqFinish q w
  | [], .stop p, w => (failure p, w)
  | x :: xs, e, w =>
    match P.element q w with
    | (.ok v, w) =>
      match drivePT v x w with
      | (.ok _, w) => driveElemsPT q xs e w
      | (.err, w) => (.err, w)
      | (.panic, w) => (.panic, w)
    | (.err, w) => (.err, w)
    | (.panic, w) => (.panic, w)

def driveMembersPT (m : P.M) : List (Bytes × PT) → End → σ → Res Unit × σ
  | [], .closed, w => P.mapFinish m w
  | [], .stop p, w => (failure p, w)
  | (k, x) :: ms, e, w =>
    match P.key m k w with
    | (.ok v, w) =>
      match drivePT v x w with
      | (.ok _, w) => driveMembersPT m ms e w
      | (.err, w) => (.err, w)
      | (.panic, w) => (.panic, w)
    | (.err, w) => (.err, w)
    | (.panic, w) => (.panic, w)

end
end

/-- The decision at a separator position: close, or a child follows at the given state, or stop. -/
inductive Sep where
  | close (d : De)
  | child (d : De)
  | stop

/-- Separator position inside a container closed by `close` (`wrong` is the other closing bracket). -/
def sepStep (close : UInt8) (ac : Bool) (d : De) : Sep :=
  let p := d.parseWhitespace
  let c := p.1.getD 0
  if c = b(',') ∧ ac = true then .child p.2.bump
  else if c = b(']') ∨ c = b('}') then if c = close then .close p.2.bump else .stop
  else if ac then .stop
  else .child p.2

/-- Reading `"key"` and the colon. -/
inductive KeyStep where
  | key (k : Bytes) (d : De)
  /-- the key was read but no colon follows -/
  | noColon (k : Bytes)
  | stop (panic : Bool)

/-- `src/json/de.rs:163-175` without the call of `Map::key`. -/
def keyStep (d : De) : KeyStep :=
  let p := d.parseWhitespace
  if p.1 = some b('"') then
    match p.2.bump.parseStr with
    | .ok (k, d) =>
      let p := d.parseWhitespace
      if p.1 = some b(':') then .key k p.2.bump else .noColon k
    | .err => .stop false
    | .panic => .stop true
  else .stop false

mutual

/-- Reading one value. -/
inductive PVal : De → PT → Option De → Prop
  | err {d} (h : d.event = .err) : PVal d (.bad false) none
  | panic {d} (h : d.event = .panic) : PVal d (.bad true) none
  | leaf {d ev d'} (h : d.event = .ok (ev, d')) (hl : ev.isLeaf = true) : PVal d (.leaf ev) (some d')
  | seq {d d1 xs e o} (h : d.event = .ok (.seqStart, d1)) (hs : PElems false d1 xs e o) : PVal d (.seq xs e) o
  | map {d d1 ms e o} (h : d.event = .ok (.mapStart, d1)) (hs : PMembers false d1 ms e o) : PVal d (.map ms e) o

/-- Reading the rest of an array; `ac`: a child has just been read, so a comma is acceptable. -/
inductive PElems : Bool → De → List PT → End → Option De → Prop
  | close {ac d d'} (h : sepStep b(']') ac d = .close d') : PElems ac d [] .closed (some d')
  | stop {ac d} (h : sepStep b(']') ac d = .stop) : PElems ac d [] (.stop false) none
  | child {ac d d1 x d2 xs e o} (h : sepStep b(']') ac d = .child d1) (hx : PVal d1 x (some d2))
      (hs : PElems true d2 xs e o) : PElems ac d (x :: xs) e o
  | last {ac d d1 x} (h : sepStep b(']') ac d = .child d1) (hx : PVal d1 x none) :
      PElems ac d [x] (.stop false) none

/-- Reading the rest of an object. -/
inductive PMembers : Bool → De → List (Bytes × PT) → End → Option De → Prop
  | close {ac d d'} (h : sepStep b('}') ac d = .close d') : PMembers ac d [] .closed (some d')
  | stop {ac d} (h : sepStep b('}') ac d = .stop) : PMembers ac d [] (.stop false) none
  | keyStop {ac d d1 p} (h : sepStep b('}') ac d = .child d1) (hk : keyStep d1 = .stop p) :
      PMembers ac d [] (.stop p) none
  | noColon {ac d d1 k} (h : sepStep b('}') ac d = .child d1) (hk : keyStep d1 = .noColon k) :
      PMembers ac d [(k, .bad false)] (.stop false) none
  | child {ac d d1 k d2 x d3 ms e o} (h : sepStep b('}') ac d = .child d1) (hk : keyStep d1 = .key k d2)
      (hx : PVal d2 x (some d3)) (hs : PMembers true d3 ms e o) : PMembers ac d ((k, x) :: ms) e o
  | last {ac d d1 k d2 x} (h : sepStep b('}') ac d = .child d1) (hk : keyStep d1 = .key k d2)
      (hx : PVal d2 x none) : PMembers ac d [(k, x)] (.stop false) none

end

end Miniserde
