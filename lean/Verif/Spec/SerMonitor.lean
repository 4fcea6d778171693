import Verif.Model.Ser
import Verif.Spec.Monitor

/-!
# The borrow monitor for serialization

`P.monitored` wraps an arbitrary implementation of `Serialize`, `ser::Seq`, `ser::Map`.  Values handed out (`&dyn Serialize`) play the role of
`Live.visitor`, boxed streams that of `Live.builder`: only the innermost live value may be begun; only the innermost live stream may be
advanced or dropped, which ends the value it handed out last.
-/

namespace Miniserde
section
variable {σ : Type} (P : SProto σ)

/-- Tag the streams in a fragment. -/
def Frag.tag {Q M : Type} (id : Nat) : Frag Q M → Frag (Q × Nat) (M × Nat)
  | .null => .null
  | .bool b => .bool b
  | .str s => .str s
  | .u64 n => .u64 n
  | .i64 z => .i64 z
  | .f64 x => .f64 x
  | .seq q => .seq (q, id)
  | .map m => .map (m, id)

/-- A fragment that contains a stream makes it alive. -/
def Frag.enter {Q M : Type} (parent : Nat) : Frag Q M → Mon → Mon
  | .seq _, m => m.push .newBuilder parent
  | .map _, m => m.push .newBuilder parent
  | _, m => m

/-- The monitored implementation. -/
def SProto.monitored : SProto (σ × Mon) where
  S := P.S × Nat
  Q := P.Q × Nat
  M := P.M × Nat
  begin s w :=
    ((P.begin s.1 w.1).1.map (Frag.tag (w.2.useVisitor s.2).next),
      ((P.begin s.1 w.1).2,
        match (P.begin s.1 w.1).1 with
        | some f => f.enter s.2 (w.2.useVisitor s.2)
        | none => w.2.useVisitor s.2))
  seqNext q w :=
    ((P.seqNext q.1 w.1).1.map (Option.map fun s => (s, (w.2.useBuilder q.2).next)),
      ((P.seqNext q.1 w.1).2,
        match (P.seqNext q.1 w.1).1 with
        | some (some _) => (w.2.useBuilder q.2).push .newVisitor q.2
        | _ => w.2.useBuilder q.2))
  mapNext q w :=
    ((P.mapNext q.1 w.1).1.map (Option.map fun s => (s.1, s.2, (w.2.useBuilder q.2).next)),
      ((P.mapNext q.1 w.1).2,
        match (P.mapNext q.1 w.1).1 with
        | some (some _) => (w.2.useBuilder q.2).push .newVisitor q.2
        | _ => w.2.useBuilder q.2))
  dropSeq q w := (P.dropSeq q.1 w.1, w.2.dropBuilder q.2)
  dropMap m w := (P.dropMap m.1 w.1, w.2.dropBuilder m.2)

/-- Record that a box is moved. -/
def SProto.moved : SLayer P.monitored → σ × Mon → σ × Mon
  | .seq q, w => (w.1, w.2.add (.moveBuilder q.2))
  | .map m, w => (w.1, w.2.add (.moveBuilder m.2))

/-- Forget the tags of a monitored run. -/
def SLayer.untag : SLayer P.monitored → SLayer P
  | .seq q => .seq q.1
  | .map m => .map m.1

/-- Forget the tags. -/
def Frag.untag {Q M : Type} : Frag (Q × Nat) (M × Nat) → Frag Q M
  | .null => .null
  | .bool b => .bool b
  | .str s => .str s
  | .u64 n => .u64 n
  | .i64 z => .i64 z
  | .f64 x => .f64 x
  | .seq q => .seq q.1
  | .map m => .map m.1

/-- Forget the tags and the monitor. -/
def SExit.untag : SExit P.monitored → SExit P
  | .running st => .running ⟨st.out, st.stack.map (SLayer.untag P), Frag.untag st.frag, st.w.1⟩
  | .finished o w => .finished o w.1

/-- The monitor of a run, running or finished. -/
def SExit.mon {P : SProto σ} : SExit P.monitored → Mon
  | .running st => st.w.2
  | .finished _ w => w.2

end
end Miniserde
