import Verif.Model.Ser
import Verif.Spec.Json
import Verif.Spec.Utf8

/-!
# What serialization is supposed to produce

`Streams P s w t w'`: the value `s` of an arbitrary `Serialize` implementation, in state `w`, streams the finite tree of fragments `t` and leaves
the state `w'`.  `compact j` is the whitespace-free text of a JSON tree.
-/

namespace Miniserde

/-- A finite tree of fragments. -/
inductive FTree where
  | null
  | bool (b : Bool)
  | str (s : Bytes)
  | u64 (n : Nat)
  | i64 (z : Int)
  | f64 (x : F64)
  | seq (ts : List FTree)
  | map (ms : List (Bytes × FTree))
  deriving Repr

/-- The leaf fragments. -/
inductive LeafFrag {Q M : Type} : Frag Q M → FTree → Prop
  | null : LeafFrag .null .null
  | bool (b : Bool) : LeafFrag (.bool b) (.bool b)
  | str (s : Bytes) : LeafFrag (.str s) (.str s)
  | u64 (n : Nat) : LeafFrag (.u64 n) (.u64 n)
  | i64 (z : Int) : LeafFrag (.i64 z) (.i64 z)
  | f64 (x : F64) : LeafFrag (.f64 x) (.f64 x)

section
variable {σ : Type} (P : SProto σ)

mutual

/-- The value `s` streams the tree `t`: `begin` yields a leaf, or a stream that is exhausted and then dropped. -/
inductive Streams : P.S → σ → FTree → σ → Prop
  | leaf {s w f t w'} (h : P.begin s w = (some f, w')) (hl : LeafFrag f t) : Streams s w t w'
  | seq {s w q w₁ ts w₂} (h : P.begin s w = (some (.seq q), w₁)) (hs : StreamsSeq q w₁ ts w₂) :
      Streams s w (.seq ts) (P.dropSeq q w₂)
  | map {s w m w₁ ms w₂} (h : P.begin s w = (some (.map m), w₁)) (hs : StreamsMap m w₁ ms w₂) :
      Streams s w (.map ms) (P.dropMap m w₂)

/-- The stream `q` yields exactly the elements `ts`, each of which is streamed before the next one is asked for. -/
inductive StreamsSeq : P.Q → σ → List FTree → σ → Prop
  | nil {q w w'} (h : P.seqNext q w = (some none, w')) : StreamsSeq q w [] w'
  | cons {q w s w₁ t w₂ ts w₃} (h : P.seqNext q w = (some (some s), w₁)) (ht : Streams s w₁ t w₂)
      (hs : StreamsSeq q w₂ ts w₃) : StreamsSeq q w (t :: ts) w₃

/-- The stream `m` yields exactly the entries `ms`. -/
inductive StreamsMap : P.M → σ → List (Bytes × FTree) → σ → Prop
  | nil {m w w'} (h : P.mapNext m w = (some none, w')) : StreamsMap m w [] w'
  | cons {m w k s w₁ t w₂ ts w₃} (h : P.mapNext m w = (some (some (k, s)), w₁)) (ht : Streams s w₁ t w₂)
      (hs : StreamsMap m w₂ ts w₃) : StreamsMap m w ((k, t) :: ts) w₃

end
end

/-- `to_string` of the value `s`, called in state `w`, returns the text `o` and leaves the state `w'`. -/
def Prints {σ : Type} (P : SProto σ) (ryu : F64 → Bytes) (s : P.S) (w : σ) (o : Bytes) (w' : σ) : Prop :=
  ∃ n, toStringN P ryu n s w = .finished (some o) w'

/-- The strings an implementation hands out are Rust strings: well-formed UTF-8. -/
structure SProto.Utf8 {σ : Type} (P : SProto σ) : Prop where
  str : ∀ s w x w', P.begin s w = (some (.str x), w') → ValidUtf8 x
  key : ∀ m w k s w', P.mapNext m w = (some (some (k, s)), w') → ValidUtf8 k

/-- No method of the implementation panics. -/
structure SProto.NoPanic {σ : Type} (P : SProto σ) : Prop where
  begin : ∀ s w, (P.begin s w).1 ≠ none
  seqNext : ∀ q w, (P.seqNext q w).1 ≠ none
  mapNext : ∀ m w, (P.mapNext m w).1 ≠ none

/-- What `ryu` guarantees about syntax: a finite number is written as a JSON number literal, with a fraction or an exponent. -/
structure RyuSyntax (ryu : F64 → Bytes) (lit : F64 → NumLit) : Prop where
  wf : ∀ x : F64, x.isFinite = true → (lit x).WF
  text : ∀ x : F64, x.isFinite = true → ryu x = (lit x).text
  notInt : ∀ x : F64, x.isFinite = true → (lit x).frac ≠ none ∨ (lit x).exp ≠ none

mutual

/-- The JSON tree of a fragment tree: integers in decimal, finite floats as literals, other floats as `null`. -/
def FTree.json (lit : F64 → NumLit) : FTree → Json
  | .null => .null
  | .bool b => .bool b
  | .str s => .str s
  | .u64 n => .num ⟨false, decimal n, none, none⟩
  | .i64 z => .num ⟨decide (z < 0), decimal z.natAbs, none, none⟩
  | .f64 x => if x.isFinite then .num (lit x) else .null
  | .seq ts => .arr (FTree.jsons lit ts)
  | .map ms => .obj (FTree.jsonMembers lit ms)

def FTree.jsons (lit : F64 → NumLit) : List FTree → List Json
  | [] => []
  | t :: ts => t.json lit :: FTree.jsons lit ts

def FTree.jsonMembers (lit : F64 → NumLit) : List (Bytes × FTree) → List (Bytes × Json)
  | [] => []
  | (k, t) :: ms => (k, t.json lit) :: FTree.jsonMembers lit ms

end

mutual

/-- All strings in the tree, keys included, satisfy `p`. -/
def FTree.AllStr (p : Bytes → Prop) : FTree → Prop
  | .str s => p s
  | .seq ts => FTree.AllStrs p ts
  | .map ms => FTree.AllStrMembers p ms
  | _ => True

def FTree.AllStrs (p : Bytes → Prop) : List FTree → Prop
  | [] => True
  | t :: ts => t.AllStr p ∧ FTree.AllStrs p ts

def FTree.AllStrMembers (p : Bytes → Prop) : List (Bytes × FTree) → Prop
  | [] => True
  | (k, t) :: ms => p k ∧ t.AllStr p ∧ FTree.AllStrMembers p ms

end

mutual

/-- Number of nodes. -/
def FTree.nodes : FTree → Nat
  | .seq ts => FTree.nodesL ts + 1
  | .map ms => FTree.nodesM ms + 1
  | _ => 1

def FTree.nodesL : List FTree → Nat
  | [] => 0
  | t :: ts => t.nodes + FTree.nodesL ts

def FTree.nodesM : List (Bytes × FTree) → Nat
  | [] => 0
  | (_, t) :: ms => t.nodes + FTree.nodesM ms

end

/-- A hexadecimal digit, lower case. -/
def hexLower (n : Nat) : UInt8 := if n < 10 then UInt8.ofNat (0x30 + n) else UInt8.ofNat (0x61 + (n - 10))

/-- How one byte of a string is written: the quote, the backslash and control characters are escaped, everything else is
written as it is. -/
def escapedByte (c : UInt8) : Bytes :=
  if c = 0x22 then [0x5C, 0x22]
  else if c = 0x5C then [0x5C, 0x5C]
  else if c = 0x08 then [0x5C, 0x62]
  else if c = 0x09 then [0x5C, 0x74]
  else if c = 0x0A then [0x5C, 0x6E]
  else if c = 0x0C then [0x5C, 0x66]
  else if c = 0x0D then [0x5C, 0x72]
  else if c < 0x20 then [0x5C, 0x75, 0x30, 0x30, hexLower (c.toNat / 16), hexLower (c.toNat % 16)]
  else [c]

/-- A string literal. -/
def quoted (s : Bytes) : Bytes := 0x22 :: (s.flatMap escapedByte ++ [0x22])

mutual

/-- The whitespace-free text of a JSON tree. -/
def compact : Json → Bytes
  | .null => str! "null"
  | .bool true => str! "true"
  | .bool false => str! "false"
  | .num l => l.text
  | .str s => quoted s
  | .arr xs => 0x5B :: (compactElems xs ++ [0x5D])
  | .obj ms => 0x7B :: (compactMembers ms ++ [0x7D])

/-- Elements separated by commas. -/
def compactElems : List Json → Bytes
  | [] => []
  | [x] => compact x
  | x :: xs => compact x ++ 0x2C :: compactElems xs

/-- Members separated by commas. -/
def compactMembers : List (Bytes × Json) → Bytes
  | [] => []
  | [(k, x)] => quoted k ++ 0x3A :: compact x
  | (k, x) :: ms => quoted k ++ 0x3A :: (compact x ++ 0x2C :: compactMembers ms)

end

/-- Where a scan of a text is: outside string literals, inside one, inside one right after a backslash. -/
inductive Scan where
  | outside | inside | escape

/-- What is left of a text when its string literals are deleted. -/
def outsideStrings : Scan → Bytes → Bytes
  | _, [] => []
  | .outside, c :: r => if c = 0x22 then outsideStrings .inside r else c :: outsideStrings .outside r
  | .inside, c :: r =>
    if c = 0x22 then outsideStrings .outside r
    else if c = 0x5C then outsideStrings .escape r
    else outsideStrings .inside r
  | .escape, _ :: r => outsideStrings .inside r

end Miniserde
