import Verif.Model.SerGeneric
import Verif.Spec.Compose

/-!
# The texts of library containers, in terms of `to_string` of their parts
-/

namespace Miniserde
variable {σ : Type} (W : UserSer σ) (ryu : F64 → Bytes)

/-- `to_string` of the value `r`, called in the user's state `w`, ends with the text `x` (`none`: with a panic) and leaves the state `w'`. -/
def ToStr (r : SRef W.U W.K) (w : σ) (x : Option Bytes) (w' : σ) : Prop :=
  ∃ h n h', toStringN W.proto ryu n r (w, h) = .finished x (w', h')

/-- `to_string` of the values, one after the other, up to the first panic. -/
inductive ToStrs : List (SRef W.U W.K) → σ → Option (List Bytes) → σ → Prop
  | nil (w : σ) : ToStrs [] w (some []) w
  | cons {r rs w o w₁ y w₂} (h : ToStr W ryu r w (some o) w₁) (hs : ToStrs rs w₁ y w₂) : ToStrs (r :: rs) w (y.map (o :: ·)) w₂
  | panic {r rs w w₁} (h : ToStr W ryu r w none w₁) : ToStrs (r :: rs) w none w₁

/-- `to_string` of keys and values in turn, up to the first panic. -/
inductive ToStrEntries : List (W.K × SRef W.U W.K) → σ → Option (List (Bytes × Bytes)) → σ → Prop
  | nil (w : σ) : ToStrEntries [] w (some []) w
  | badKey {k r ms w w₁} (h : W.toStr k w = (none, w₁)) : ToStrEntries ((k, r) :: ms) w none w₁
  | cons {k r ms w key w₁ o w₂ y w₃} (h : W.toStr k w = (some key, w₁)) (hr : ToStr W ryu r w₁ (some o) w₂) (hs : ToStrEntries ms w₂ y w₃) :
      ToStrEntries ((k, r) :: ms) w (y.map ((key, o) :: ·)) w₃
  | panic {k r ms w key w₁ w₂} (h : W.toStr k w = (some key, w₁)) (hr : ToStr W ryu r w₁ none w₂) : ToStrEntries ((k, r) :: ms) w none w₂

/-- The same for the fields of a struct, whose names are fixed. -/
inductive ToStrFields : List (Bytes × SRef W.U W.K) → σ → Option (List (Bytes × Bytes)) → σ → Prop
  | nil (w : σ) : ToStrFields [] w (some []) w
  | cons {name r fs w o w₁ y w₂} (hr : ToStr W ryu r w (some o) w₁) (hs : ToStrFields fs w₁ y w₂) :
      ToStrFields ((name, r) :: fs) w (y.map ((name, o) :: ·)) w₂
  | panic {name r fs w w₁} (hr : ToStr W ryu r w none w₁) : ToStrFields ((name, r) :: fs) w none w₁

/-- A user-defined `Seq`: each item is written as `to_string` writes it before the next is asked for; the stream is dropped at its end and when something panics. -/
inductive ToStrStream (q : W.Q) : σ → Option (List Bytes) → σ → Prop
  | done {w w₁} (h : W.seqNext q w = (some none, w₁)) : ToStrStream q w (some []) (W.dropSeq q w₁)
  | fails {w w₁} (h : W.seqNext q w = (none, w₁)) : ToStrStream q w none (W.dropSeq q w₁)
  | cons {w r w₁ o w₂ y w₃} (h : W.seqNext q w = (some (some r), w₁)) (hr : ToStr W ryu r w₁ (some o) w₂) (hs : ToStrStream q w₂ y w₃) :
      ToStrStream q w (y.map (o :: ·)) w₃
  | panic {w r w₁ w₂} (h : W.seqNext q w = (some (some r), w₁)) (hr : ToStr W ryu r w₁ none w₂) : ToStrStream q w none (W.dropSeq q w₂)

/-- The same for a user-defined `Map`. -/
inductive ToStrMapStream (m : W.M) : σ → Option (List (Bytes × Bytes)) → σ → Prop
  | done {w w₁} (h : W.mapNext m w = (some none, w₁)) : ToStrMapStream m w (some []) (W.dropMap m w₁)
  | fails {w w₁} (h : W.mapNext m w = (none, w₁)) : ToStrMapStream m w none (W.dropMap m w₁)
  | cons {w key r w₁ o w₂ y w₃} (h : W.mapNext m w = (some (some (key, r)), w₁)) (hr : ToStr W ryu r w₁ (some o) w₂) (hs : ToStrMapStream m w₂ y w₃) :
      ToStrMapStream m w (y.map ((key, o) :: ·)) w₃
  | panic {w key r w₁ w₂} (h : W.mapNext m w = (some (some (key, r)), w₁)) (hr : ToStr W ryu r w₁ none w₂) : ToStrMapStream m w none (W.dropMap m w₂)

/-- The text of a fragment without a stream. -/
inductive ScalarText {Q M : Type} : Frag Q M → Bytes → Prop
  | null : ScalarText .null (str! "null")
  | true : ScalarText (.bool true) (str! "true")
  | false : ScalarText (.bool false) (str! "false")
  | str {s : Bytes} (h : ValidUtf8 s) : ScalarText (.str s) (quoted s)
  | u64 (n : Nat) : ScalarText (.u64 n) (decimal n)
  | i64 (z : Int) : ScalarText (.i64 z) (decimalInt z)
  | f64 {x : F64} (h : x.isFinite = Bool.true) : ScalarText (.f64 x) (ryu x)
  | nan {x : F64} (h : x.isFinite = Bool.false) : ScalarText (.f64 x) (str! "null")

/-- The keys a user-defined `Map` hands out are Rust strings. -/
def UserSer.MapUtf8 : Prop := ∀ m w key r w', W.mapNext m w = (some (some (key, r)), w') → ValidUtf8 key

/-- Map keys are shown as Rust strings. -/
def UserSer.KeysUtf8 : Prop := ∀ k w key w', W.toStr k w = (some key, w') → ValidUtf8 key

end Miniserde
