import Verif.Proof.Space
import Verif.Props.Parse

/-!
# Whitespace in arbitrary inputs
-/

namespace Miniserde

/-- **C18.** Whitespace inserted between two tokens of any input (well-formed or not) changes neither the outcome nor anything the visitor
does. The inputs are shorter than 2 GiB: beyond, the `i32` exponent counter may overflow. -/
theorem C18_whitespace {σ : Type} (P : Proto σ) (v : P.V) (w : σ) (x ws y : Bytes) (hws : Ws ws) (hb : BetweenTokens x y)
    (hlen : (x ++ ws ++ y).length < 2147483648) : fromStrImpl P (x ++ ws ++ y) v w = fromStrImpl P (x ++ y) v w := by
  refine fromStrImpl_spaced P v w (a := x ++ ws ++ y) (b := x ++ y) ⟨x, ws, [], y, by simp, by simp, hws, De.ws_nil, hb⟩ hlen ?_
  simp at hlen ⊢
  omega

/-- Every position of a word-free neighbourhood qualifies: here both sides of the comma in the malformed input `["a\"b",tru]`. -/
example : BetweenTokens (str! "[\"a\\\"b\"") (str! ",tru]") ∧ BetweenTokens (str! "[\"a\\\"b\",") (str! "tru]") := by
  constructor
  · refine ⟨by decide, fun a c ha hc h => ?_⟩
    simp at ha hc
    subst ha hc
    exact absurd h.2 (by decide)
  · refine ⟨by decide, fun a c ha hc h => ?_⟩
    simp at ha hc
    subst ha hc
    exact absurd h.1 (by decide)

/-- And positions inside strings or words do not. -/
example : ¬ BetweenTokens (str! "[\"a\\\"") (str! "b\"]") ∧ ¬ BetweenTokens (str! "[1") (str! "2]") := by
  constructor
  · exact fun h => absurd h.1 (by decide)
  · exact fun h => h.2 0x31 0x32 rfl rfl (by unfold WordByte; decide)

end Miniserde
