import Verif.Proof.Prefix
import Verif.Props.Typed

/-!
# Truncated and concatenated documents
-/

namespace Miniserde

theorem not_text_of_cut {p u : Bytes} {j : Json} (hj : ∀ l, j ≠ .num l) (h : JText (p ++ u) j) (hu : ¬ Ws u) : ¬ ∃ j, JText p j := by
  rintro ⟨j', h'⟩
  have hj' : ∀ l, j' ≠ .num l := by
    rintro l rfl
    obtain ⟨w1, t, x, e1, hw, ht, hx⟩ := h'
    obtain ⟨w1', t', x', e2, hw', ht', hx'⟩ := h
    subst e1
    simp only [List.append_assoc] at e2
    obtain ⟨-, e3⟩ := ws_unique hw hw' ht.wsEnd ht'.wsEnd e2
    obtain ⟨c, q, rfl, hk⟩ := jvalue_kind ht
    have hk' := kind_of ht' e3
    cases j with
    | num l => exact hj l rfl
    | bool b => cases b <;> (simp only [kindByte] at hk hk'; subst hk'; revert hk; decide)
    | _ => simp only [kindByte] at hk hk'; subst hk'; revert hk; decide
  exact hu (JText.prefix hj' h' h).1

/-- **C43.** A JSON text that is not a number, cut anywhere (other than in trailing whitespace), is rejected: `from_str` does not return `Ok`,
for any visitor. -/
theorem C43_truncated {σ : Type} (P : Proto σ) (v : P.V) (w : σ) (p u : Bytes) (j : Json) (hj : ∀ l, j ≠ .num l) (h : JText (p ++ u) j)
    (hu : ¬ Ws u) : ∃ r w', fromStrImpl P p v w = some (r, w') ∧ r ≠ .ok () :=
  C01_rejects P v w p (not_text_of_cut hj h hu)

/-- For library and derived types it returns `Err`. -/
theorem C43_truncated_err (E : Env) (t : Ty) (p u : Bytes) (j : Json) (hj : ∀ l, j ≠ .num l) (h : JText (p ++ u) j)
    (hu : ¬ Ws u) (hs : p.length < 2 ^ 31) : parseAs E t p = some .err :=
  (C04_compositional E t p hs).2 (not_text_of_cut hj h hu)

/-- Anything but whitespace after a complete text that is not a number makes the whole rejected: two concatenated documents are never
taken for one. -/
theorem C43_concatenated {σ : Type} (P : Proto σ) (v : P.V) (w : σ) (s u : Bytes) (j : Json) (hj : ∀ l, j ≠ .num l) (h : JText s j)
    (hu : ¬ Ws u) : ∃ r w', fromStrImpl P (s ++ u) v w = some (r, w') ∧ r ≠ .ok () :=
  C01_rejects P v w _ fun ⟨_, h'⟩ => hu (h.prefix hj h').1

/-- A text has one tree. -/
theorem C43_unambiguous (s : Bytes) (j j' : Json) (h : JText s j) (h' : JText s j') : j = j' := h.unique h'

/-- The text `[1, {"a":null}] ` can be cut after `[1, {"a"`. -/
example : (∀ l, exTree ≠ .num l) ∧ JText (str! " [1, {\"a\"" ++ str! ":null}] ") exTree ∧ ¬ Ws (str! ":null}] ") :=
  ⟨fun _ h => (nomatch h), exText_tree, fun h => absurd (h 0x3A (by simp)) (by decide)⟩

end Miniserde
