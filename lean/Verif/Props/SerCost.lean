import Verif.Proof.SerCost
import Verif.Props.Ser

/-!
# The work done by `to_string`
-/

namespace Miniserde

variable {ryu : F64 → Bytes} {lit : F64 → NumLit}

/-- **C64.** For every implementation of `Serialize`: when `to_string` returns, it has called `begin` once for every node of the tree that was streamed and `next` once for every
element and once more for every sequence and map; the number of streams alive at once was the nesting depth.  Together these are less than two calls per byte of the text, and the main loop
has made at most one iteration per byte. -/
theorem C64_calls {σ : Type} (P : SProto σ) (hr : RyuSyntax ryu lit) (hP : P.Utf8) (s : P.S) (w w' : σ) (o : Bytes)
    (h : Prints P ryu s w o w') : ∃ t μ, Streams P s w t w' ∧ Prints P.metered ryu s (w, {}) o (w', μ) ∧
      μ.begins = t.nodes ∧ μ.nexts + 1 = t.nodes + t.containers ∧ μ.live = 0 ∧ μ.peak = t.depth ∧
      μ.begins + μ.nexts < 2 * o.length ∧ toStringN P ryu o.length s w = .finished (some o) w' := by
  obtain ⟨n, h⟩ := h
  obtain ⟨t, ht, rfl⟩ := toStringN_spec hr hP h
  have hv := ht.utf8 hP
  have hc := t.counts_le hr
  have hn := t.nodes_pos
  refine ⟨t, SMeter.after {} t, ht, ⟨t.nodes, toStringN_streams hr (ht.metered {} (Nat.le_refl _)) hv (Nat.le_refl _)⟩, ?_, ?_, rfl, ?_, ?_,
    toStringN_streams hr ht hv (by omega)⟩ <;> simp only [SMeter.after] <;> omega

/-- The counter of C27, printing `[0,1,2]`: four values, four calls of `next`, one stream. -/
example : ∃ w', Prints (exCounter 3).metered (fun x => (exLit x).text) none (7, {}) (str! "[0,1,2]") (w', ⟨4, 4, 0, 1⟩) := by
  refine ⟨3, 4, ?_⟩
  with_unfolding_all rfl

end Miniserde
