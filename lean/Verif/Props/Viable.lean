import Verif.Proof.Viable
import Verif.Props.Parse

/-!
# Properties of what visitors see on malformed input
-/

namespace Miniserde
open scoped List

/-- **C63.** For every input `s` whatsoever there is a well-formed document `s'` (which a visitor that accepts everything accepts) such that every visitor sees on
`s` the beginning of what it sees on `s'`: up to the point where the error is detected, a malformed input cannot be told from a well-formed one. -/
theorem C63_viable (s : Bytes) : ∃ s', fromStrImpl acceptAll s' () () = some (.ok (), ()) ∧
    ∀ {σ : Type} (P : Proto σ) (v : P.V) (w : σ), seen P v w s <+: seen P v w s' := by
  obtain ⟨t, o, hp⟩ := (parse_total (initDe s).rem).1 (initDe s) (Nat.le_refl _)
  obtain ⟨j, ⟨⟨s', hs'⟩, hA⟩, hc⟩ := hp.viable
  have hj : JText s' j := ⟨[], s', [], by simp, by simp [Ws], hs', by simp [Ws]⟩
  refine ⟨s', ?_, fun {σ} P v w => ?_⟩
  · refine (C02_traverses_the_tree acceptAll () () s' j hj).trans ((congrArg some (drive_eq acceptAll () j ())).trans ?_)
    have := hA Unit acceptAll acceptAll_accepts () ()
    exact congrArg some (Prod.ext this rfl)
  · have e1 : fromStrImpl P.recording s v (w, []) = some (outcome o (drivePT P.recording v t (w, []))) :=
      fromStrImpl_eq P.recording hp _ (Nat.lt_succ_self _) v (w, [])
    have e2 : fromStrImpl P.recording s' v (w, []) = some (drivePT P.recording v (toPT j) (w, [])) :=
      (C02_traverses_the_tree P.recording v (w, []) s' j hj).trans (congrArg some (drive_eq P.recording v j (w, [])))
    have h1 : (outcome o (drivePT P.recording v t (w, []))).2 = (drivePT P.recording v t (w, [])).2 := by
      rcases drivePT P.recording v t (w, []) with ⟨r, w'⟩
      cases r <;> cases o <;> rfl
    unfold seen
    rw [e1, e2]
    show (outcome o (drivePT P.recording v t (w, []))).2.2 <+: (drivePT P.recording v (toPT j) (w, [])).2.2
    have h2 := congrArg Prod.snd h1
    refine (h2 ▸ List.prefix_refl _ : _ <+: (drivePT P.recording v t (w, [])).2.2).trans ?_
    exact (hc.ahead (recording_recs P) v (w, [])).2

/-- A malformed input: an object member without a colon inside an array.  The visitor sees the calls up to the key and nothing of what follows. -/
example : seen acceptAll () () (str! "[1, {\"a\" 2]") = [.seq, .element, .nonnegative 1, .element, .map, .key (str! "a")] := by
  decide +kernel

/-- A document that continues it. -/
example : seen acceptAll () () (str! "[1, {\"a\":null}]") =
    [.seq, .element, .nonnegative 1, .element, .map, .key (str! "a"), .null, .mapFinish, .seqFinish] := by
  decide +kernel

end Miniserde
