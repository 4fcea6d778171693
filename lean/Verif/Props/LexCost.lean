import Verif.Proof.LexLower
import Verif.Proof.Complete
import Verif.Proof.FromStr
import Verif.Spec.Tracer

/-!
# C74: parsing takes linear time
-/

namespace Miniserde

/-- **C74.** Whatever the input (JSON or not, however deep, long or malformed) and whatever the visitor does, parsing takes at most `24 * len + 1` steps, where a step is an access to a byte
of the input, a byte copied to the scratch buffer, an iteration of the float conversion, a call of the visitor, or a frame pushed, popped or dropped; and it ends with the result that
`from_str_impl` has. -/
theorem C74_linear {σ : Type} (P : Proto σ) (s : Bytes) (v : P.V) (w : σ) :
    ∃ r w' steps, fromStrImplC P s v w = some ((r, w'), steps) ∧ fromStrImpl P s v w = some (r, w') ∧ steps ≤ 24 * s.length + 1 := by
  obtain ⟨⟨r, w'⟩, h⟩ := fromStrImpl_total s P v w (s.length + 1) (Nat.lt_succ_self _)
  change fromStrImpl P s v w = some (r, w') at h
  have e := fromStrImplC_fst P s v w
  rcases hc : fromStrImplC P s v w with _ | ⟨⟨r', w''⟩, n⟩
  · rw [hc, h] at e; cases e
  · rw [hc, h] at e
    cases e
    refine ⟨r, w', n, rfl, h, ?_⟩
    have := outerLoopC_spent P _ _ _ _ _ _ hc
    simpa [De.worth, De.left] using this

/-- The result and the number of steps on a text. -/
def stepsOn (s : Bytes) : Option (Res Unit × Nat) := (fromStrImplC tracer s () []).map fun x => (x.1.1, x.2)

example : stepsOn (str! "true") = some (.ok (), 6) := by decide +kernel
example : stepsOn (str! "[1, [2], {\"a\": \"x\\ny\"}]") = some (.ok (), 61) := by decide +kernel
example : stepsOn (str! "[[[[[[[[") = some (.err, 57) := by decide +kernel
example : stepsOn (str! "-12.50e-3") = some (.ok (), 15) := by decide +kernel
example : stepsOn (str! "\"abc") = some (.err, 5) := by decide +kernel

/-- **C74.** The counter leaves nothing out: whatever the visitor does, its calls (counted by any `μ` that grows by at most one with each) are among the steps; and when the input is accepted,
every one of its bytes is a further step. -/
theorem C74_accounted {σ : Type} (P : Proto σ) {μ : σ → Nat} (hμ : P.Counts μ) (s : Bytes) (v : P.V) (w w' : σ) (r : Res Unit) (steps : Nat)
    (h : fromStrImplC P s v w = some ((r, w'), steps)) : μ w' ≤ μ w + steps ∧ (r = .ok () → s.length + μ w' ≤ μ w + steps) := by
  have := outerLoopC_covers hμ _ _ _ _ _ _ h
  refine ⟨this.1, fun e => ?_⟩
  have h2 := this.2 () e
  simpa [De.left] using h2

/-- The tracer records its calls. -/
theorem tracer_counts : tracer.Counts List.length := by
  constructor <;> intros <;> simp [tracer]

/-- On an accepted text the steps of the tracer are between the bytes plus the calls and 24 times the bytes. -/
example (s : Bytes) (w' : List Call) (steps : Nat) (h : fromStrImplC tracer s () [] = some ((.ok (), w'), steps)) : s.length + w'.length ≤ steps := by
  simpa using (C74_accounted tracer tracer_counts s () [] w' (.ok ()) steps h).2 rfl

/-- 23 bytes and 17 calls in 61 steps. -/
example : (fromStrImplC tracer (str! "[1, [2], {\"a\": \"x\\ny\"}]") () []).map (fun x => (x.1.2.length, x.2)) = some (17, 61) := by decide +kernel

end Miniserde
