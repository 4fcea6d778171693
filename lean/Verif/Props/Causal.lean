import Verif.Proof.Causal
import Verif.Props.Viable

/-!
# Properties of left-to-right processing
-/

namespace Miniserde
open scoped List

theorem seen_eq {σ : Type} (P : Proto σ) (v : P.V) (w : σ) {s : Bytes} {t : PT} {o : Option De} (h : PVal (initDe s) t o) :
    seen P v w s = (drivePT P.recording v t (w, [])).2.2 := by
  have e1 : fromStrImpl P.recording s v (w, []) = some (outcome o (drivePT P.recording v t (w, []))) :=
    fromStrImpl_eq P.recording h _ (Nat.lt_succ_self _) v (w, [])
  have h1 : (outcome o (drivePT P.recording v t (w, []))).2 = (drivePT P.recording v t (w, [])).2 := by
    rcases drivePT P.recording v t (w, []) with ⟨r, w'⟩
    cases r <;> cases o <;> rfl
  unfold seen
  rw [e1]
  exact congrArg Prod.snd h1

/-- **C86.** `from_str` works from left to right: what a visitor sees on the beginning `p` of an input is what it first sees on the whole input `p ++ u`, except that at
most one call `d` at the end is withdrawn -- a number that `p` ends in the middle of, or the request for the first element of an array that `p` ends after opening. -/
theorem C86_left_to_right {σ : Type} (P : Proto σ) (v : P.V) (w : σ) (p u : Bytes) :
    ∃ c d, seen P v w p = c ++ d ∧ c <+: seen P v w (p ++ u) ∧ Pending p d := by
  obtain ⟨t, o, hp⟩ := any_val (initDe p)
  have hr : (initDe (p ++ u)).rest = (initDe p).rest ++ u := rfl
  rw [seen_eq P v w hp]
  cases hp.out hr with
  | done h _ => exact ⟨_, [], (List.append_nil _).symm, by rw [seen_eq P v w h]; exact List.prefix_refl _, .none _⟩
  | stuck h hs =>
    refine ⟨_, [], (List.append_nil _).symm, ?_, .none _⟩
    rw [seen_eq P v w h, hs σ P.recording (recording_recx P) v (w, [])]
    exact List.prefix_refl _
  | late h hl _ _ =>
    obtain ⟨c, d, h1, h2, h3⟩ := hl σ P.recording (recording_recx P) v (w, [])
    rw [seen_eq P v w h]
    exact ⟨c, d, h1, h2, h3⟩

/-- **C86, cuts elsewhere.** If `p` ends neither with a digit nor with `[` and whitespace, then what a visitor sees on `p` is exactly the beginning of what it sees on
every continuation of `p`. -/
theorem C86_prefix {σ : Type} (P : Proto σ) (v : P.V) (w : σ) (p u : Bytes) (hd : ∀ q c, p = q ++ [c] → ¬ IsDigit c)
    (hb : ∀ q ws, p = q ++ 0x5B :: ws → ¬ Ws ws) : seen P v w p <+: seen P v w (p ++ u) := by
  obtain ⟨c, d, h1, h2, h3⟩ := C86_left_to_right P v w p u
  cases h3 with
  | none => rw [h1, List.append_nil]; exact h2
  | element q ws hw => exact absurd hw (hb q ws rfl)
  | number q c hc => exact absurd hc (hd q c rfl)

/-- **C86, errors are detected at once.** If `p` is not the beginning of any JSON text then `from_str` stops inside `p`: whatever follows `p`, every visitor sees the
same calls, and the result is not success. -/
theorem C86_stops_at_once (p : Bytes) (hp : ¬ Extends p) {σ : Type} (P : Proto σ) (v : P.V) (w : σ) (u : Bytes) :
    seen P v w (p ++ u) = seen P v w p ∧ ∃ r w', fromStrImpl P (p ++ u) v w = some (r, w') ∧ r ≠ .ok () := by
  refine ⟨?_, C01_rejects P v w (p ++ u) fun ⟨j, hj⟩ => hp ⟨u, j, hj⟩⟩
  obtain ⟨t, o, h0⟩ := any_val (initDe p)
  have hr : (initDe (p ++ u)).rest = (initDe p).rest ++ u := rfl
  rw [seen_eq P v w h0]
  cases h0.out hr with
  | done h _ => rw [seen_eq P v w h]
  | stuck h hs => rw [seen_eq P v w h, hs σ P.recording (recording_recx P) v (w, [])]
  | late h _ _ hc =>
    obtain ⟨x, ws, tx, j, e, hw, ht⟩ := hc
    exact absurd ⟨x, j, ws, tx, [], by rw [List.append_nil]; exact e, hw, ht, by simp [Ws]⟩ hp

/-- Cutting inside a number: the call for the number is withdrawn. -/
example : seen acceptAll () () (str! "[1,2") = [.seq, .element, .nonnegative 1, .element, .nonnegative 2] ∧
    seen acceptAll () () (str! "[1,23]") = [.seq, .element, .nonnegative 1, .element, .nonnegative 23, .seqFinish] := by
  decide +kernel

/-- Cutting after an opening bracket: the request for an element is withdrawn. -/
example : seen acceptAll () () (str! "[ ") = [.seq, .element] ∧ seen acceptAll () () (str! "[ ]") = [.seq, .seqFinish] := by
  decide +kernel

/-- Cutting elsewhere (here, inside a string). -/
example : seen acceptAll () () (str! "[1,\"a") <+: seen acceptAll () () (str! "[1,\"a\"]") := by
  refine C86_prefix acceptAll () () (str! "[1,\"a") (str! "\"]") (fun q c e => ?_) fun q ws e hw => ?_
  · have : (q ++ [c]).getLast? = some 0x61 := by rw [← e]; decide +kernel
    rw [List.getLast?_concat] at this
    cases this
    decide
  · rcases List.eq_nil_or_concat ws with rfl | ⟨ws', c, rfl⟩
    · have : (q ++ [0x5B]).getLast? = some 0x61 := by rw [← e]; decide +kernel
      rw [List.getLast?_concat] at this
      exact absurd this (by decide)
    · have h2 : ((q ++ 0x5B :: ws') ++ [c]).getLast? = some 0x61 := by
        have e' : q ++ 0x5B :: (ws' ++ [c]) = (q ++ 0x5B :: ws') ++ [c] := by simp
        rw [List.concat_eq_append] at e
        rw [← e', ← e]; decide +kernel
      rw [List.getLast?_concat] at h2
      cases h2
      exact absurd (hw 0x61 (by simp)) (by simp)

/-- `[]x` does not begin any JSON text. -/
theorem not_extends : ¬ Extends (str! "[]x") := by
  rintro ⟨x, j, h⟩
  have h2 : JText (str! "[]") (.arr []) := ⟨[], str! "[]", [], rfl, by simp [Ws], .arrEmpty (w := []) (by simp [Ws]), by simp [Ws]⟩
  have := (JText.prefix (u := 0x78 :: x) (fun l => by simp) h2 h).1 0x78 (by simp)
  exact absurd this (by simp)

/-- So what follows it is not looked at. -/
example : seen acceptAll () () (str! "[]x,[1,2]") = seen acceptAll () () (str! "[]x") :=
  (C86_stops_at_once (str! "[]x") not_extends acceptAll () () (str! ",[1,2]")).1

end Miniserde
