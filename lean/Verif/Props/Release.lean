import Verif.Proof.Release
import Verif.Props.Float

/-!
# C71: release builds, and inputs of any length

`fromStrA E .release` is `json::from_str` compiled without overflow checks, `fromStrA E .debug` with them (`Model/Release.lean`).
-/

namespace Miniserde

/-! ## C71 -/

/-- **C71.** The model of a build with overflow checks is that of all other properties. -/
theorem C71_debug (E : Env) (t : Ty) (s : Bytes) : fromStrA E .debug t s = fromStr E t s := by
  unfold fromStrA fromStr
  exact congrArg (Option.map _) (fromStrImplA_debug (lib E) s (VH.place t ⟨0, 0, 0⟩) Heap.init)

/-- **C71.** Whatever the visitor: when a debug build does not panic, a release build makes the same calls with the same result. -/
theorem C71_agrees {σ : Type} (P : Proto σ) (s : Bytes) (v : P.V) (w w' : σ) (r : Res Unit)
    (h : fromStrImpl P s v w = some (r, w')) (hr : r ≠ .panic) : fromStrImplA P .release s v w = some (r, w') :=
  outerLoopA_eq P _ _ _ _ _ _ _ h hr

/-- **C71.** On inputs shorter than 2 GiB there is no difference between the two kinds of build. -/
theorem C71_same (E : Env) (t : Ty) (s : Bytes) (hs : s.length < 2 ^ 31) : fromStrA E .release t s = fromStr E t s := by
  obtain ⟨r, h, -, h2, h3⟩ := fromStr_any E hs t
  have h3' := h3
  rw [fromStr] at h3
  obtain ⟨⟨r', h'⟩, e, e2⟩ := Option.map_eq_some_iff.1 h3
  have hr' : r' ≠ .panic := by
    rintro rfl
    simp only [Prod.mk.injEq] at e2
    exact h2 e2.1.symm
  rw [h3', fromStrA, C71_agrees (lib E) s (VH.place t ⟨0, 0, 0⟩) Heap.init h' r' e hr']
  exact congrArg some e2

/-- **C71.** A release build returns `Ok` or `Err` on every input, of whatever length, and leaves the memory in order. -/
theorem C71_safe (E : Env) (t : Ty) (s : Bytes) :
    ∃ r h, fromStrA E .release t s = some (r, h) ∧ r ≠ .panic ∧ h.fault = false ∧ (∀ a, a ≠ 0 → h.mem a = none) := by
  obtain ⟨r, h, h1, h2, h3⟩ := fromStrR_any E s t
  exact ⟨r, h, h3, h2, h1.noFault, h1.only⟩

/-- **C71.** A release build accepts only JSON texts, whatever their length. -/
theorem C71_language (E : Env) (t : Ty) (s : Bytes) (v : Val) (h : Heap) (e : fromStrA E .release t s = some (.ok v, h)) :
    ∃ j, JText s j := by
  rw [fromStrA] at e
  obtain ⟨⟨r', h'⟩, e, e2⟩ := Option.map_eq_some_iff.1 e
  cases r' with
  | ok u => exact fromStrImpl_okR (P := lib E) (Nat.lt_succ_self _) e
  | err => simp at e2
  | panic => simp at e2

/-- **C71.** On a JSON text of any length both kinds of build give the decoding of its tree, provided no single number literal in it has
2 GiB or more. -/
theorem C71_text (E : Env) (t : Ty) (s : Bytes) (j : Json) (hj : JText s j) (hn : j.ShortNums) :
    (∃ h, fromStr E t s = some (match decode E j t with | some v => .ok v | none => .err, h)) ∧
    (∃ h, fromStrA E .release t s = some (match decode E j t with | some v => .ok v | none => .err, h)) := by
  obtain ⟨⟨h, -, h2⟩, ⟨h', -, h2'⟩⟩ := fromStr_short E hj hn t
  exact ⟨⟨h, h2⟩, ⟨h', h2'⟩⟩

/-! ## What happens on longer numbers (finding) -/

/-- `0.` followed by `n` zeros and a one: 10^-(n+1). -/
def tinyLit (n : Nat) : NumLit := ⟨false, [0x30], some (List.replicate n 0x30 ++ [0x31]), none⟩

theorem accum_zeros (n : Nat) : accum u64Max 0 (List.replicate n 0x30 ++ [0x31]) = (1, 0) := by
  induction n with
  | zero => decide
  | succ n ih =>
    rw [List.replicate_succ, List.cons_append, accum, if_pos (by decide)]
    exact ih

theorem tiny_wf (n : Nat) : (tinyLit n).WF := by
  refine De.wf_mk (c := 0x30) (cs := []) ?_ (fun _ => rfl) ?_ ?_
  · intro c hc; simp at hc; subst hc; rfl
  · intro fs h
    cases h
    refine digits_iff.2 ⟨by simp, ?_⟩
    intro c hc
    simp at hc
    rcases hc with ⟨-, rfl⟩ | rfl <;> rfl
  · nofun

theorem tiny_text (n : Nat) : JText (tinyLit n).text (.num (tinyLit n)) :=
  ⟨[], _, [], by simp, ws_nil, .num _ (tiny_wf n), ws_nil⟩

theorem tiny_digits (n : Nat) : digitsVal (List.replicate n 0x30 ++ [0x31]) = 1 := by
  induction n with
  | zero => decide
  | succ n ih => exact ih

/-- The literal denotes 10^-(n+1). -/
theorem tinyLit_value (n : Nat) : (tinyLit n).value = 10 ^ (-((n : Int) + 1)) := by
  have : digitsVal ([0x30] ++ (List.replicate n 0x30 ++ [0x31])) = 1 := tiny_digits (n + 1)
  simp only [NumLit.value, NumLit.absValue, tinyLit, Option.getD_some, this]
  simp

/-- The exponent of the literal, reduced modulo 2^32. -/
theorem tiny_release (n : Nat) : numEventR (tinyLit n) = (De.f64FromParts true 1 (wrapI32 (-((n : Int) + 1)))).map .float := by
  have h0 : accum u64Max 0 [0x30] = (0, 0) := by decide
  unfold numEventR tinyLit
  simp only [h0]
  rw [if_neg (by simp)]
  unfold fracValueR
  simp only [accum_zeros, Bool.not_false]
  show Res.map Event.float (De.f64FromParts true 1 _) = _
  rw [show ((0 : Nat) : Int) = 0 from rfl, wrap_zero]
  congr 3
  simp

theorem tiny_debug {n : Nat} (hn : 2147483648 ≤ n) : numEvent (tinyLit n) = .panic := by
  have h0 : accum u64Max 0 [0x30] = (0, 0) := by decide
  unfold numEvent tinyLit
  simp only [h0]
  rw [if_neg (by simp)]
  unfold fracValue
  simp only [accum_zeros]
  rw [i32_ok (z := ((0 : Nat) : Int)) (by decide)]
  simp only [Res.bind_ok']
  rw [i32_panic (by simp [I32_MIN]; omega)]
  rfl

/-- A text with a number that meets the hypothesis. -/
example : JText (tinyLit 3).text (.num (tinyLit 3)) ∧ (Json.num (tinyLit 3)).ShortNums :=
  ⟨tiny_text 3, by simp only [Json.ShortNums]; decide⟩

/-- There are texts of any length whose numbers are short. -/
example (n : Nat) : ∃ s j, JText s j ∧ j.ShortNums ∧ n < s.length := by
  refine ⟨List.replicate n 0x20 ++ (str! "null" ++ []), .null, ⟨_, _, _, rfl, ?_, .null, ws_nil⟩, by simp [Json.ShortNums], ?_⟩
  · intro c hc
    simp only [List.mem_replicate] at hc
    rw [hc.2]; exact .inl rfl
  · simp


/-- **C71 (finding).** On a literal of 2 GiB or more a debug build panics, and a release build may reject a number close to zero ... -/
theorem C71_long_rejected (E : Env) : ∃ s h, JText s (.num (tinyLit 2147483648)) ∧ fromStrA E .release .f64 s = some (.err, h) := by
  obtain ⟨h, -, h2⟩ := fromStrR_run E (tiny_text 2147483648) .f64
  refine ⟨_, h, tiny_text _, h2.trans ?_⟩
  have : numEventR (tinyLit 2147483648) = .err := by
    have hw : wrapI32 (-(((2147483648 : Nat) : Int) + 1)) = 2147483647 := by decide
    have hp : De.POW10 (2147483647 : Int).natAbs = none := by decide +kernel
    have hz : (Flt.ofNat binary64 1).isZero = false := by decide +kernel
    rw [tiny_release, hw, De.f64FromParts, De.f64Loop, hp]
    simp [hz]
  rw [toPTR, this]
  rfl

/-- **C71 (finding).** ... or accept it with a grossly wrong value: 10^-(2^32 + 1) is read as `0.1`.  A debug build panics. -/
theorem C71_long_wrong (E : Env) : ∃ (s : Bytes) (x : F64) (h h' : Heap), JText s (.num (tinyLit 4294967296)) ∧
    (tinyLit 4294967296).value = 10 ^ (-4294967297 : Int) ∧ fromStr E .f64 s = some (.panic, h) ∧
    fromStrA E .release .f64 s = some (.ok (.f64 x), h') ∧ RoundsTo binary64 (1 / 10) x := by
  have hs : (tinyLit 0).text = str! "0.1" := by decide
  obtain ⟨x, h1, h2⟩ := C16_short_decimals E _ _ (tiny_text 0) (by rw [hs]; decide) (by decide) (by decide) (by decide)
  have hv : (tinyLit 0).value = 1 / 10 := by
    rw [tinyLit_value]; norm_num
  rw [hv] at h2
  obtain ⟨h3, -, h4⟩ := fromStr_run E (tiny_text 4294967296) .f64
  obtain ⟨h5, -, h6⟩ := fromStrR_run E (tiny_text 4294967296) .f64
  obtain ⟨h7, h8, -⟩ := fromStr_short E (tiny_text 0) (by simp only [Json.ShortNums]; rw [hs]; decide) .f64
  refine ⟨_, x, h3, h5, tiny_text _, tinyLit_value _, h4.trans ?_, h6.trans ?_, h2⟩
  · rw [toPT, tiny_debug (by omega)]; rfl
  · have : numEventR (tinyLit 4294967296) = numEvent (tinyLit 0) := by
      rw [← numEventR_short (by rw [hs]; decide), tiny_release, tiny_release]
      congr 2
    have e : toPTR (.num (tinyLit 4294967296)) = toPT (.num (tinyLit 0)) := by rw [toPTR, toPT, this]; rfl
    rw [e]
    obtain ⟨h9, -, h10⟩ := fromStr_run E (tiny_text 0) .f64
    rw [parseAs, h10] at h1
    simp only [Option.map_some, Option.some.injEq] at h1
    rw [h1]

end Miniserde
