import Verif.Proof.IntVal
import Verif.Spec.Tracer

/-!
# Properties of the parser, for every visitor

`fromStrImpl P s v w` is `from_str_impl(s, v)` run against an arbitrary implementation `P` of the traits
`Visitor`/`Seq`/`Map` whose state is `w`; the result is `some (outcome, final state)`.
-/

namespace Miniserde

/-! ## Example texts -/

/-- The text ` [1, {"a":null}] `. -/
def exText : Bytes := str! " [1, {\"a\":null}] "

/-- Its tree. -/
def exTree : Json := .arr [.num ⟨false, str! "1", none, none⟩, .obj [(str! "a", .null)]]

theorem exText_tree : JText exText exTree := by
  refine ⟨str! " ", str! "[1, {\"a\":null}]", str! " ", rfl, by simp [Ws], ?_, by simp [Ws]⟩
  refine JValue.arr (t := str! "1, {\"a\":null}") ?_
  refine JElements.cons (w₁ := []) (t := str! "1") (w₂ := []) (ts := str! " {\"a\":null}") (by simp [Ws])
    (.num ⟨false, str! "1", none, none⟩ ?_) (by simp [Ws]) ?_
  · exact ⟨by decide, by decide, by simp, by simp⟩
  · refine JElements.one (w₁ := str! " ") (t := str! "{\"a\":null}") (w₂ := []) (by simp [Ws]) ?_ (by simp [Ws])
    refine JValue.obj (t := str! "\"a\":null") ?_
    refine JMembers.one (w₁ := []) (k := str! "\"a\"") (w₂ := []) (w₃ := []) (t := str! "null") (w₄ := []) (by simp [Ws])
      ?_ (by simp [Ws]) (by simp [Ws]) .null (by simp [Ws])
    exact JString.mk (body := str! "a") (StrBody.cons (.raw 0x61 (by decide) (by decide) (by decide)) .nil)

/-! ## C01 -/

/-- **C01.** If `from_str` succeeds, for whatever visitor, the whole input is one JSON text. -/
theorem C01_accepts_only_json {σ : Type} (P : Proto σ) (v : P.V) (w w' : σ) (s : Bytes)
    (h : fromStrImpl P s v w = some (.ok (), w')) : ∃ j, JText s j :=
  fromStrImpl_ok (by simp) h

/-! ## C02 -/

/-- **C02.** On a JSON text the calls are exactly the traversal of its tree, and the outcome is the outcome of the
traversal. -/
theorem C02_traverses_the_tree {σ : Type} (P : Proto σ) (v : P.V) (w : σ) (s : Bytes) (j : Json) (h : JText s j) :
    fromStrImpl P s v w = some (drive P v j w) :=
  fromStrImpl_text h P v w _ (by simp)

/-- The calls made for ` [1, {"a":null}] `: the hypothesis of C02 and (with the next example) of C01 is met. -/
example : fromStrImpl tracer exText () [] = some (.ok (), [.seq, .element, .nonnegative 1, .element, .map, .key (str! "a"),
    .null, .mapFinish, .dropMap, .seqFinish, .dropSeq]) := by
  rw [C02_traverses_the_tree tracer () [] exText exTree exText_tree]
  decide +kernel

/-- What is rejected: no input that is not a JSON text is accepted. -/
theorem C01_rejects {σ : Type} (P : Proto σ) (v : P.V) (w : σ) (s : Bytes) (h : ¬ ∃ j, JText s j) :
    ∃ r w', fromStrImpl P s v w = some (r, w') ∧ r ≠ .ok () := by
  obtain ⟨⟨r, w'⟩, hr⟩ := fromStrImpl_total s P v w _ (Nat.lt_succ_self _)
  refine ⟨r, w', hr, ?_⟩
  rintro rfl
  exact h (C01_accepts_only_json P v w w' s hr)

/-! ## C06 -/

/-- **C06.** The main loop ends after at most `len + 1` iterations, whatever the input and the visitor. -/
theorem C06_terminates {σ : Type} (P : Proto σ) (v : P.V) (w : σ) (s : Bytes) :
    ∃ r, fromStrImplFuel P (s.length + 1) s v w = some r :=
  fromStrImpl_total s P v w _ (Nat.lt_succ_self _)

/-- More iterations than that change nothing, so the budget is no artefact. -/
theorem C06_budget {σ : Type} (P : Proto σ) (v : P.V) (w : σ) (s : Bytes) (n : Nat) :
    fromStrImplFuel P (s.length + 1 + n) s v w = fromStrImpl P s v w := by
  obtain ⟨t, o, p⟩ := (parse_total (initDe s).rem).1 (initDe s) (Nat.le_refl _)
  rw [fromStrImpl_eq P p _ (by omega), fromStrImpl, fromStrImpl_eq P p _ (by omega)]

/-! ## C09 -/

/-- **C09.** If the input is a `&str`, a visitor that insists on well-formed UTF-8 sees no difference: every string handed to
`Visitor::string` or `Map::key` is well-formed, also on inputs that are not JSON. -/
theorem C09_strings_are_utf8 {σ : Type} (P : Proto σ) (v : P.V) (w : σ) (s : Bytes) (h : ValidUtf8 s) :
    fromStrImpl P.checkUtf8 s v w = fromStrImpl P s v w :=
  fromStrImpl_check P h v w _ (Nat.lt_succ_self _)

example : ValidUtf8 (str! "[\"a" ++ utf8Of 'é' ++ str! "\\u00e9\"]") :=
  ⟨['[', '"', 'a', 'é', '\\', 'u', '0', '0', 'e', '9', '"', ']'], by decide +kernel⟩

/-! ## C10 -/

/-- **C10, accepted literals.** A string literal is delivered as its character-by-character decoding. -/
theorem C10_unescapes {σ : Type} (P : Proto σ) (v : P.V) (w : σ) (body s w₁ w₂ : Bytes) (h : StrBody body s)
    (h₁ : Ws w₁) (h₂ : Ws w₂) :
    fromStrImpl P (w₁ ++ 0x22 :: (body ++ 0x22 :: w₂)) v w = some (P.string v s w) := by
  rw [C02_traverses_the_tree P v w _ (.str s), drive]
  exact ⟨w₁, 0x22 :: (body ++ [0x22]), w₂, by simp, h₁, .str (.mk h), h₂⟩

/-- The decoding of a body is unique. -/
theorem C10_unique (body s s' : Bytes) (h : StrBody body s) (h' : StrBody body s') : s = s' :=
  (StrBody.unique h h' (r := []) (r' := []) rfl).2.1

theorem strBody_no_quote {t s : Bytes} (h : StrBody t s) (n : t ≠ []) : t.head? ≠ some 0x22 := by
  cases h with
  | nil => exact absurd rfl n
  | cons hc _ =>
    rcases hc.cases_head with ⟨c, rfl, -, -, hq, -⟩ | ⟨t', rfl⟩
    · simpa using hq
    · simp

/-- **C10, rejected literals.** An input that starts with a quote is accepted only if it is a string literal whose body is a
sequence of `char`s, up to the closing quote and whitespace. -/
theorem C10_accepts_only {σ : Type} (P : Proto σ) (v : P.V) (w w' : σ) (rest : Bytes)
    (h : fromStrImpl P (0x22 :: rest) v w = some (.ok (), w')) :
    ∃ body s w₂, rest = body ++ 0x22 :: w₂ ∧ StrBody body s ∧ Ws w₂ ∧ P.string v s w = (.ok (), w') := by
  obtain ⟨j, hj⟩ := C01_accepts_only_json P v w w' _ h
  have h2 := C02_traverses_the_tree P v w _ j hj
  rw [h] at h2
  obtain ⟨w₁, t, w₂, e, hw₁, hv, hw₂⟩ := hj
  cases w₁ with
  | cons c w₁ =>
    simp only [List.cons_append, List.cons.injEq] at e
    obtain ⟨rfl, -⟩ := e
    have := hw₁ 0x22 (by simp)
    simp at this
  | nil =>
    rw [List.nil_append] at e
    cases hv with
    | str hs =>
      cases hs with
      | @mk body s' hb =>
        refine ⟨body, _, w₂, by simpa using e, hb, hw₂, ?_⟩
        simp only [drive, Option.some.injEq] at h2
        exact h2.symm
    | num l hl =>
      obtain ⟨mn, int, fo, xo⟩ := l
      have h1 := hl.int_digits
      cases int with
      | nil => exact absurd rfl h1.1
      | cons c cs =>
        have hc := h1.2 c (by simp)
        cases mn with
        | true => simp [NumLit.text] at e
        | false =>
          simp [NumLit.text] at e
          rw [← e.1] at hc
          exact absurd hc (by decide)
    | _ => simp at e

example : StrBody (str! "a\\n\\u0041") (str! "a\nA") :=
  .cons (.raw 0x61 (by decide) (by decide) (by decide)) (.cons .lf
    (.cons (.unicode (str! "0041") 'A' ⟨0x30, 0x30, 0x34, 0x31, 0, 0, 4, 1, by decide⟩) .nil))

/-! ## C11 -/

/-- **C11, pairs.** An escaped surrogate pair is delivered as the one supplementary character it encodes. -/
theorem C11_pair {σ : Type} (P : Proto σ) (v : P.V) (w : σ) (h l : Bytes) (hi lo : Nat) (hh : Hex4 h hi) (hl : Hex4 l lo)
    (hhi : 0xD800 ≤ hi ∧ hi ≤ 0xDBFF) (hlo : 0xDC00 ≤ lo ∧ lo ≤ 0xDFFF) :
    ∃ c : Char, c.toNat = 0x10000 + (hi - 0xD800) * 0x400 + (lo - 0xDC00) ∧
      fromStrImpl P (0x22 :: 0x5C :: 0x75 :: (h ++ 0x5C :: 0x75 :: (l ++ [0x22]))) v w = some (P.string v (utf8Of c) w) := by
  refine ⟨Char.ofNat (0x10000 + (hi - 0xD800) * 0x400 + (lo - 0xDC00)), toNat_ofNat (.inr ⟨by omega, by omega⟩), ?_⟩
  have hb := StrBody.cons (.pair h l hi lo _ hh hl hhi hlo (toNat_ofNat (.inr ⟨by omega, by omega⟩))) .nil
  have := C10_unescapes P v w _ _ [] [] hb De.ws_nil De.ws_nil
  simpa using this

/-- No body continues after complete characters with a lone or reversed surrogate escape. -/
theorem strBody_lone {pre ps h rest body s x : Bytes} {n : Nat} (hp : StrBody pre ps) (hh : Hex4 h n)
    (hn : (0xDC00 ≤ n ∧ n ≤ 0xDFFF) ∨ (0xD800 ≤ n ∧ n ≤ 0xDBFF ∧
      ∀ l m r, Hex4 l m → 0xDC00 ≤ m ∧ m ≤ 0xDFFF → rest ≠ 0x5C :: 0x75 :: (l ++ r)))
    (hb : StrBody body s) (e : pre ++ 0x5C :: 0x75 :: (h ++ rest) = body ++ 0x22 :: x) : False := by
  induction hp generalizing body s with
  | nil =>
    rw [List.nil_append] at e
    cases hb with
    | nil => simp at e
    | cons hc hs =>
      rw [List.append_assoc] at e
      cases hc with
      | raw c _ _ hb => simp at e; exact hb e.1.symm
      | unicode h2 c hh2 =>
        simp at e
        obtain ⟨-, e2, -⟩ := De.hex4_unique e hh hh2
        refine absurd ⟨?_, ?_⟩ (De.char_not_surrogate c)
        · rcases hn with hn | hn <;> omega
        · rcases hn with hn | hn <;> omega
      | pair h2 l hi lo c hh2 hl hhi hlo hc =>
        simp at e
        obtain ⟨-, e2, e3⟩ := De.hex4_unique e hh hh2
        rcases hn with hn | ⟨-, -, hn⟩
        · omega
        · exact hn l lo _ hl hlo e3
      | _ => simp at e
  | @cons t u ts us hc _ ih =>
    cases hb with
    | nil =>
      rw [List.append_assoc] at e
      rcases hc.cases_head with ⟨c, rfl, -, -, hq, -⟩ | ⟨t', rfl⟩
      · simp at e; exact hq e.1
      · simp at e
    | cons hc2 hs2 =>
      rw [List.append_assoc, List.append_assoc] at e
      obtain ⟨-, -, e3⟩ := hc.unique hc2 e
      exact ih hs2 e3

/-- **C11, unpaired.** A string literal with (after complete characters) an unpaired or reversed surrogate escape makes
`from_str` fail, whatever the visitor and whatever follows.  `pre` is what precedes the escape in the literal; the
escape is a low surrogate, or a high surrogate not followed by an escaped low surrogate. -/
theorem C11_unpaired {σ : Type} (P : Proto σ) (v : P.V) (w w' : σ) (pre ps h rest : Bytes) (n : Nat) (hp : StrBody pre ps)
    (hh : Hex4 h n)
    (hn : (0xDC00 ≤ n ∧ n ≤ 0xDFFF) ∨ (0xD800 ≤ n ∧ n ≤ 0xDBFF ∧
      ∀ l m r, Hex4 l m → 0xDC00 ≤ m ∧ m ≤ 0xDFFF → rest ≠ 0x5C :: 0x75 :: (l ++ r))) :
    fromStrImpl P (0x22 :: (pre ++ 0x5C :: 0x75 :: (h ++ rest))) v w ≠ some (.ok (), w') := by
  intro he
  obtain ⟨body, s, w₂, e, hb, -, -⟩ := C10_accepts_only P v w w' _ he
  exact strBody_lone hp hh hn hb e

example : (0xDC00 ≤ 0xDE00 ∧ 0xDE00 ≤ 0xDFFF) ∧ Hex4 (str! "DE00") 0xDE00 :=
  ⟨by decide, 0x44, 0x45, 0x30, 0x30, 13, 14, 0, 0, by decide⟩

/-! ## C12 -/

/-- **C12.** What an integer literal (no fraction, no exponent) is delivered as: its exact value when it fits `u64`,
or `i64` for literals with a minus sign; a float (or failure) otherwise. -/
theorem C12_integers_exact {σ : Type} (P : Proto σ) (v : P.V) (w : σ) (s : Bytes) (l : NumLit) (h : JText s (.num l))
    (hf : l.frac = none) (hx : l.exp = none) :
    (l.minus = false → digitsVal l.int ≤ u64Max →
      fromStrImpl P s v w = some (P.nonnegative v (digitsVal l.int) w)) ∧
    (l.minus = true → i64Min ≤ -(digitsVal l.int : Int) →
      fromStrImpl P s v w = some (P.negative v (-(digitsVal l.int : Int)) w)) ∧
    ((l.minus = false → u64Max < digitsVal l.int) → (l.minus = true → -(digitsVal l.int : Int) < i64Min) →
      (∃ f, fromStrImpl P s v w = some (P.float v f w)) ∨ fromStrImpl P s v w = some (.err, w) ∨
        fromStrImpl P s v w = some (.panic, w)) := by
  have h2 := C02_traverses_the_tree P v w s _ h
  rw [drive] at h2
  rw [h2]
  have hn := numEvent_int hf hx
  unfold driveNum
  refine ⟨?_, ?_, ?_⟩
  · intro hm hle
    rw [hn, if_pos hle, hm]
    rfl
  · intro hm hle
    simp only [i64Min] at hle
    rw [hn, if_pos (by simp only [u64Max]; omega), hm, if_pos rfl, if_pos (by omega)]
  · intro h3 h4
    rcases numEvent_cases l with h' | h' | ⟨n, h'⟩ | ⟨n, h'⟩ | ⟨n, h'⟩
    · rw [h']; simp
    · rw [h']; simp
    · exfalso
      rw [hn] at h'
      split at h'
      · split at h'
        · rename_i hm
          have := h4 hm
          simp only [i64Min] at this
          rw [if_neg (by omega)] at h'
          cases h'
        · cases h'
      · rename_i hgt
        revert h'
        generalize i32 _ = z
        cases z with
        | ok e => simp only [Res.bind_ok']; cases De.f64FromParts (!l.minus) (accum u64Max 0 l.int).1 e <;> simp
        | err => simp
        | panic => simp
    · exfalso
      rw [hn] at h'
      split at h'
      · split at h'
        · split at h' <;> cases h'
        · rename_i hm
          have := h3 (by simpa using hm)
          omega
      · rename_i hgt
        revert h'
        generalize i32 _ = z
        cases z with
        | ok e => simp only [Res.bind_ok']; cases De.f64FromParts (!l.minus) (accum u64Max 0 l.int).1 e <;> simp
        | err => simp
        | panic => simp
    · rw [h']; exact .inl ⟨n, rfl⟩

/-- `u64::MAX` and `i64::MIN` are integer literals that meet the hypotheses. -/
example : JText (str! "18446744073709551615") (.num ⟨false, str! "18446744073709551615", none, none⟩) ∧
    digitsVal (str! "18446744073709551615") = u64Max ∧
    JText (str! "-9223372036854775808") (.num ⟨true, str! "9223372036854775808", none, none⟩) ∧
    -(digitsVal (str! "9223372036854775808") : Int) = i64Min := by
  refine ⟨⟨[], _, [], rfl, De.ws_nil, .num ⟨false, str! "18446744073709551615", none, none⟩ ⟨by decide, by decide, by simp, by simp⟩,
    De.ws_nil⟩, by decide +kernel, ⟨[], _, [], rfl, De.ws_nil, .num ⟨true, str! "9223372036854775808", none, none⟩
    ⟨by decide, by decide, by simp, by simp⟩, De.ws_nil⟩, by decide +kernel⟩

/-! ## C18 -/

/-- **C18.** Two texts of the same tree (which keeps number literals as written) are indistinguishable: in particular
whitespace between tokens is irrelevant. -/
theorem C18_same_tree {σ : Type} (P : Proto σ) (v : P.V) (w : σ) (s s' : Bytes) (j : Json) (h : JText s j) (h' : JText s' j) :
    fromStrImpl P s v w = fromStrImpl P s' v w := by
  rw [C02_traverses_the_tree P v w s j h, C02_traverses_the_tree P v w s' j h']

end Miniserde
