import Verif.Proof.PTree

/-!
# The tokenizer entry point `event`, against the grammar
-/

namespace Miniserde

/-- Tokens that start a value, with the event they deliver. -/
inductive Tok : Bytes → Event → Prop
  | null : Tok (str! "null") .null
  | true : Tok (str! "true") (.bool true)
  | false : Tok (str! "false") (.bool false)
  | num (l : NumLit) (h : l.WF) (ev : Event) (he : numEvent l = .ok ev) : Tok l.text ev
  | str {t s : Bytes} (h : JString t s) : Tok t (.str s)
  | open_ : Tok [0x5B] .seqStart
  | brace : Tok [0x7B] .mapStart

theorem intEvent_eq (nn : Bool) (n : Nat) : De.intEvent nn n = if nn then .nonnegative n
    else if n ≤ 9223372036854775808 then .negative (-(n : Int)) else .float (Flt.ofNat binary64 n).neg := rfl

theorem Tok.ne_nil {t : Bytes} {ev : Event} (h : Tok t ev) : t ≠ [] := by
  cases h with
  | num l h ev he =>
    have := h.int_digits.1
    unfold NumLit.text
    intro h'
    simp at h'
    exact this h'.2.1
  | str h => cases h; simp
  | _ => simp

namespace De

/-- A well-formed unsigned literal after its first digit: what `parse_integer` delivers. -/
theorem parseInteger_numEvent {mn : Bool} {c : UInt8} {cs : Bytes} {fo : Option Bytes}
    {xo : Option ExpPart} {r : Bytes} {d : De}
    (h : d.rest = cs ++ (fracText fo ++ (expText xo ++ r))) (hd : AllDigits (c :: cs)) (hz : c = 0x30 → cs = [])
    (hf : ∀ fs, fo = some fs → Digits fs)
    (hx : ∀ x, xo = some x → Digits x.digits) (hr : Follow fo xo r) :
    ∃ d', Eats d d' (cs ++ (fracText fo ++ expText xo)) ∧ d'.rest = r ∧
      parseInteger d (!mn) c = (numEvent ⟨mn, c :: cs, fo, xo⟩).bind fun ev => .ok (ev, d') := by
  obtain ⟨d', t, e, e2⟩ := parseInteger_spec (nn := !mn) h hd hz hf hx hr
  refine ⟨d', t, e, ?_⟩
  rw [e2]
  unfold numEvent
  simp only
  split
  · cases mn
    · rfl
    · simp only [intEvent_eq, Bool.not_true, Bool.false_eq_true, if_false, if_true]
      split <;> rfl
  · cases i32 ((accum U64_MAX 0 (c :: cs)).2 : Int) <;> rfl

theorem wf_mk {mn : Bool} {c : UInt8} {cs : Bytes} {fo : Option Bytes} {xo : Option ExpPart}
    (hd : AllDigits (c :: cs)) (hz : c = 0x30 → cs = []) (hf : ∀ fs, fo = some fs → Digits fs)
    (hx : ∀ x, xo = some x → Digits x.digits) : NumLit.WF ⟨mn, c :: cs, fo, xo⟩ := by
  refine ⟨digits_iff.2 ⟨by simp, hd⟩, ?_, hf, hx⟩
  intro h
  simp at h
  simp [h, hz h]

/-- Unfolding of `event` after the whitespace. -/
theorem event_at {d d1 : De} {c : UInt8} {r : Bytes} (h : d.parseWhitespace = (some c, d1)) (_hr : d1.rest = c :: r) :
    d.event =
      if c = b('"') then d1.bump.parseStr.map fun p => (.str p.1, p.2)
      else if isDigit c then d1.bump.parseInteger true c
      else if c = b('-') then d1.bump.nextOrNul.2.parseInteger false d1.bump.nextOrNul.1
      else if c = b('{') then .ok (.mapStart, d1.bump)
      else if c = b('[') then .ok (.seqStart, d1.bump)
      else if c = b('n') then (d1.bump.parseIdent (str! "ull")).map fun d => (.null, d)
      else if c = b('t') then (d1.bump.parseIdent (str! "rue")).map fun d => (.bool true, d)
      else if c = b('f') then (d1.bump.parseIdent (str! "alse")).map fun d => (.bool false, d)
      else .err := by
  unfold event
  rw [h]

theorem Bad.map {α β : Type} {d : De} {x : Res α} {f : α → β} (h : Bad d x) : Bad d (x.map f) := by
  rcases h with rfl | ⟨rfl, h⟩
  · exact .inl rfl
  · exact .inr ⟨rfl, h⟩

/-- `event` reads optional whitespace and one token, or fails. -/
theorem event_spec (d : De) : Bad d d.event ∨
    ∃ w t ev d', d.event = .ok (ev, d') ∧ Ws w ∧ Tok t ev ∧ Eats d d' (w ++ t) := by
  obtain ⟨w, d1, hw, ws, tw, -, hn⟩ := parseWhitespace_spec d
  rcases d1.head_cases with h | ⟨c, r, h⟩
  · left; left
    unfold event
    rw [hw, h]; rfl
  obtain ⟨h1, h2, h3, h4⟩ := rest_cons h
  have hev := event_at (c := c) (by rw [hw, h]; rfl) h
  rw [hev]
  clear hev
  -- numbers: common ending
  have num : ∀ (mn : Bool) (c0 : UInt8) (d2 : De) (pre : Bytes), Eats d d2 (w ++ pre) →
      pre = (if mn then [0x2D, c0] else [c0]) → isDigit c0 = true ∨ parseInteger d2 (!mn) c0 = .err →
      Bad d (parseInteger d2 (!mn) c0) ∨
      ∃ w t ev d', parseInteger d2 (!mn) c0 = .ok (ev, d') ∧ Ws w ∧ Tok t ev ∧ Eats d d' (w ++ t) := by
    intro mn c0 d2 pre t2 hpre hdig
    rcases parseInteger_cases d2 (!mn) c0 with ⟨cs, fo, xo, r', e1, a1, a2, a3, a4, a5⟩ | hb
    · obtain ⟨d', t3, e3, e4⟩ := parseInteger_numEvent (mn := mn) e1 a1 a2 a3 a4 a5
      rw [e4]
      have ht : Eats d d' (w ++ (⟨mn, c0 :: cs, fo, xo⟩ : NumLit).text) := by
        have := t2.trans t3
        rw [numLit_text]
        subst hpre
        cases mn <;> simpa using this
      cases hne : numEvent ⟨mn, c0 :: cs, fo, xo⟩ with
      | ok ev =>
        right
        exact ⟨w, _, ev, d', rfl, ws, .num _ (wf_mk a1 a2 a3 a4) ev hne, ht⟩
      | err => left; left; rfl
      | panic =>
        left; right
        have := numEvent_panic hne
        have hr := ht.rem
        simp at hr
        exact ⟨rfl, by omega⟩
    · left; exact hb.mono t2
  split
  · rename_i hc
    subst hc
    rcases d1.bump.parseStr_spec with ⟨e, -⟩ | ⟨body, s, d', e, hb, te⟩
    · left; left; rw [e]; rfl
    · right
      rw [e]
      exact ⟨w, 0x22 :: (body ++ [0x22]), .str s, d', rfl, ws, .str (.mk hb), tw.trans (h4.cons te)⟩
  split
  · rename_i hc
    exact num false c d1.bump [c] (tw.trans h4) rfl (.inl hc)
  split
  · rename_i hc
    subst hc
    rcases d1.bump.head_cases with h' | ⟨c0, r0, h'⟩
    · left; left
      rw [nextOrNul_nil h']
      rfl
    · rw [nextOrNul_cons h']
      have := num true c0 d1.bump.bump [0x2D, c0] (tw.trans (h4.cons (rest_cons h').2.2.2)) rfl
      by_cases hd : isDigit c0 = true
      · exact this (.inl hd)
      · refine this (.inr ?_)
        simp only [parseInteger]
        have h0 : c0 ≠ 0x30 := by rintro rfl; exact hd rfl
        rw [if_neg h0, if_neg hd]
  split
  · rename_i hc
    subst hc
    right; exact ⟨w, _, _, _, rfl, ws, .brace, tw.trans h4⟩
  split
  · rename_i hc
    subst hc
    right; exact ⟨w, _, _, _, rfl, ws, .open_, tw.trans h4⟩
  have ident : ∀ (id : Bytes) (ev : Event), Tok (c :: id) ev →
      Bad d ((d1.bump.parseIdent id).map fun d => (ev, d)) ∨
      ∃ w t ev' d', (d1.bump.parseIdent id).map (fun d => (ev, d)) = .ok (ev', d') ∧ Ws w ∧ Tok t ev' ∧ Eats d d' (w ++ t) := by
    intro id ev ht
    rcases d1.bump.parseIdent_cases id with h' | ⟨r', h'⟩
    · left; left; rw [h']; rfl
    · obtain ⟨d', e, te, -⟩ := parseIdent_complete h'
      right
      rw [e]
      exact ⟨w, c :: id, ev, d', rfl, ws, ht, tw.trans (h4.cons te)⟩
  split
  · rename_i hc
    subst hc
    exact ident _ _ .null
  split
  · rename_i hc
    subst hc
    exact ident _ _ .true
  split
  · rename_i hc
    subst hc
    exact ident _ _ .false
  exact .inl (.inl rfl)

/-- `event` on a number literal followed by something that cannot continue it. -/
theorem event_num {d : De} {w r : Bytes} {l : NumLit} (h : d.rest = w ++ (l.text ++ r)) (hw : Ws w) (hl : l.WF)
    (hr : Follow l.frac l.exp r) :
    ∃ d', Eats d d' (w ++ l.text) ∧ d'.rest = r ∧ d.event = (numEvent l).bind fun ev => .ok (ev, d') := by
  obtain ⟨mn, int, fo, xo⟩ := l
  obtain ⟨hi, hz, hf, hx⟩ := hl
  simp only at hi hz hf hx hr
  obtain ⟨c, cs, rfl⟩ : ∃ c cs, int = c :: cs := by
    cases int with
    | nil => exact absurd rfl hi.1
    | cons c cs => exact ⟨c, cs, rfl⟩
  have hd := (digits_iff.1 hi).2
  have hcd : isDigit c = true := hd c (by simp)
  have hz' : c = 0x30 → cs = [] := by
    rintro rfl
    have := hz (by simp)
    simpa using this
  rw [numLit_text] at h ⊢
  have hc22 : c ≠ 0x22 := by rintro rfl; revert hcd; decide
  cases mn with
  | false =>
    simp only [Bool.false_eq_true, if_false, List.nil_append, List.append_assoc, List.cons_append] at h
    obtain ⟨d1, e1, t1, e2⟩ := parseWhitespace_complete h hw (by
      intro c' hc'
      simp at hc'; subst hc'
      cases hh : isWs c with
      | false => rfl
      | true =>
        rw [isWs_iff] at hh
        rcases hh with rfl | rfl | rfl | rfl <;> revert hcd <;> decide)
    obtain ⟨-, -, h3, h4⟩ := rest_cons e2
    rw [event_at e1 e2, if_neg hc22, if_pos hcd]
    obtain ⟨d', t2, e3, e4⟩ := parseInteger_numEvent (mn := false) h3 hd hz' hf hx hr
    refine ⟨d', ?_, e3, e4⟩
    have := t1.trans (h4.cons t2)
    simpa using this
  | true =>
    simp only [if_true, List.append_assoc, List.cons_append, List.nil_append] at h
    obtain ⟨d1, e1, t1, e2⟩ := parseWhitespace_complete h hw (by
      intro c' hc'
      simp at hc'; subst hc'; rfl)
    obtain ⟨-, -, h3, h4⟩ := rest_cons e2
    obtain ⟨-, -, h5, h6⟩ := rest_cons h3
    rw [event_at e1 e2, if_neg (show ¬ ((0x2D : UInt8) = 0x22) by decide), if_neg (show ¬ (isDigit 0x2D = true) by decide),
      if_pos rfl, nextOrNul_cons h3]
    obtain ⟨d', t2, e3, e4⟩ := parseInteger_numEvent (mn := true) h5 hd hz' hf hx hr
    refine ⟨d', ?_, e3, e4⟩
    have := t1.trans (h4.cons (h6.cons t2))
    simpa using this

theorem event_str {d : De} {w r t s : Bytes} (h : d.rest = w ++ (t ++ r)) (hw : Ws w) (ht : JString t s) :
    ∃ d', Eats d d' (w ++ t) ∧ d'.rest = r ∧ d.event = .ok (.str s, d') := by
  cases ht with
  | @mk body _ hb =>
    obtain ⟨d1, e1, t1, e2⟩ := parseWhitespace_complete h hw (by
      intro c' hc'
      simp at hc'; subst hc'; rfl)
    obtain ⟨-, -, h3, h4⟩ := rest_cons (c := 0x22) (r := body ++ 0x22 :: r) (by rw [e2]; simp)
    rw [event_at e1 (r := body ++ 0x22 :: r) (by rw [e2]; simp), if_pos rfl]
    obtain ⟨d', e3, t3, e4⟩ := parseStr_complete h3 hb
    refine ⟨d', t1.trans (h4.cons t3), e4, ?_⟩
    rw [e3]; rfl

theorem event_open {d : De} {w r : Bytes} (h : d.rest = w ++ 0x5B :: r) (hw : Ws w) :
    ∃ d', Eats d d' (w ++ [0x5B]) ∧ d'.rest = r ∧ d.event = .ok (.seqStart, d') := by
  obtain ⟨d1, e1, t1, e2⟩ := parseWhitespace_complete h hw (by intro c' hc'; simp at hc'; subst hc'; rfl)
  obtain ⟨-, -, h3, h4⟩ := rest_cons e2
  exact ⟨d1.bump, t1.trans h4, h3, by rw [event_at e1 e2]; rfl⟩

theorem event_brace {d : De} {w r : Bytes} (h : d.rest = w ++ 0x7B :: r) (hw : Ws w) :
    ∃ d', Eats d d' (w ++ [0x7B]) ∧ d'.rest = r ∧ d.event = .ok (.mapStart, d') := by
  obtain ⟨d1, e1, t1, e2⟩ := parseWhitespace_complete h hw (by intro c' hc'; simp at hc'; subst hc'; rfl)
  obtain ⟨-, -, h3, h4⟩ := rest_cons e2
  exact ⟨d1.bump, t1.trans h4, h3, by rw [event_at e1 e2]; rfl⟩

theorem event_null {d : De} {w r : Bytes} (h : d.rest = w ++ (str! "null" ++ r)) (hw : Ws w) :
    ∃ d', Eats d d' (w ++ str! "null") ∧ d'.rest = r ∧ d.event = .ok (.null, d') := by
  obtain ⟨d1, e1, t1, e2⟩ := parseWhitespace_complete h hw (by intro c' hc'; simp at hc'; subst hc'; rfl)
  obtain ⟨-, -, h3, h4⟩ := rest_cons e2
  obtain ⟨d', e3, t3, e4⟩ := parseIdent_complete h3
  refine ⟨d', t1.trans (h4.cons t3), e4, ?_⟩
  rw [event_at e1 e2]
  simp [isDigit, e3]

theorem event_true {d : De} {w r : Bytes} (h : d.rest = w ++ (str! "true" ++ r)) (hw : Ws w) :
    ∃ d', Eats d d' (w ++ str! "true") ∧ d'.rest = r ∧ d.event = .ok (.bool true, d') := by
  obtain ⟨d1, e1, t1, e2⟩ := parseWhitespace_complete h hw (by intro c' hc'; simp at hc'; subst hc'; rfl)
  obtain ⟨-, -, h3, h4⟩ := rest_cons e2
  obtain ⟨d', e3, t3, e4⟩ := parseIdent_complete h3
  refine ⟨d', t1.trans (h4.cons t3), e4, ?_⟩
  rw [event_at e1 e2]
  simp [isDigit, e3]

theorem event_false {d : De} {w r : Bytes} (h : d.rest = w ++ (str! "false" ++ r)) (hw : Ws w) :
    ∃ d', Eats d d' (w ++ str! "false") ∧ d'.rest = r ∧ d.event = .ok (.bool false, d') := by
  obtain ⟨d1, e1, t1, e2⟩ := parseWhitespace_complete h hw (by intro c' hc'; simp at hc'; subst hc'; rfl)
  obtain ⟨-, -, h3, h4⟩ := rest_cons e2
  obtain ⟨d', e3, t3, e4⟩ := parseIdent_complete h3
  refine ⟨d', t1.trans (h4.cons t3), e4, ?_⟩
  rw [event_at e1 e2]
  simp [isDigit, e3]

end De
end Miniserde
