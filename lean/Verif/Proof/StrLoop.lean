import Verif.Proof.Str

/-!
# String literals: the loop of `parse_str`
-/

namespace Miniserde

/-- Every `char` starts with a backslash or is a single raw byte. -/
theorem StrChar.cases_head {t u : Bytes} (h : StrChar t u) :
    (∃ c, t = [c] ∧ u = [c] ∧ 0x20 ≤ c ∧ c ≠ 0x22 ∧ c ≠ 0x5C) ∨ ∃ t', t = 0x5C :: t' := by
  cases h with
  | raw c h hq hb => exact .inl ⟨c, rfl, rfl, h, hq, hb⟩
  | _ => exact .inr ⟨_, rfl⟩

open De in
/-- `char`s form a prefix code. -/
theorem StrChar.unique {t t' u u' r r' : Bytes} (h : StrChar t u) (h' : StrChar t' u') (e : t ++ r = t' ++ r') :
    t = t' ∧ u = u' ∧ r = r' := by
  cases h with
  | raw c h hq hb =>
    rcases h'.cases_head with ⟨c', rfl, rfl, -, -, -⟩ | ⟨t', rfl⟩
    · simp at e; simp [e]
    · simp at e; exact absurd e.1 hb
  | unicode h c hh =>
    cases h' with
    | raw c' _ _ hb => simp at e; exact absurd e.1.symm hb
    | unicode h2 c2 hh2 =>
      simp at e
      obtain ⟨rfl, e2, e3⟩ := hex4_unique e hh hh2
      have : c = c2 := Char.ext (UInt32.toNat_inj.1 e2)
      subst this
      exact ⟨rfl, rfl, e3⟩
    | pair h2 l hi lo c2 hh2 hl hhi hlo hc =>
      simp at e
      obtain ⟨-, e2, -⟩ := hex4_unique e hh hh2
      exact absurd ⟨by omega, by omega⟩ (char_not_surrogate c)
    | _ => simp at e
  | pair h l hi lo c hh hl hhi hlo hc =>
    cases h' with
    | raw c' _ _ hb => simp at e; exact absurd e.1.symm hb
    | unicode h2 c2 hh2 =>
      simp at e
      obtain ⟨-, e2, -⟩ := hex4_unique e hh hh2
      exact absurd ⟨by omega, by omega⟩ (char_not_surrogate c2)
    | pair h2 l2 hi2 lo2 c2 hh2 hl2 hhi2 hlo2 hc2 =>
      simp at e
      obtain ⟨rfl, rfl, e3⟩ := hex4_unique e hh hh2
      simp at e3
      obtain ⟨rfl, rfl, e4⟩ := hex4_unique e3 hl hl2
      have : c = c2 := Char.ext (UInt32.toNat_inj.1 (hc.trans hc2.symm))
      subst this
      exact ⟨rfl, rfl, e4⟩
    | _ => simp at e
  | _ =>
    cases h' with
    | raw c' _ _ hb => simp at e; exact absurd e.1.symm hb
    | _ => first | (simp at e; done) | (simp at e; simp [e])

theorem StrBody.inv {t s : Bytes} (h : StrBody t s) :
    (t = [] ∧ s = []) ∨ ∃ t1 u ts us, t = t1 ++ ts ∧ s = u ++ us ∧ StrChar t1 u ∧ StrBody ts us := by
  cases h with
  | nil => exact .inl ⟨rfl, rfl⟩
  | cons h hs => exact .inr ⟨_, _, _, _, rfl, rfl, h, hs⟩

/-- The first byte of a body is not the closing quote, so the closing quote is unique. -/
theorem StrBody.unique {t t' s s' r r' : Bytes} (h : StrBody t s) (h' : StrBody t' s')
    (e : t ++ 0x22 :: r = t' ++ 0x22 :: r') : t = t' ∧ s = s' ∧ r = r' := by
  induction h generalizing t' s' with
  | nil =>
    rcases h'.inv with ⟨rfl, rfl⟩ | ⟨t1, u, ts, us, rfl, rfl, hc, -⟩
    · simp at e; simp [e]
    · rcases hc.cases_head with ⟨c, rfl, -, -, hq, -⟩ | ⟨t2, rfl⟩
      · simp at e; exact absurd e.1.symm hq
      · simp at e
  | @cons t1 u1 ts us hc hs ih =>
    rcases h'.inv with ⟨rfl, rfl⟩ | ⟨t2, u2, ts2, us2, rfl, rfl, hc2, hs2⟩
    · rcases hc.cases_head with ⟨c, rfl, -, -, hq, -⟩ | ⟨t2, rfl⟩
      · simp at e; exact absurd e.1 hq
      · simp at e
    · simp only [List.append_assoc] at e
      obtain ⟨rfl, rfl, e2⟩ := hc.unique hc2 e
      obtain ⟨rfl, rfl, rfl⟩ := ih hs2 e2
      exact ⟨rfl, rfl, rfl⟩

namespace De

theorem skipPlain_plain {d : De} {c : UInt8} {r : Bytes} (h : d.rest = c :: r) (hc : mustEscape c = false) :
    d.skipPlain = d.bump.skipPlain := by
  rw [skipPlain]
  split
  · rename_i c' h'
    rw [(rest_cons h).2.1] at h'
    simp at h'; subst h'
    simp [hc]
  · rename_i h'
    rw [(rest_cons h).2.1] at h'; cases h'

theorem skipPlain_stop {d : De} (h : ∀ c, d.rest.head? = some c → mustEscape c = true) : d.skipPlain = d := by
  rw [skipPlain]
  split
  · rename_i c' h'
    rw [getElem?_pos] at h'
    simp [h c' h']
  · rfl

/-- One iteration of the loop after the scan, without dependent matches. -/
def strStep (d1 : De) (start : Nat) : Res (Bytes × De) :=
  match d1.rest.head? with
  | none => .err
  | some c =>
    if c = 0x22 then
      if d1.buffer.isEmpty then (d1.slice start d1.pos).bind fun borrowed => .ok (borrowed, d1.bump)
      else (d1.slice start d1.pos).bind fun tail => .ok ((d1.extend tail).buffer, (d1.extend tail).bump)
    else if c = 0x5C then
      (d1.slice start d1.pos).bind fun chunk =>
        (d1.extend chunk).bump.parseEscape.bind fun d3 => parseStrLoop d3 d3.pos
    else .err

theorem parseStrLoop_eq (d : De) (start : Nat) : parseStrLoop d start = strStep d.skipPlain start := by
  rw [parseStrLoop]
  generalize d.skipPlain = d1
  unfold strStep
  simp only []
  split <;> rename_i h <;> rw [getElem?_pos] at h <;> simp only [h]
  split
  · rfl
  · split
    · cases d1.slice start d1.pos with
      | ok chunk =>
        simp only [Res.bind_ok']
        split <;> rename_i hh <;> rw [hh] <;> rfl
      | err => rfl
      | panic => rfl
    · rfl

theorem parseStrLoop_plain {d : De} {c : UInt8} {r : Bytes} {start : Nat} (h : d.rest = c :: r)
    (hc : mustEscape c = false) : parseStrLoop d start = parseStrLoop d.bump start := by
  rw [parseStrLoop_eq, parseStrLoop_eq, skipPlain_plain h hc]

theorem parseStrLoop_eof {d : De} {start : Nat} (h : d.rest = []) : parseStrLoop d start = .err := by
  rw [parseStrLoop_eq, skipPlain_stop (by simp [h])]
  simp [strStep, h]

theorem slice_ok {d : De} {start : Nat} (h1 : d.pos < d.input.length) (hs : start ≤ d.pos) :
    d.slice start d.pos = .ok ((d.input.take d.pos).drop start) := by
  unfold slice; rw [if_pos ⟨hs, by omega⟩]

theorem parseStrLoop_quote {d : De} {r : Bytes} {start : Nat} (h : d.rest = 0x22 :: r) (hs : start ≤ d.pos) :
    ∃ d', parseStrLoop d start = .ok (d.buffer ++ (d.input.take d.pos).drop start, d') ∧ Eats d d' [0x22] := by
  obtain ⟨h1, h2, h3, h4⟩ := rest_cons h
  rw [parseStrLoop_eq, skipPlain_stop (by intro c hc; simp [h] at hc; subst hc; rw [mustEscape_iff]; simp)]
  simp only [strStep, h, List.head?_cons, if_true, slice_ok h1 hs, Res.bind_ok']
  split
  · rename_i hb
    have hb : d.buffer = [] := by simpa using hb
    exact ⟨d.bump, by simp [hb], h4⟩
  · exact ⟨_, rfl, ⟨rfl, rfl, h4.rest⟩⟩

theorem parseStrLoop_ctrl {d : De} {c : UInt8} {r : Bytes} {start : Nat} (h : d.rest = c :: r)
    (hc : mustEscape c = true) (h22 : c ≠ 0x22) (h5c : c ≠ 0x5C) : parseStrLoop d start = .err := by
  rw [parseStrLoop_eq, skipPlain_stop (by intro c' hc'; simp [h] at hc'; subst hc'; exact hc)]
  simp [strStep, h, h22, h5c]

theorem parseStrLoop_escape {d : De} {r : Bytes} {start : Nat} (h : d.rest = 0x5C :: r) (hs : start ≤ d.pos) :
    parseStrLoop d start =
      (d.extend ((d.input.take d.pos).drop start)).bump.parseEscape.bind fun d3 => parseStrLoop d3 d3.pos := by
  obtain ⟨h1, h2, h3, h4⟩ := rest_cons h
  rw [parseStrLoop_eq, skipPlain_stop (by intro c hc; simp [h] at hc; subst hc; rw [mustEscape_iff]; simp)]
  simp [strStep, h, slice_ok h1 hs]

theorem take_drop_succ {d : De} {c : UInt8} {r : Bytes} {start : Nat} (h : d.rest = c :: r) (hs : start ≤ d.pos) :
    (d.input.take (d.pos + 1)).drop start = (d.input.take d.pos).drop start ++ [c] := by
  obtain ⟨h1, h2, -, -⟩ := rest_cons h
  have e := (List.getElem?_eq_some_iff.1 h2).2
  rw [List.take_succ_eq_append_getElem h1, List.drop_append, e]
  have : start - (d.input.take d.pos).length = 0 := by simp; omega
  rw [this]; rfl

/-- The loop of `parse_str` succeeds exactly on a string body followed by a quote. -/
theorem parseStrLoop_spec (n : Nat) : ∀ (d : De) (start : Nat), d.rem ≤ n → start ≤ d.pos →
    (parseStrLoop d start = .err ∧ ∀ body s r, d.rest = body ++ 0x22 :: r → ¬ StrBody body s) ∨
    ∃ body s d', parseStrLoop d start = .ok (d.buffer ++ ((d.input.take d.pos).drop start ++ s), d') ∧
      StrBody body s ∧ Eats d d' (body ++ [0x22]) := by
  induction n with
  | zero =>
    intro d start hn hs
    have h : d.rest = [] := List.eq_nil_of_length_eq_zero (by unfold rem at hn; omega)
    left
    refine ⟨parseStrLoop_eof h, ?_⟩
    intro body s r hr
    rw [h] at hr; simp at hr
  | succ n ih =>
    intro d start hn hs
    rcases d.head_cases with h | ⟨c, r0, h⟩
    · left
      refine ⟨parseStrLoop_eof h, ?_⟩
      intro body s r hr
      rw [h] at hr; simp at hr
    obtain ⟨h1, h2, h3, h4⟩ := rest_cons h
    have hrem := h4.rem
    simp at hrem
    by_cases hm : mustEscape c = true
    · by_cases hq : c = 0x22
      · subst hq
        right
        obtain ⟨d', e, te⟩ := parseStrLoop_quote h hs
        exact ⟨[], [], d', by simpa using e, .nil, te⟩
      · by_cases hb : c = 0x5C
        · subst hb
          rw [parseStrLoop_escape h hs]
          have hd2 : Eats d (d.extend ((d.input.take d.pos).drop start)).bump [0x5C] := ⟨rfl, rfl, h4.rest⟩
          have hbuf : (d.extend ((d.input.take d.pos).drop start)).bump.buffer =
            d.buffer ++ (d.input.take d.pos).drop start := rfl
          generalize (d.extend ((d.input.take d.pos).drop start)).bump = d2 at hd2 hbuf
          rcases d2.parseEscape_spec with ⟨e, f⟩ | ⟨t, u, d3, e, hc, t3, b3⟩
          · left
            rw [e]
            refine ⟨rfl, ?_⟩
            intro body s r hr hbody
            rcases hbody.inv with ⟨rfl, -⟩ | ⟨t1, u, ts, us, rfl, rfl, hc, -⟩
            · rw [h] at hr; simp at hr
            · rw [hd2.rest] at hr
              rcases hc.cases_head with ⟨c, rfl, -, -, -, hb⟩ | ⟨t2, rfl⟩
              · simp at hr; exact absurd hr.1.symm hb
              · simp only [List.cons_append, List.nil_append, List.append_assoc, List.cons.injEq, true_and] at hr
                exact f t2 u _ hr hc
          · rw [e]
            have hrem3 := (hd2.trans t3).rem
            have : d3.rem ≤ n := by simp at hrem3; omega
            rcases ih d3 d3.pos this (Nat.le_refl _) with ⟨e4, f4⟩ | ⟨body, s, d', e4, hb4, t4⟩
            · left
              refine ⟨e4, ?_⟩
              intro body s r hr hbody
              rcases hbody.inv with ⟨rfl, -⟩ | ⟨t1, u1, ts, us, rfl, rfl, hc1, hs1⟩
              · rw [h] at hr; simp at hr
              · have : (0x5C :: t) ++ d3.rest = t1 ++ (ts ++ 0x22 :: r) := by
                  rw [← List.append_assoc, ← hr, (hd2.trans t3).rest]; rfl
                obtain ⟨rfl, rfl, e5⟩ := hc.unique hc1 this
                exact f4 ts us r e5 hs1
            · right
              refine ⟨(0x5C :: t) ++ body, u ++ s, d', ?_, .cons hc hb4, ?_⟩
              · rw [Res.bind_ok', e4, b3, hbuf]
                have : (d3.input.take d3.pos).drop d3.pos = [] := by
                  rw [List.drop_eq_nil_iff]; simp; omega
                rw [this]; simp
              · have := (hd2.trans t3).trans t4
                simpa using this
        · left
          refine ⟨parseStrLoop_ctrl h hm hq hb, ?_⟩
          intro body s r hr hbody
          rw [mustEscape_iff] at hm
          have hlt : c < 0x20 := by
            rcases hm with hm | hm | hm
            · exact hm
            · exact absurd hm hq
            · exact absurd hm hb
          rcases hbody.inv with ⟨rfl, -⟩ | ⟨t1, u1, ts, us, rfl, rfl, hc1, hs1⟩
          · rw [h] at hr; simp at hr; exact hq hr.1
          · rw [h] at hr
            rcases hc1.cases_head with ⟨c', rfl, -, hge, -, -⟩ | ⟨t2, rfl⟩
            · simp at hr
              obtain ⟨rfl, -⟩ := hr
              exact absurd hlt (by simpa using hge)
            · simp at hr; exact hb hr.1
    · simp only [Bool.not_eq_true] at hm
      have hraw : StrChar [c] [c] := by
        have : ¬ (c < 0x20 ∨ c = 0x22 ∨ c = 0x5C) := by rw [← mustEscape_iff, hm]; simp
        simp only [not_or] at this
        exact .raw c (by simpa using this.1) this.2.1 this.2.2
      rw [parseStrLoop_plain h hm]
      rcases ih d.bump start (by omega) (by simp; omega) with ⟨e, f⟩ | ⟨body, s, d', e, hb, te⟩
      · left
        refine ⟨e, ?_⟩
        intro body s r hr hbody
        rcases hbody.inv with ⟨rfl, -⟩ | ⟨t1, u1, ts, us, rfl, rfl, hc1, hs1⟩
        · rw [h] at hr; simp at hr
          obtain ⟨rfl, -⟩ := hr
          exact absurd hm (by decide +kernel)
        · have : [c] ++ r0 = t1 ++ (ts ++ 0x22 :: r) := by
            rw [← List.append_assoc, ← hr, h]; rfl
          obtain ⟨rfl, rfl, e5⟩ := hraw.unique hc1 this
          exact f ts us r (by rw [h3, e5]) hs1
      · right
        refine ⟨[c] ++ body, [c] ++ s, d', ?_, .cons hraw hb, ?_⟩
        · rw [e]
          simp only [bump_buffer, bump_input, bump_pos, take_drop_succ h hs]
          simp
        · have := h4.trans te
          simpa using this

/-- `parse_str` succeeds exactly on a string body followed by a quote and returns what it denotes. -/
theorem parseStr_spec (d : De) :
    (d.parseStr = .err ∧ ∀ body s r, d.rest = body ++ 0x22 :: r → ¬ StrBody body s) ∨
    ∃ body s d', d.parseStr = .ok (s, d') ∧ StrBody body s ∧ Eats d d' (body ++ [0x22]) := by
  unfold parseStr
  have h := parseStrLoop_spec d.rem { d with buffer := [] } d.pos (by simp [rem, rest]) (by simp)
  have e : (d.input.take d.pos).drop d.pos = [] := by
    rw [List.drop_eq_nil_iff]; simp; omega
  simp only [e, List.nil_append] at h
  rcases h with ⟨h1, h2⟩ | ⟨body, s, d', h1, h2, h3⟩
  · exact .inl ⟨h1, h2⟩
  · exact .inr ⟨body, s, d', h1, h2, ⟨h3.input, h3.pos, h3.rest⟩⟩

theorem parseStr_complete {d : De} {body s r : Bytes} (h : d.rest = body ++ 0x22 :: r) (hb : StrBody body s) :
    ∃ d', d.parseStr = .ok (s, d') ∧ Eats d d' (body ++ [0x22]) ∧ d'.rest = r := by
  rcases d.parseStr_spec with ⟨-, f⟩ | ⟨body', s', d', e, hb', te⟩
  · exact absurd hb (f body s r h)
  · have := te.rest
    rw [h] at this
    simp only [List.append_assoc, List.cons_append, List.nil_append] at this
    obtain ⟨rfl, rfl, rfl⟩ := hb.unique hb' this
    exact ⟨d', e, te, rfl⟩

end De
end Miniserde
