import Verif.Proof.Complete
import Verif.Spec.Whitespace

/-!
# Whitespace between tokens does not matter, for any input
-/

namespace Miniserde
open De

/-- A token with what may follow it under maximal munch. -/
inductive FTok : Bytes → Event → Bytes → Prop
  | null (r) : FTok (str! "null") .null r
  | true (r) : FTok (str! "true") (.bool true) r
  | false (r) : FTok (str! "false") (.bool false) r
  | num (l : NumLit) (h : l.WF) (ev : Event) (he : numEvent l = .ok ev) (r) (hf : Follow l.frac l.exp r) : FTok l.text ev r
  | str {t s : Bytes} (h : JString t s) (r) : FTok t (.str s) r
  | open_ (r) : FTok [0x5B] .seqStart r
  | brace (r) : FTok [0x7B] .mapStart r

theorem event_follow (d : De) : Bad d d.event ∨
    ∃ w t ev d', d.event = .ok (ev, d') ∧ Ws w ∧ FTok t ev d'.rest ∧ Eats d d' (w ++ t) := by
  obtain ⟨w, d1, hw, ws, tw, -, hn⟩ := parseWhitespace_spec d
  rcases d1.head_cases with h | ⟨c, r, h⟩
  · left; left
    unfold event
    rw [hw, h]; rfl
  obtain ⟨h1, h2, h3, h4⟩ := rest_cons h
  have hev := event_at (c := c) (by rw [hw, h]; rfl) h
  rw [hev]
  clear hev
  have num : ∀ (mn : Bool) (c0 : UInt8) (d2 : De) (pre : Bytes), Eats d d2 (w ++ pre) →
      pre = (if mn then [0x2D, c0] else [c0]) → isDigit c0 = true ∨ parseInteger d2 (!mn) c0 = .err →
      Bad d (parseInteger d2 (!mn) c0) ∨
      ∃ w t ev d', parseInteger d2 (!mn) c0 = .ok (ev, d') ∧ Ws w ∧ FTok t ev d'.rest ∧ Eats d d' (w ++ t) := by
    intro mn c0 d2 pre t2 hpre hdig
    rcases parseInteger_cases d2 (!mn) c0 with ⟨cs, fo, xo, r', e1, a1, a2, a3, a4, a5⟩ | hb
    · obtain ⟨d', t3, e3, e4⟩ := parseInteger_numEvent (mn := mn) e1 a1 a2 a3 a4 a5
      rw [e4]
      have ht : Eats d d' (w ++ (⟨mn, c0 :: cs, fo, xo⟩ : NumLit).text) := by
        have := t2.trans t3
        rw [numLit_text]
        subst hpre
        cases mn <;> simpa using this
      cases hne : numEvent ⟨mn, c0 :: cs, fo, xo⟩ with
      | ok ev =>
        right
        exact ⟨w, _, ev, d', rfl, ws, .num _ (wf_mk a1 a2 a3 a4) ev hne _ (by rw [e3]; exact a5), ht⟩
      | err => left; left; rfl
      | panic =>
        left; right
        have := numEvent_panic hne
        have hr := ht.rem
        simp at hr
        exact ⟨rfl, by omega⟩
    · left; exact hb.mono t2
  split
  · rename_i hc
    subst hc
    rcases d1.bump.parseStr_spec with ⟨e, -⟩ | ⟨body, s, d', e, hb, te⟩
    · left; left; rw [e]; rfl
    · right
      rw [e]
      exact ⟨w, 0x22 :: (body ++ [0x22]), .str s, d', rfl, ws, .str (.mk hb) _, tw.trans (h4.cons te)⟩
  split
  · rename_i hc
    exact num false c d1.bump [c] (tw.trans h4) rfl (.inl hc)
  split
  · rename_i hc
    subst hc
    rcases d1.bump.head_cases with h' | ⟨c0, r0, h'⟩
    · left; left
      rw [nextOrNul_nil h']
      rfl
    · rw [nextOrNul_cons h']
      have := num true c0 d1.bump.bump [0x2D, c0] (tw.trans (h4.cons (rest_cons h').2.2.2)) rfl
      by_cases hd : isDigit c0 = true
      · exact this (.inl hd)
      · refine this (.inr ?_)
        simp only [parseInteger]
        have h0 : c0 ≠ 0x30 := by rintro rfl; exact hd rfl
        rw [if_neg h0, if_neg hd]
  split
  · rename_i hc
    subst hc
    right; exact ⟨w, _, _, _, rfl, ws, .brace _, tw.trans h4⟩
  split
  · rename_i hc
    subst hc
    right; exact ⟨w, _, _, _, rfl, ws, .open_ _, tw.trans h4⟩
  have ident : ∀ (id : Bytes) (ev : Event), (∀ r, FTok (c :: id) ev r) →
      Bad d ((d1.bump.parseIdent id).map fun d => (ev, d)) ∨
      ∃ w t ev' d', (d1.bump.parseIdent id).map (fun d => (ev, d)) = .ok (ev', d') ∧ Ws w ∧ FTok t ev' d'.rest ∧
        Eats d d' (w ++ t) := by
    intro id ev ht
    rcases d1.bump.parseIdent_cases id with h' | ⟨r', h'⟩
    · left; left; rw [h']; rfl
    · obtain ⟨d', e, te, -⟩ := parseIdent_complete h'
      right
      rw [e]
      exact ⟨w, c :: id, ev, d', rfl, ws, ht _, tw.trans (h4.cons te)⟩
  split
  · rename_i hc
    subst hc
    exact ident _ _ .null
  split
  · rename_i hc
    subst hc
    exact ident _ _ .true
  split
  · rename_i hc
    subst hc
    exact ident _ _ .false
  exact .inl (.inl rfl)

/-- A token at the right place is read. -/
theorem event_ftok {d : De} {w t r : Bytes} {ev : Event} (h : d.rest = w ++ (t ++ r)) (hw : Ws w) (ht : FTok t ev r) :
    ∃ d', d'.rest = r ∧ d.event = .ok (ev, d') := by
  cases ht with
  | null => obtain ⟨d', -, a, b⟩ := event_null h hw; exact ⟨d', a, b⟩
  | true => obtain ⟨d', -, a, b⟩ := event_true h hw; exact ⟨d', a, b⟩
  | false => obtain ⟨d', -, a, b⟩ := event_false h hw; exact ⟨d', a, b⟩
  | num l hl ev he _ hf =>
    obtain ⟨d', -, a, b⟩ := event_num h hw hl hf
    exact ⟨d', a, by rw [b, he]; rfl⟩
  | str hs => obtain ⟨d', -, a, b⟩ := event_str h hw hs; exact ⟨d', a, b⟩
  | open_ => obtain ⟨d', -, a, b⟩ := event_open (r := r) (by simpa using h) hw; exact ⟨d', a, b⟩
  | brace => obtain ⟨d', -, a, b⟩ := event_brace (r := r) (by simpa using h) hw; exact ⟨d', a, b⟩

/-! ## Scanning -/

theorem scan_append (s : LexState) (a b : Bytes) : s.scan (a ++ b) = (s.scan a).scan b := by simp [LexState.scan]

theorem scan_out_noquote {a : Bytes} (h : ∀ c ∈ a, c ≠ 0x22) : LexState.scan .out a = .out := by
  induction a with
  | nil => rfl
  | cons c a ih =>
    have : LexState.step .out c = .out := by simp [LexState.step, h c (by simp)]
    simp only [LexState.scan, List.foldl_cons, this]
    exact ih fun c hc => h c (by simp [hc])

theorem ws_noquote {w : Bytes} (h : Ws w) : ∀ c ∈ w, c ≠ 0x22 := by
  rintro c hc rfl
  have := h _ hc
  revert this; decide

theorem hex_not {a : UInt8} {n : Nat} (h : hexDigit? a = some n) : a ≠ 0x22 ∧ a ≠ 0x5C := by
  have : ∀ c : UInt8, (c = 0x22 ∨ c = 0x5C) → hexDigit? c = none := by rintro c (rfl | rfl) <;> decide
  refine ⟨fun e => ?_, fun e => ?_⟩ <;> rw [this a (by simp [e])] at h <;> cases h

theorem scan_str_plain {a : Bytes} (h : ∀ c ∈ a, c ≠ 0x22 ∧ c ≠ 0x5C) : LexState.scan .str a = .str := by
  induction a with
  | nil => rfl
  | cons c a ih =>
    have : LexState.step .str c = .str := by simp [LexState.step, h c (by simp)]
    simp only [LexState.scan, List.foldl_cons, this]
    exact ih fun c hc => h c (by simp [hc])

theorem hex4_plain {h : Bytes} {n : Nat} (hh : Hex4 h n) : ∀ c ∈ h, c ≠ 0x22 ∧ c ≠ 0x5C := by
  obtain ⟨a, b, c, d, w, x, y, z, rfl, h1, h2, h3, h4, -⟩ := hh
  intro e he
  simp at he
  rcases he with rfl | rfl | rfl | rfl
  · exact hex_not h1
  · exact hex_not h2
  · exact hex_not h3
  · exact hex_not h4

theorem scan_esc (c : UInt8) (a : Bytes) : LexState.scan .str (0x5C :: c :: a) = LexState.scan .str a := rfl

/-- A character of a body is read without leaving the literal, and no proper part of it ends outside of it. -/
theorem strChar_scan {t u : Bytes} (h : StrChar t u) :
    LexState.scan .str t = .str ∧ ∀ a b, t = a ++ b → LexState.scan .str a ≠ .out := by
  have two : ∀ c : UInt8, LexState.scan .str [0x5C, c] = .str ∧ ∀ a b, [0x5C, c] = a ++ b → LexState.scan .str a ≠ .out := by
    intro c
    refine ⟨rfl, fun a b e => ?_⟩
    match a, e with
    | [], _ => simp [LexState.scan]
    | [x], e => simp at e; obtain ⟨rfl, -⟩ := e; decide
    | [x, y], e => simp at e; obtain ⟨rfl, rfl, -⟩ := e; show LexState.str ≠ .out; decide
    | x :: y :: z :: _, e => simp at e
  have pre : ∀ (p : Bytes), (∀ c ∈ p, c ≠ 0x22 ∧ c ≠ 0x5C) → ∀ a b, p = a ++ b → LexState.scan .str a ≠ .out := by
    intro p hp a b e
    subst e
    rw [scan_str_plain fun c hc => hp c (by simp [hc])]; decide
  have esc : ∀ (c : UInt8) (p : Bytes), (∀ a b, p = a ++ b → LexState.scan .str a ≠ .out) →
      ∀ a b, 0x5C :: c :: p = a ++ b → LexState.scan .str a ≠ .out := by
    intro c p hp a b e
    match a, e with
    | [], _ => simp [LexState.scan]
    | [x], e => simp at e; obtain ⟨rfl, -⟩ := e; decide
    | x :: y :: z, e =>
      simp at e
      obtain ⟨rfl, rfl, rfl⟩ := e
      rw [scan_esc]
      exact hp z b rfl
  cases h with
  | raw c h hq hb =>
    exact ⟨scan_str_plain (by simpa using ⟨hq, hb⟩), pre _ (by simpa using ⟨hq, hb⟩)⟩
  | unicode h c hh =>
    exact ⟨by rw [scan_esc]; exact scan_str_plain (hex4_plain hh), esc _ _ (pre _ (hex4_plain hh))⟩
  | pair h l hi lo c hh hl =>
    refine ⟨by rw [scan_esc, scan_append, scan_str_plain (hex4_plain hh), scan_esc, scan_str_plain (hex4_plain hl)], esc _ _ ?_⟩
    intro a b e
    rcases List.append_eq_append_iff.1 e with ⟨a', rfl, e2⟩ | ⟨c', rfl, e2⟩
    · rw [scan_append, scan_str_plain (hex4_plain hh)]
      exact esc _ _ (pre _ (hex4_plain hl)) a' b e2
    · exact pre _ (hex4_plain hh) a c' rfl
  | _ => exact two _

theorem strBody_scan_str {body s : Bytes} (h : StrBody body s) : LexState.scan .str body = .str := by
  induction h with
  | nil => rfl
  | cons hc _ ih => rw [scan_append, (strChar_scan hc).1, ih]

/-- A prefix of a literal body that ends outside of the literal contains the whole body and the quote. -/
theorem strBody_scan {body s : Bytes} (h : StrBody body s) {y z r : Bytes} (e : body ++ 0x22 :: r = y ++ z)
    (hy : LexState.scan .str y = .out) : ∃ y', y = body ++ 0x22 :: y' ∧ LexState.scan .out y' = .out := by
  induction h generalizing y with
  | nil =>
    cases y with
    | nil => simp [LexState.scan] at hy
    | cons c y =>
      simp at e
      obtain ⟨rfl, -⟩ := e
      exact ⟨y, rfl, hy⟩
  | cons hc hs ih =>
    rw [List.append_assoc] at e
    rcases List.append_eq_append_iff.1 e with ⟨a', rfl, e2⟩ | ⟨c', rfl, e2⟩
    · rw [scan_append, (strChar_scan hc).1] at hy
      obtain ⟨y', e3, e4⟩ := ih e2 hy
      exact ⟨y', by rw [e3]; simp, e4⟩
    · exact absurd hy ((strChar_scan hc).2 _ _ rfl)

/-! ## Words -/

theorem digit_word {c : UInt8} (h : IsDigit c) : WordByte c := by
  obtain ⟨h1, h2⟩ := h
  refine ⟨?_, ?_⟩
  · rintro (rfl | rfl | rfl | rfl) <;> revert h1 h2 <;> decide
  · rintro (rfl | rfl | rfl | rfl | rfl | rfl | rfl) <;> revert h1 h2 <;> decide

instance : DecidablePred WordByte := fun _ => inferInstanceAs (Decidable (_ ∧ _))

theorem numText_word {l : NumLit} (h : l.WF) : ∀ c ∈ l.text, WordByte c := by
  intro c hc
  unfold NumLit.text at hc
  simp only [List.mem_append] at hc
  rcases hc with ((hc | hc) | hc) | hc
  · cases hm : l.minus <;> simp [hm] at hc
    subst hc; decide
  · exact digit_word (h.int_digits.2 c hc)
  · cases hf : l.frac with
    | none => simp [hf] at hc
    | some ds =>
      simp [hf] at hc
      rcases hc with rfl | hc
      · decide
      · exact digit_word ((h.frac_digits ds hf).2 c hc)
  · cases hx : l.exp with
    | none => simp [hx] at hc
    | some x =>
      simp only [hx, ExpPart.text, List.mem_cons, List.mem_append] at hc
      rcases hc with rfl | hc | hc
      · cases x.upper <;> decide
      · rcases hs : x.sign with _ | _ | _ <;> simp [hs] at hc <;> subst hc <;> decide
      · exact digit_word ((h.exp_digits x hx).2 c hc)

theorem word_tokEnd {c : UInt8} (h : ¬ WordByte c) : isDigit c = false ∧ c ≠ 0x2E ∧ c ≠ 0x65 ∧ c ≠ 0x45 := by
  refine ⟨?_, ?_, ?_, ?_⟩
  · cases hd : isDigit c with
    | false => rfl
    | true =>
      refine absurd (digit_word ?_) h
      simpa [isDigit, IsDigit] using hd
  all_goals rintro rfl; exact h (by decide)

/-- Tokens are words, or start with a structural character. -/
theorem FTok.shape {t : Bytes} {ev : Event} {r : Bytes} (h : FTok t ev r) :
    (t ≠ [] ∧ (∀ c ∈ t, WordByte c) ∧ ∀ r', TokEnd r' → FTok t ev r') ∨
    (∃ body s, t = 0x22 :: (body ++ [0x22]) ∧ StrBody body s ∧ ∀ r', FTok t ev r') ∨
    ((t = [0x5B] ∨ t = [0x7B]) ∧ ∀ r', FTok t ev r') := by
  cases h with
  | null => exact .inl ⟨by simp, by decide, fun r' _ => .null r'⟩
  | true => exact .inl ⟨by simp, by decide, fun r' _ => .true r'⟩
  | false => exact .inl ⟨by simp, by decide, fun r' _ => .false r'⟩
  | num l hl ev he _ hf =>
    exact .inl ⟨(Tok.num l hl ev he).ne_nil, numText_word hl, fun r' h' => .num l hl ev he r' (h'.follow _ _)⟩
  | str hs =>
    cases hs with
    | mk hb => exact .inr (.inl ⟨_, _, rfl, hb, fun r' => .str (.mk hb) r'⟩)
  | open_ => exact .inr (.inr ⟨.inl rfl, fun r' => .open_ r'⟩)
  | brace => exact .inr (.inr ⟨.inr rfl, fun r' => .brace r'⟩)

/-- Only the first byte of what follows a token matters. -/
theorem FTok.congr {t : Bytes} {ev : Event} {r r' : Bytes} (h : FTok t ev r) (e : r.head? = r'.head?) : FTok t ev r' := by
  cases h with
  | null => exact .null _
  | true => exact .true _
  | false => exact .false _
  | num l hl ev he _ hf =>
    refine .num l hl ev he r' ⟨?_, ?_, ?_⟩
    · intro c hc; exact hf.nodigit c (e ▸ hc)
    · intro h c hc; exact hf.noexp h c (e ▸ hc)
    · intro h h2 c hc; exact hf.nodot h h2 c (e ▸ hc)
  | str hs => exact .str hs _
  | open_ => exact .open_ _
  | brace => exact .brace _

/-! ## Inputs that differ in whitespace at one place -/

/-- Remaining inputs with different whitespace at one place between tokens. -/
def Spaced (a b : Bytes) : Prop :=
  ∃ x w₁ w₂ v, a = x ++ (w₁ ++ v) ∧ b = x ++ (w₂ ++ v) ∧ Ws w₁ ∧ Ws w₂ ∧ BetweenTokens x v

theorem Spaced.symm {a b : Bytes} : Spaced a b → Spaced b a := by
  rintro ⟨x, w1, w2, v, h1, h2, h3, h4, h5⟩
  exact ⟨x, w2, w1, v, h2, h1, h4, h3, h5⟩

theorem between_nil (v : Bytes) : BetweenTokens [] v := ⟨rfl, by simp⟩

theorem Spaced.refl (a : Bytes) : Spaced a a := ⟨[], [], [], a, rfl, rfl, ws_nil, ws_nil, between_nil _⟩

theorem isWs_word {c : UInt8} (h : isWs c = true) : ¬ WordByte c := fun hw => hw.1 ((isWs_iff c).1 h)

/-- Going past a part of `x` that leaves the scanner outside. -/
theorem BetweenTokens.tail {p x v : Bytes} (h : BetweenTokens (p ++ x) v) (hp : LexState.scan .out p = .out) :
    BetweenTokens x v := by
  refine ⟨by have := h.1; rwa [scan_append, hp] at this, fun a c ha hc => h.2 a c ?_ hc⟩
  rw [List.getLast?_append, ha]; rfl

/-- Two decompositions into whitespace and something that does not start with whitespace. -/
theorem ws_prefix {w a w1 v : Bytes} (e : w ++ a = w1 ++ v) (hw1 : Ws w1)
    (ha : ∀ c, a.head? = some c → isWs c = false) (hne : a ≠ []) : ∃ v0, w = w1 ++ v0 ∧ v = v0 ++ a := by
  rcases List.append_eq_append_iff.1 e with ⟨a', rfl, e2⟩ | ⟨c', rfl, e2⟩
  · cases a' with
    | nil => simp at e2; exact ⟨[], by simp, by simp [e2]⟩
    | cons c a' =>
      subst e2
      have h1 := ha c rfl
      rw [(isWs_iff c).2 (hw1 c (by simp))] at h1
      cases h1
  · exact ⟨c', rfl, e2⟩

theorem getLast?_some_mem {x : Bytes} (h : x ≠ []) : ∃ a, x.getLast? = some a ∧ a ∈ x := by
  refine ⟨x.getLast h, List.getLast?_eq_some_getLast h, List.getLast_mem h⟩

/-- The main step: a token found in one input is found in the other, and what remains is again related. -/
theorem Spaced.tok {a b w t r : Bytes} {ev : Event} (h : Spaced a b) (e : a = w ++ (t ++ r)) (hw : Ws w) (ht : FTok t ev r) :
    ∃ w' r', b = w' ++ (t ++ r') ∧ Ws w' ∧ FTok t ev r' ∧ Spaced r r' := by
  obtain ⟨x, w1, w2, v, rfl, rfl, hw1, hw2, hb⟩ := h
  have hhead : ∀ c, (t ++ r).head? = some c → isWs c = false := by
    rcases ht.shape with ⟨h1, h2, -⟩ | ⟨body, s, rfl, -, -⟩ | ⟨rfl | rfl, -⟩
    · intro c hc
      cases t with
      | nil => exact absurd rfl h1
      | cons c' t =>
        simp at hc; subst hc
        cases hh : isWs c' with
        | false => rfl
        | true => exact absurd (h2 c' (by simp)) (isWs_word hh)
    all_goals
      intro c hc
      simp at hc; subst hc; rfl
  have hne : t ++ r ≠ [] := by
    rcases ht.shape with ⟨h1, -, -⟩ | ⟨body, s, rfl, -, -⟩ | ⟨rfl | rfl, -⟩ <;> simp_all
  -- the token lies after the place
  have after : ∀ w0, w = x ++ w0 → w1 ++ v = w0 ++ (t ++ r) → ∃ w' r', x ++ (w2 ++ v) = w' ++ (t ++ r') ∧ Ws w' ∧ FTok t ev r' ∧ Spaced r r' := by
    rintro w0 rfl e2
    obtain ⟨v0, rfl, rfl⟩ := ws_prefix e2.symm hw1 hhead hne
    refine ⟨x ++ (w2 ++ v0), r, by simp, ?_, ht, .refl r⟩
    intro c hc
    simp only [List.mem_append] at hc
    rcases hc with hc | hc | hc
    · exact hw c (by simp [hc])
    · exact hw2 c hc
    · exact hw c (by simp [hc])
  rcases List.append_eq_append_iff.1 e.symm with ⟨x', rfl, e2⟩ | ⟨w0, rfl, e2⟩
  · -- x = w ++ x'
    by_cases hx' : x' = []
    · subst hx'
      exact after [] (by simp) (by simpa using e2.symm)
    have hb' := hb.tail (scan_out_noquote (ws_noquote hw))
    -- the token is inside x'
    have inside : ∃ x'', x' = t ++ x'' ∧ LexState.scan .out t = .out := by
      rcases ht.shape with ⟨h1, h2, -⟩ | ⟨body, s, rfl, hs, -⟩ | ⟨hc, -⟩
      · rcases List.append_eq_append_iff.1 e2 with ⟨x'', rfl, -⟩ | ⟨t', rfl, e4⟩
        · exact ⟨x'', rfl, scan_out_noquote fun c hc hq => (h2 c hc).2 (by simp [hq])⟩
        · cases t' with
          | nil => exact ⟨[], by simp, scan_out_noquote fun c hc hq => (h2 c hc).2 (by simp [hq])⟩
          | cons c t' =>
            exfalso
            have hcw : WordByte c := h2 c (by simp)
            have hv : v.head? = some c := by
              cases w1 with
              | nil => simp at e4; rw [e4]; rfl
              | cons c' w1 =>
                simp at e4
                obtain ⟨rfl, -⟩ := e4
                exact absurd hcw (isWs_word ((isWs_iff _).2 (hw1 _ (by simp))))
            obtain ⟨y, hy, hym⟩ := getLast?_some_mem hx'
            exact hb'.2 y c hy hv ⟨h2 y (by simp [hym]), hcw⟩
      · cases x' with
        | nil => exact absurd rfl hx'
        | cons q x' =>
          simp only [List.cons_append, List.append_assoc, List.nil_append] at e2
          simp only [List.cons.injEq] at e2
          obtain ⟨rfl, e3⟩ := e2
          have hsc : LexState.scan .str x' = .out := hb'.1
          obtain ⟨y', rfl, hy'⟩ := strBody_scan hs e3 hsc
          refine ⟨y', by simp, ?_⟩
          show LexState.scan .str (body ++ [0x22]) = .out
          rw [scan_append, strBody_scan_str hs]; rfl
      · cases x' with
        | nil => exact absurd rfl hx'
        | cons q x' =>
          rcases hc with rfl | rfl
          all_goals
            simp only [List.cons_append, List.nil_append, List.cons.injEq] at e2
            obtain ⟨rfl, -⟩ := e2
            exact ⟨x', rfl, by decide⟩
    obtain ⟨x'', rfl, hsc⟩ := inside
    rw [List.append_assoc] at e2
    have e3 := List.append_cancel_left e2
    subst e3
    refine ⟨w, x'' ++ (w2 ++ v), by simp, hw, ?_, ⟨x'', w1, w2, v, rfl, rfl, hw1, hw2, hb'.tail hsc⟩⟩
    cases x'' with
    | cons c x'' => exact ht.congr rfl
    | nil =>
      simp only [List.append_nil, List.nil_append] at hb' ht ⊢
      rcases ht.shape with ⟨h1, h2, h3⟩ | ⟨body, s, rfl, -, h3⟩ | ⟨-, h3⟩
      · refine h3 _ (tokEnd_ws hw2 ?_)
        intro c hc
        obtain ⟨y, hy, hym⟩ := getLast?_some_mem h1
        exact word_tokEnd fun hcw => hb'.2 y c hy hc ⟨h2 y hym, hcw⟩
      · exact h3 _
      · exact h3 _
  · exact after w0 rfl e2

/-- Skipping whitespace in related inputs. -/
theorem Spaced.skip {a b w a' : Bytes} (h : Spaced a b) (e : a = w ++ a') (hw : Ws w) (ha : ∀ c, a'.head? = some c → isWs c = false) :
    ∃ w' b', b = w' ++ b' ∧ Ws w' ∧ b'.head? = a'.head? ∧ Spaced a' b' ∧
      ∀ c a'', a' = c :: a'' → c ≠ 0x22 → ∃ b'', b' = c :: b'' ∧ Spaced a'' b'' := by
  obtain ⟨x, w1, w2, v, rfl, rfl, hw1, hw2, hb⟩ := h
  have same : ∀ w', x ++ (w2 ++ v) = w' ++ a' → Ws w' → ∃ w' b', x ++ (w2 ++ v) = w' ++ b' ∧ Ws w' ∧ b'.head? = a'.head? ∧ Spaced a' b' ∧
      ∀ c a'', a' = c :: a'' → c ≠ 0x22 → ∃ b'', b' = c :: b'' ∧ Spaced a'' b'' :=
    fun w' e hw' => ⟨w', a', e, hw', rfl, .refl _, fun c a'' e2 _ => ⟨a'', e2, .refl _⟩⟩
  have after : ∀ w0, w = x ++ w0 → w1 ++ v = w0 ++ a' → ∃ w' b', x ++ (w2 ++ v) = w' ++ b' ∧ Ws w' ∧ b'.head? = a'.head? ∧ Spaced a' b' ∧
      ∀ c a'', a' = c :: a'' → c ≠ 0x22 → ∃ b'', b' = c :: b'' ∧ Spaced a'' b'' := by
    rintro w0 rfl e2
    by_cases hne : a' = []
    · subst hne
      have hv : Ws v := by
        intro c hc
        have : c ∈ w0 ++ [] := by rw [← e2]; simp [hc]
        simp at this
        exact hw c (by simp [this])
      refine same (x ++ (w2 ++ v)) (by simp) ?_
      intro c hc
      simp only [List.mem_append] at hc
      rcases hc with hc | hc | hc
      · exact hw c (by simp [hc])
      · exact hw2 c hc
      · exact hv c hc
    · obtain ⟨v0, rfl, rfl⟩ := ws_prefix e2.symm hw1 ha hne
      refine same (x ++ (w2 ++ v0)) (by simp) ?_
      intro c hc
      simp only [List.mem_append] at hc
      rcases hc with hc | hc | hc
      · exact hw c (by simp [hc])
      · exact hw2 c hc
      · exact hw c (by simp [hc])
  rcases List.append_eq_append_iff.1 e.symm with ⟨x', rfl, e2⟩ | ⟨w0, rfl, e2⟩
  · cases x' with
    | nil => exact after [] (by simp) (by simpa using e2.symm)
    | cons c x' =>
      have hb' := hb.tail (scan_out_noquote (ws_noquote hw))
      subst e2
      refine ⟨w, c :: x' ++ (w2 ++ v), by simp, hw, rfl, ⟨_, w1, w2, v, rfl, rfl, hw1, hw2, hb'⟩, ?_⟩
      intro c' a'' e3 hq
      simp only [List.cons_append, List.cons.injEq] at e3
      obtain ⟨rfl, rfl⟩ := e3
      exact ⟨_, rfl, ⟨x', w1, w2, v, rfl, rfl, hw1, hw2, hb'.tail (p := [c]) (scan_out_noquote (by simpa using hq))⟩⟩
  · exact after w0 rfl e2

/-! ## The simulation -/

/-- Related tokenizer states: related unread inputs, short enough for the counters. -/
structure Sim (d₁ d₂ : De) : Prop where
  spaced : Spaced d₁.rest d₂.rest
  len₁ : d₁.rem < 2147483648
  len₂ : d₂.rem < 2147483648

theorem Sim.symm {d₁ d₂ : De} (h : Sim d₁ d₂) : Sim d₂ d₁ := ⟨h.spaced.symm, h.len₂, h.len₁⟩

theorem Sim.event_ok {d₁ d₂ d₁' : De} {ev : Event} (h : Sim d₁ d₂) (he : d₁.event = .ok (ev, d₁')) :
    ∃ d₂', d₂.event = .ok (ev, d₂') ∧ Sim d₁' d₂' := by
  rcases event_follow d₁ with hb | ⟨w, t, ev', d', h', hw, ht, te⟩
  · rw [he] at hb; exact hb.not_ok.elim
  · rw [he] at h'
    simp only [Res.ok.injEq, Prod.mk.injEq] at h'
    obtain ⟨rfl, rfl⟩ := h'
    obtain ⟨w', r', e1, e2, e3, e4⟩ := h.spaced.tok (by rw [te.rest]; simp) hw ht
    obtain ⟨d₂', e5, e6⟩ := event_ftok e1 e2 e3
    refine ⟨d₂', e6, by rw [e5]; exact e4, ?_, ?_⟩
    · have := te.rem; have := h.len₁; omega
    · have := event_rem e6; have := h.len₂; omega

theorem Sim.event_bad {d₁ d₂ : De} (h : Sim d₁ d₂) (he : ∀ p, d₁.event ≠ .ok p) : d₁.event = .err ∧ d₂.event = .err := by
  have bad : ∀ d : De, d.rem < 2147483648 → (∀ p, d.event ≠ .ok p) → d.event = .err := by
    intro d hd hp
    rcases d.event_spec with (hb | ⟨-, hb⟩) | ⟨w, t, ev, d', h', -⟩
    · exact hb
    · omega
    · exact absurd h' (hp _)
  refine ⟨bad d₁ h.len₁ he, bad d₂ h.len₂ ?_⟩
  rintro ⟨ev, d'⟩ h'
  obtain ⟨d₁', e, -⟩ := h.symm.event_ok h'
  exact he _ e

/-- Whitespace skipping in related states. -/
theorem Sim.ws {d₁ d₂ : De} (h : Sim d₁ d₂) : ∃ c e₁ e₂, d₁.parseWhitespace = (c, e₁) ∧ d₂.parseWhitespace = (c, e₂) ∧ Sim e₁ e₂ ∧
    e₁.rest.head? = c ∧ ∀ x, c = some x → x ≠ 0x22 → Sim e₁.bump e₂.bump := by
  obtain ⟨w, d', h1, h2, h3, -, h5⟩ := parseWhitespace_spec d₁
  obtain ⟨w', b', e1, e2, e3, e4, e5⟩ := h.spaced.skip h3.rest h2 h5
  obtain ⟨d'', f1, f2, f3⟩ := parseWhitespace_complete e1 e2 (by rw [e3]; exact h5)
  have l1 := h3.rem
  have l2 := f2.rem
  have := h.len₁
  have := h.len₂
  refine ⟨d'.rest.head?, d', d'', h1, by rw [f1, e3], ⟨by rw [f3]; exact e4, by omega, by omega⟩, rfl, ?_⟩
  intro x hx hq
  rcases d'.head_cases with hh | ⟨c, r, hh⟩
  · rw [hh] at hx; cases hx
  · rw [hh] at hx; simp at hx; subst hx
    obtain ⟨b'', g1, g2⟩ := e5 c r hh hq
    have hr1 := rest_cons hh
    have hr2 := rest_cons (d := d'') (c := c) (r := b'') (by rw [f3, g1])
    have l3 := hr1.2.2.2.rem
    have l4 := hr2.2.2.2.rem
    exact ⟨by rw [hr1.2.2.1, hr2.2.2.1]; exact g2, by omega, by omega⟩

/-- Reading a string literal in related states (just before the quote). -/
theorem Sim.str {d₁ d₂ : De} (h : Sim d₁ d₂) (hq : d₁.rest.head? = some 0x22) (hq2 : d₂.rest.head? = some 0x22) :
    (d₁.bump.parseStr = .err ∧ d₂.bump.parseStr = .err) ∨
    ∃ s e₁ e₂, d₁.bump.parseStr = .ok (s, e₁) ∧ d₂.bump.parseStr = .ok (s, e₂) ∧ Sim e₁ e₂ := by
  have one : ∀ {d₁ d₂ : De}, Sim d₁ d₂ → d₁.rest.head? = some 0x22 → d₂.rest.head? = some 0x22 → ∀ {s e₁}, d₁.bump.parseStr = .ok (s, e₁) →
      ∃ e₂, d₂.bump.parseStr = .ok (s, e₂) ∧ Sim e₁ e₂ := by
    intro d₁ d₂ h hq hq2 s e₁ he
    obtain ⟨r1, h1⟩ : ∃ r, d₁.rest = 0x22 :: r := by
      rcases d₁.head_cases with hh | ⟨c, r, hh⟩ <;> rw [hh] at hq <;> simp at hq
      exact ⟨r, by rw [hh, hq]⟩
    obtain ⟨r2, h2⟩ : ∃ r, d₂.rest = 0x22 :: r := by
      rcases d₂.head_cases with hh | ⟨c, r, hh⟩ <;> rw [hh] at hq2 <;> simp at hq2
      exact ⟨r, by rw [hh, hq2]⟩
    rcases d₁.bump.parseStr_spec with ⟨e, -⟩ | ⟨body, s', d', e, hb, te⟩
    · rw [he] at e; cases e
    · rw [he] at e
      simp only [Res.ok.injEq, Prod.mk.injEq] at e
      obtain ⟨rfl, rfl⟩ := e
      have te' := (rest_cons h1).2.2.2.cons te
      have ht : FTok (0x22 :: (body ++ [0x22])) (.str s) e₁.rest := .str (.mk hb) _
      obtain ⟨w', r', f1, f2, -, f4⟩ := h.spaced.tok (w := []) (by rw [te'.rest]; simp) ws_nil ht
      have hw' : w' = [] := by
        cases w' with
        | nil => rfl
        | cons c w' =>
          rw [h2] at f1
          simp at f1
          obtain ⟨rfl, -⟩ := f1
          exact absurd (f2 0x22 (by simp)) (by decide)
      subst hw'
      rw [h2] at f1
      simp only [List.nil_append, List.cons_append, List.append_assoc, List.cons.injEq, true_and] at f1
      obtain ⟨d', g1, g2, g3⟩ := parseStr_complete (d := d₂.bump) (by rw [(rest_cons h2).2.2.1, f1]) hb
      refine ⟨d', g1, by rw [g3]; exact f4, ?_, ?_⟩
      · have := te'.rem; have := h.len₁; omega
      · have := (rest_cons h2).2.2.2.rem; have := g2.rem; have := h.len₂; omega
  rcases d₁.bump.parseStr_spec with ⟨e, -⟩ | ⟨body, s', d', e, hb, te⟩
  · rcases d₂.bump.parseStr_spec with ⟨e', -⟩ | ⟨body, s', d', e', hb, te⟩
    · exact .inl ⟨e, e'⟩
    · obtain ⟨e₂, h3, -⟩ := one h.symm hq2 hq e'
      rw [e] at h3; cases h3
  · obtain ⟨e₂, h3, h4⟩ := one h hq hq2 e
    exact .inr ⟨_, _, _, e, h3, h4⟩

/-- Separator steps agree. -/
theorem Sim.sep {d₁ d₂ : De} (h : Sim d₁ d₂) (close : UInt8) (ac : Bool) :
    (sepStep close ac d₁ = .stop ∧ sepStep close ac d₂ = .stop) ∨
    (∃ e₁ e₂, sepStep close ac d₁ = .close e₁ ∧ sepStep close ac d₂ = .close e₂ ∧ Sim e₁ e₂) ∨
    (∃ e₁ e₂, sepStep close ac d₁ = .child e₁ ∧ sepStep close ac d₂ = .child e₂ ∧ Sim e₁ e₂) := by
  obtain ⟨c, e₁, e₂, h1, h2, h3, -, h4⟩ := h.ws
  have b : ∀ x : UInt8, c.getD 0 = x → x ≠ 0 → x ≠ 0x22 → Sim e₁.bump e₂.bump := by
    intro x hx h0 hq
    cases c with
    | none => simp at hx; exact absurd hx.symm h0
    | some y => simp at hx; subst hx; exact h4 y rfl hq
  unfold sepStep
  rw [h1, h2]
  simp only
  split
  · rename_i hc
    exact .inr (.inr ⟨_, _, rfl, rfl, b _ hc.1 (by decide) (by decide)⟩)
  · split
    · rename_i hc
      split
      · refine .inr (.inl ⟨_, _, rfl, rfl, ?_⟩)
        rcases hc with hc | hc
        · exact b _ hc (by decide) (by decide)
        · exact b _ hc (by decide) (by decide)
      · exact .inl ⟨rfl, rfl⟩
    · split
      · exact .inl ⟨rfl, rfl⟩
      · exact .inr (.inr ⟨_, _, rfl, rfl, h3⟩)

/-- Key steps agree. -/
theorem Sim.key {d₁ d₂ : De} (h : Sim d₁ d₂) :
    (keyStep d₁ = .stop false ∧ keyStep d₂ = .stop false) ∨
    (∃ k, keyStep d₁ = .noColon k ∧ keyStep d₂ = .noColon k) ∨
    (∃ k e₁ e₂, keyStep d₁ = .key k e₁ ∧ keyStep d₂ = .key k e₂ ∧ Sim e₁ e₂) := by
  obtain ⟨c, e₁, e₂, h1, h2, h3, h4, -⟩ := h.ws
  have h5 : e₂.rest.head? = c := by
    obtain ⟨w, d', f1, -⟩ := parseWhitespace_spec d₂
    rw [h2] at f1
    simp only [Prod.mk.injEq] at f1
    rw [f1.1, f1.2]
  unfold keyStep
  rw [h1, h2]
  simp only
  split
  · rename_i hc
    subst hc
    rcases h3.str h4 h5 with ⟨g1, g2⟩ | ⟨s, f₁, f₂, g1, g2, g3⟩
    · rw [g1, g2]; exact .inl ⟨rfl, rfl⟩
    · rw [g1, g2]
      simp only
      obtain ⟨c', i₁, i₂, j1, j2, -, -, j4⟩ := g3.ws
      rw [j1, j2]
      simp only
      split
      · rename_i hc
        exact .inr (.inr ⟨_, _, _, rfl, rfl, j4 _ hc (by decide)⟩)
      · exact .inr (.inl ⟨_, rfl, rfl⟩)
  · exact .inl ⟨rfl, rfl⟩

/-- Both ended, at related states, or both stopped. -/
def SimO : Option De → Option De → Prop
  | none, none => True
  | some d₁, some d₂ => Sim d₁ d₂
  | _, _ => False

mutual

theorem PVal.spaced : ∀ {d t o} (_ : PVal d t o) {d₂ : De}, Sim d d₂ → ∃ o₂, PVal d₂ t o₂ ∧ SimO o o₂
  | _, _, _, .err he, d₂, h => ⟨none, .err (h.event_bad (by intro p hp; rw [he] at hp; cases hp)).2, trivial⟩
  | _, _, _, .panic he, d₂, h => by
    have := (h.event_bad (by intro p hp; rw [he] at hp; cases hp)).1
    rw [he] at this; cases this
  | _, _, _, .leaf he hl, d₂, h => by
    obtain ⟨d₂', h1, h2⟩ := h.event_ok he
    exact ⟨some d₂', .leaf h1 hl, h2⟩
  | _, _, _, .seq he hs, d₂, h => by
    obtain ⟨d₂', h1, h2⟩ := h.event_ok he
    obtain ⟨o₂, h3, h4⟩ := hs.spaced h2
    exact ⟨o₂, .seq h1 h3, h4⟩
  | _, _, _, .map he hs, d₂, h => by
    obtain ⟨d₂', h1, h2⟩ := h.event_ok he
    obtain ⟨o₂, h3, h4⟩ := hs.spaced h2
    exact ⟨o₂, .map h1 h3, h4⟩

theorem PElems.spaced : ∀ {ac d xs e o} (_ : PElems ac d xs e o) {d₂ : De}, Sim d d₂ → ∃ o₂, PElems ac d₂ xs e o₂ ∧ SimO o o₂
  | ac, _, _, _, _, .close hs, d₂, h => by
    rcases h.sep 0x5D ac with ⟨h1, h2⟩ | ⟨e₁, e₂, h1, h2, h3⟩ | ⟨e₁, e₂, h1, h2, h3⟩ <;> rw [hs] at h1 <;> cases h1
    exact ⟨some e₂, .close h2, h3⟩
  | ac, _, _, _, _, .stop hs, d₂, h => by
    rcases h.sep 0x5D ac with ⟨h1, h2⟩ | ⟨e₁, e₂, h1, h2, h3⟩ | ⟨e₁, e₂, h1, h2, h3⟩ <;> rw [hs] at h1 <;> cases h1
    exact ⟨none, .stop h2, trivial⟩
  | ac, _, _, _, _, .child hs hx hr, d₂, h => by
    rcases h.sep 0x5D ac with ⟨h1, h2⟩ | ⟨e₁, e₂, h1, h2, h3⟩ | ⟨e₁, e₂, h1, h2, h3⟩ <;> rw [hs] at h1 <;> cases h1
    obtain ⟨o₂, h4, h5⟩ := hx.spaced h3
    cases o₂ with
    | none => exact h5.elim
    | some d3 =>
      obtain ⟨o₂, h6, h7⟩ := hr.spaced h5
      exact ⟨o₂, .child h2 h4 h6, h7⟩
  | ac, _, _, _, _, .last hs hx, d₂, h => by
    rcases h.sep 0x5D ac with ⟨h1, h2⟩ | ⟨e₁, e₂, h1, h2, h3⟩ | ⟨e₁, e₂, h1, h2, h3⟩ <;> rw [hs] at h1 <;> cases h1
    obtain ⟨o₂, h4, h5⟩ := hx.spaced h3
    cases o₂ with
    | none => exact ⟨none, .last h2 h4, trivial⟩
    | some d3 => exact h5.elim

theorem PMembers.spaced : ∀ {ac d xs e o} (_ : PMembers ac d xs e o) {d₂ : De}, Sim d d₂ →
    ∃ o₂, PMembers ac d₂ xs e o₂ ∧ SimO o o₂
  | ac, _, _, _, _, .close hs, d₂, h => by
    rcases h.sep 0x7D ac with ⟨h1, h2⟩ | ⟨e₁, e₂, h1, h2, h3⟩ | ⟨e₁, e₂, h1, h2, h3⟩ <;> rw [hs] at h1 <;> cases h1
    exact ⟨some e₂, .close h2, h3⟩
  | ac, _, _, _, _, .stop hs, d₂, h => by
    rcases h.sep 0x7D ac with ⟨h1, h2⟩ | ⟨e₁, e₂, h1, h2, h3⟩ | ⟨e₁, e₂, h1, h2, h3⟩ <;> rw [hs] at h1 <;> cases h1
    exact ⟨none, .stop h2, trivial⟩
  | ac, _, _, _, _, .keyStop hs hk, d₂, h => by
    rcases h.sep 0x7D ac with ⟨h1, h2⟩ | ⟨e₁, e₂, h1, h2, h3⟩ | ⟨e₁, e₂, h1, h2, h3⟩ <;> rw [hs] at h1 <;> cases h1
    rcases h3.key with ⟨k1, k2⟩ | ⟨k, k1, k2⟩ | ⟨k, f₁, f₂, k1, k2, k3⟩ <;> rw [hk] at k1 <;> cases k1
    exact ⟨none, .keyStop h2 k2, trivial⟩
  | ac, _, _, _, _, .noColon hs hk, d₂, h => by
    rcases h.sep 0x7D ac with ⟨h1, h2⟩ | ⟨e₁, e₂, h1, h2, h3⟩ | ⟨e₁, e₂, h1, h2, h3⟩ <;> rw [hs] at h1 <;> cases h1
    rcases h3.key with ⟨k1, k2⟩ | ⟨k, k1, k2⟩ | ⟨k, f₁, f₂, k1, k2, k3⟩ <;> rw [hk] at k1 <;> cases k1
    exact ⟨none, .noColon h2 k2, trivial⟩
  | ac, _, _, _, _, .child hs hk hx hr, d₂, h => by
    rcases h.sep 0x7D ac with ⟨h1, h2⟩ | ⟨e₁, e₂, h1, h2, h3⟩ | ⟨e₁, e₂, h1, h2, h3⟩ <;> rw [hs] at h1 <;> cases h1
    rcases h3.key with ⟨k1, k2⟩ | ⟨k, k1, k2⟩ | ⟨k, f₁, f₂, k1, k2, k3⟩ <;> rw [hk] at k1 <;> cases k1
    obtain ⟨o₂, h4, h5⟩ := hx.spaced k3
    cases o₂ with
    | none => exact h5.elim
    | some d3 =>
      obtain ⟨o₂, h6, h7⟩ := hr.spaced h5
      exact ⟨o₂, .child h2 k2 h4 h6, h7⟩
  | ac, _, _, _, _, .last hs hk hx, d₂, h => by
    rcases h.sep 0x7D ac with ⟨h1, h2⟩ | ⟨e₁, e₂, h1, h2, h3⟩ | ⟨e₁, e₂, h1, h2, h3⟩ <;> rw [hs] at h1 <;> cases h1
    rcases h3.key with ⟨k1, k2⟩ | ⟨k, k1, k2⟩ | ⟨k, f₁, f₂, k1, k2, k3⟩ <;> rw [hk] at k1 <;> cases k1
    obtain ⟨o₂, h4, h5⟩ := hx.spaced k3
    cases o₂ with
    | none => exact ⟨none, .last h2 k2 h4, trivial⟩
    | some d3 => exact h5.elim

end

theorem Sim.trailing {d₁ d₂ : De} (h : Sim d₁ d₂) : trailing d₁ = trailing d₂ := by
  obtain ⟨c, e₁, e₂, h1, h2, -⟩ := h.ws
  unfold Miniserde.trailing
  rw [h1, h2]

theorem fromStrImpl_spaced {σ : Type} (P : Proto σ) (v : P.V) (w : σ) {a b : Bytes} (h : Spaced a b)
    (ha : a.length < 2147483648) (hb : b.length < 2147483648) : fromStrImpl P a v w = fromStrImpl P b v w := by
  obtain ⟨t, o, p⟩ := (parse_total (initDe a).rem).1 (initDe a) (Nat.le_refl _)
  have hs : Sim (initDe a) (initDe b) := ⟨by simpa using h, by rw [initDe_rem]; exact ha, by rw [initDe_rem]; exact hb⟩
  obtain ⟨o₂, p₂, ho⟩ := p.spaced hs
  unfold fromStrImpl
  rw [fromStrImpl_eq P p _ (Nat.lt_succ_self _), fromStrImpl_eq P p₂ _ (Nat.lt_succ_self _)]
  cases o with
  | none => cases o₂ with
    | none => rfl
    | some d => exact ho.elim
  | some d₁ => cases o₂ with
    | none => exact ho.elim
    | some d₂ =>
      rcases drivePT P v t w with ⟨r, w'⟩
      cases r <;> simp only [outcome]
      rw [Sim.trailing ho]

end Miniserde
