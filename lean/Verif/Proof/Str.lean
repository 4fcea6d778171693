import Verif.Proof.Zip

/-!
# String literals: `parse_str` decodes exactly the RFC 8259 string bodies
-/

namespace Miniserde

/-- Lift a check over all 256 bytes. -/
theorem forall_byte {p : UInt8 → Prop} (h : ∀ n : Fin 256, p (UInt8.ofNat n.val)) (c : UInt8) : p c := by
  have := h ⟨c.toNat, c.toNat_lt⟩
  simpa using this

/-- Not by `rfl`, so that the kernel does not unfold the continuation. -/
theorem Res.bind_okp {α β : Type} (a : α) (f : α → Res β) : (Res.ok a).bind f = f a := by
  generalize hb : f a = b
  rw [← hb]
  simp

theorem mustEscape_iff (c : UInt8) : mustEscape c = true ↔ c < 0x20 ∨ c = 0x22 ∨ c = 0x5C := by
  revert c
  refine forall_byte (p := fun c => mustEscape c = true ↔ c < 0x20 ∨ c = 0x22 ∨ c = 0x5C) ?_
  decide +kernel

theorem hexVal_eq (c : UInt8) : De.hexVal c = hexDigit? c := by
  revert c
  refine forall_byte (p := fun c => De.hexVal c = hexDigit? c) ?_
  decide +kernel

theorem hexDigit?_lt {c : UInt8} {v : Nat} (h : hexDigit? c = some v) : v < 16 := by
  revert c
  have : ∀ c : UInt8, ∀ v, hexDigit? c = some v → v < 16 := by
    refine forall_byte (p := fun c => ∀ v, hexDigit? c = some v → v < 16) ?_
    have h : ∀ n : Fin 256, (match hexDigit? (UInt8.ofNat n.val) with | some v => decide (v < 16) | none => true) = true := by
      decide +kernel
    intro n v hv
    have := h n
    rw [hv] at this; simpa using this
  intro c; exact this c v

theorem encodeUtf8_eq (c : Char) : encodeUtf8 c.toNat = utf8Of c := by
  have hc : c.toNat < 0x110000 := by
    have := c.valid
    simp [UInt32.isValidChar, Nat.isValidChar] at this
    have e : c.toNat = c.val.toNat := rfl
    omega
  unfold encodeUtf8 utf8Of String.utf8EncodeChar
  have e : c.val.toNat = c.toNat := rfl
  simp only [e]
  generalize c.toNat = v at hc
  by_cases h1 : v < 0x80
  · rw [if_pos h1, if_pos (by omega)]
  rw [if_neg h1, if_neg (by omega : ¬ v ≤ 0x7f)]
  by_cases h2 : v < 0x800
  · rw [if_pos h2, if_pos (by omega)]
    rw [Nat.mod_eq_of_lt (a := v / 64) (b := 32) (by omega), Nat.add_comm (v / 64), Nat.add_comm (v % 64)]
  rw [if_neg h2, if_neg (by omega : ¬ v ≤ 0x7ff)]
  by_cases h3 : v < 0x10000
  · rw [if_pos h3, if_pos (by omega)]
    rw [Nat.mod_eq_of_lt (a := v / 4096) (b := 16) (by omega), Nat.add_comm (v / 4096), Nat.add_comm (v % 64),
      Nat.add_comm (v / 64 % 64)]
  rw [if_neg h3, if_neg (by omega : ¬ v ≤ 0xffff)]
  rw [Nat.mod_eq_of_lt (a := v / 262144) (b := 8) (by omega), Nat.add_comm (v / 262144), Nat.add_comm (v % 64),
    Nat.add_comm (v / 64 % 64), Nat.add_comm (v / 4096 % 64)]

theorem toNat_ofNat {n : Nat} (h : n.isValidChar) : (Char.ofNat n).toNat = n := by
  simp [Char.ofNat, h, Char.toNat, Char.ofNatAux]

/-- The Rust `char` test accepts exactly the Unicode scalar values. -/
theorem charFromU32_some {n m : Nat} : charFromU32 n = some m ↔ m = n ∧ ∃ c : Char, c.toNat = n := by
  unfold charFromU32
  split
  · rename_i h
    constructor
    · intro e
      simp at e
      have hv : n.isValidChar := by
        unfold Nat.isValidChar; omega
      refine ⟨e.symm, Char.ofNat n, ?_⟩
      exact toNat_ofNat hv
    · rintro ⟨rfl, -⟩; rfl
  · rename_i h
    constructor
    · intro e; cases e
    · rintro ⟨-, c, rfl⟩
      exfalso
      have := c.valid
      simp [UInt32.isValidChar, Nat.isValidChar] at this
      have e : c.toNat = c.val.toNat := rfl
      omega

theorem surrogatePair_eq {hi lo : Nat} (hl : lo < 1024) : De.surrogatePair hi lo = 0x10000 + hi * 0x400 + lo := by
  unfold De.surrogatePair
  rw [← Nat.shiftLeft_add_eq_or_of_lt (by simpa using hl)]
  rw [Nat.shiftLeft_eq]; omega

namespace De

theorem hexLoop_succ_cons {d : De} {c : UInt8} {r : Bytes} {k n : Nat} (h : d.rest = c :: r) :
    hexLoop (k + 1) d n = match hexDigit? c with
      | some v => (u16 (n * 16 + v)).bind fun n => hexLoop k d.bump n
      | none => .err := by
  simp only [hexLoop, nextOrEof_cons h, Res.bind_ok', hexVal_eq]
  cases hexDigit? c <;> rfl

theorem hexLoop_succ_nil {d : De} {k n : Nat} (h : d.rest = []) : hexLoop (k + 1) d n = .err := by
  simp [hexLoop, nextOrEof_nil h]

theorem hexLoop_step {d : De} {k n : Nat} (hn : n * 16 + 15 < 65536) :
    (hexLoop (k + 1) d n = .err ∧ ∀ a, d.rest.head? = some a → hexDigit? a = none) ∨
    ∃ a w, hexDigit? a = some w ∧ d.rest = a :: d.bump.rest ∧ Eats d d.bump [a] ∧
      hexLoop (k + 1) d n = hexLoop k d.bump (n * 16 + w) := by
  rcases d.head_cases with h | ⟨c, r, h⟩
  · left; exact ⟨hexLoop_succ_nil h, by simp [h]⟩
  · obtain ⟨-, -, h3, h4⟩ := rest_cons h
    cases hw : hexDigit? c with
    | none => left; exact ⟨by rw [hexLoop_succ_cons h, hw], by simp [h, hw]⟩
    | some w =>
      right
      have := hexDigit?_lt hw
      refine ⟨c, w, hw, by rw [h3, h], h4, ?_⟩
      rw [hexLoop_succ_cons h, hw]
      simp only [u16]
      rw [if_pos (by omega)]; rfl

/-- Four hexadecimal digits are read, or the input does not start with four hexadecimal digits. -/
theorem decodeHexEscape_spec (d : De) :
    (d.decodeHexEscape = .err ∧ ∀ h n r, d.rest = h ++ r → ¬ Hex4 h n) ∨
    ∃ h n d', d.decodeHexEscape = .ok (n, d') ∧ Hex4 h n ∧ n < 65536 ∧ Eats d d' h ∧ d'.buffer = d.buffer := by
  unfold decodeHexEscape
  rcases d.hexLoop_step (k := 3) (n := 0) (by omega) with ⟨e1, f1⟩ | ⟨a, w, ha, r1, t1, e1⟩
  · left
    refine ⟨e1, ?_⟩
    rintro h n r hr ⟨a, b, c, e, w, x, y, z, rfl, ha, -⟩
    have := f1 a (by simp [hr])
    rw [ha] at this; cases this
  have := hexDigit?_lt ha
  rcases d.bump.hexLoop_step (k := 2) (n := 0 * 16 + w) (by omega) with ⟨e2, f2⟩ | ⟨b, x, hb, r2, t2, e2⟩
  · left
    refine ⟨by rw [e1, e2], ?_⟩
    rintro h n r hr ⟨a', b', c', e', w', x', y', z', rfl, ha', hb', -⟩
    rw [r1] at hr; simp at hr
    have := f2 b' (by simp [hr])
    rw [hb'] at this; cases this
  have := hexDigit?_lt hb
  rcases d.bump.bump.hexLoop_step (k := 1) (n := (0 * 16 + w) * 16 + x) (by omega) with ⟨e3, f3⟩ | ⟨c, y, hc, r3, t3, e3⟩
  · left
    refine ⟨by rw [e1, e2, e3], ?_⟩
    rintro h n r hr ⟨a', b', c', e', w', x', y', z', rfl, ha', hb', hc', -⟩
    rw [r1, r2] at hr; simp at hr
    have := f3 c' (by simp [hr])
    rw [hc'] at this; cases this
  have := hexDigit?_lt hc
  rcases d.bump.bump.bump.hexLoop_step (k := 0) (n := ((0 * 16 + w) * 16 + x) * 16 + y) (by omega) with ⟨e4, f4⟩ | ⟨e, z, he, r4, t4, e4⟩
  · left
    refine ⟨by rw [e1, e2, e3, e4], ?_⟩
    rintro h n r hr ⟨a', b', c', e', w', x', y', z', rfl, ha', hb', hc', he', -⟩
    rw [r1, r2, r3] at hr; simp at hr
    have := f4 e' (by simp [hr])
    rw [he'] at this; cases this
  have := hexDigit?_lt he
  right
  refine ⟨[a, b, c, e], _, d.bump.bump.bump.bump, by rw [e1, e2, e3, e4]; rfl, ⟨a, b, c, e, w, x, y, z, rfl, ha, hb, hc, he, ?_⟩, ?_,
    t1.cons (t2.cons (t3.cons t4)), rfl⟩ <;> omega

theorem hex4_unique {h h' r r' : Bytes} {n n' : Nat} (e : h ++ r = h' ++ r') (a : Hex4 h n) (b : Hex4 h' n') :
    h = h' ∧ n = n' ∧ r = r' := by
  obtain ⟨a1, a2, a3, a4, w, x, y, z, rfl, p1, p2, p3, p4, rfl⟩ := a
  obtain ⟨b1, b2, b3, b4, w', x', y', z', rfl, q1, q2, q3, q4, rfl⟩ := b
  simp at e
  obtain ⟨rfl, rfl, rfl, rfl, rfl⟩ := e
  simp_all

theorem decodeHexEscape_complete {d : De} {h r : Bytes} {n : Nat} (hr : d.rest = h ++ r) (hh : Hex4 h n) :
    ∃ d', d.decodeHexEscape = .ok (n, d') ∧ Eats d d' h ∧ d'.rest = r ∧ d'.buffer = d.buffer := by
  rcases d.decodeHexEscape_spec with ⟨-, f⟩ | ⟨h', n', d', e, hh', -, t, hb⟩
  · exact absurd hh (f h n r hr)
  · have := t.rest.symm.trans hr
    obtain ⟨rfl, rfl, rfl⟩ := hex4_unique this hh' hh
    exact ⟨d', e, t, rfl, hb⟩

/-- What may follow `\u`, and the character it denotes. -/
inductive UniTail : Bytes → Char → Prop
  | unicode (h : Bytes) (c : Char) (hh : Hex4 h c.toNat) : UniTail h c
  | pair (h l : Bytes) (hi lo : Nat) (c : Char) (hh : Hex4 h hi) (hl : Hex4 l lo)
      (hhi : 0xD800 ≤ hi ∧ hi ≤ 0xDBFF) (hlo : 0xDC00 ≤ lo ∧ lo ≤ 0xDFFF)
      (hc : c.toNat = 0x10000 + (hi - 0xD800) * 0x400 + (lo - 0xDC00)) :
      UniTail (h ++ 0x5C :: 0x75 :: l) c

theorem char_not_surrogate (c : Char) : ¬ (0xD800 ≤ c.toNat ∧ c.toNat ≤ 0xDFFF) := by
  have := c.valid
  simp [UInt32.isValidChar, Nat.isValidChar] at this
  have e : c.toNat = c.val.toNat := rfl
  omega

theorem isLow_iff {n : Nat} : isLowSurrogate n = true ↔ 0xDC00 ≤ n ∧ n ≤ 0xDFFF := by simp [isLowSurrogate]
theorem isHigh_iff {n : Nat} : isHighSurrogate n = true ↔ 0xD800 ≤ n ∧ n ≤ 0xDBFF := by simp [isHighSurrogate]

theorem subU16_ok {a b : Nat} (h : b ≤ a) : subU16 a b = .ok (a - b) := by simp [subU16, h]

theorem pair_char {hi lo : Nat} (hhi : 0xD800 ≤ hi ∧ hi ≤ 0xDBFF) (hlo : 0xDC00 ≤ lo ∧ lo ≤ 0xDFFF) :
    ∃ c : Char, c.toNat = 0x10000 + (hi - 0xD800) * 0x400 + (lo - 0xDC00) ∧
      charFromU32 (surrogatePair (hi - 0xD800) (lo - 0xDC00)) = some c.toNat := by
  rw [surrogatePair_eq (by omega)]
  generalize hn : 0x10000 + (hi - 0xD800) * 0x400 + (lo - 0xDC00) = n
  have hv : n.isValidChar := by unfold Nat.isValidChar; omega
  exact ⟨Char.ofNat n, toNat_ofNat hv, by
    rw [toNat_ofNat hv]; exact charFromU32_some.2 ⟨rfl, Char.ofNat n, toNat_ofNat hv⟩⟩

theorem unicodeEscape_spec (d : De) :
    (d.unicodeEscape = .err ∧ ∀ t c r, d.rest = t ++ r → ¬ UniTail t c) ∨
    ∃ t c d', d.unicodeEscape = .ok (c.toNat, d') ∧ UniTail t c ∧ Eats d d' t ∧ d'.buffer = d.buffer := by
  unfold unicodeEscape
  rcases d.decodeHexEscape_spec with ⟨e1, f1⟩ | ⟨h, n, d1, e1, hh, hn, t1, b1⟩
  · left
    rw [e1]
    refine ⟨rfl, ?_⟩
    rintro t c r hr (⟨h, c, hh⟩ | ⟨h, l, hi, lo, c, hh, hl, hhi, hlo, hc⟩)
    · exact f1 _ _ _ hr hh
    · exact f1 h hi (0x5C :: 0x75 :: l ++ r) (by rw [hr]; simp) hh
  rw [e1]
  simp only [Res.bind_okp]
  -- a tail read from `d` starts with `h`
  have uni : ∀ t c r, d.rest = t ++ r → UniTail t c →
      (n = c.toNat ∧ d1.rest = r) ∨ (0xD800 ≤ n ∧ n ≤ 0xDBFF ∧ ∃ l lo, Hex4 l lo ∧ 0xDC00 ≤ lo ∧ lo ≤ 0xDFFF ∧
        d1.rest = 0x5C :: 0x75 :: (l ++ r)) := by
    rintro t c r hr (⟨h', c, hh'⟩ | ⟨h', l, hi, lo, c, hh', hl, hhi, hlo, hc⟩)
    · left
      obtain ⟨-, e, e'⟩ := hex4_unique (t1.rest.symm.trans hr) hh hh'
      exact ⟨e, e'⟩
    · right
      have : h ++ d1.rest = h' ++ (0x5C :: 0x75 :: (l ++ r)) := by
        rw [← t1.rest, hr]; simp
      obtain ⟨-, rfl, e'⟩ := hex4_unique this hh hh'
      exact ⟨hhi.1, hhi.2, l, lo, hl, hlo.1, hlo.2, e'⟩
  split
  · rename_i hl
    rw [isLow_iff] at hl
    left
    refine ⟨rfl, ?_⟩
    intro t c r hr ht
    rcases uni t c r hr ht with ⟨rfl, -⟩ | ⟨h1, h2, -⟩
    · exact char_not_surrogate c (by omega)
    · omega
  · rename_i hl
    rw [isLow_iff] at hl
    split
    · rename_i hhi
      rw [isHigh_iff] at hhi
      have noUni : ∀ t c r, d.rest = t ++ r → UniTail t c → ∃ l lo, Hex4 l lo ∧ 0xDC00 ≤ lo ∧ lo ≤ 0xDFFF ∧
          d1.rest = 0x5C :: 0x75 :: (l ++ r) := by
        intro t c r hr ht
        rcases uni t c r hr ht with ⟨rfl, -⟩ | ⟨-, -, h3⟩
        · exact absurd ⟨hhi.1, by omega⟩ (char_not_surrogate c)
        · exact h3
      rcases d1.head_cases with hd | ⟨c1, r1, hd⟩
      · left
        rw [nextOrEof_nil hd]
        refine ⟨rfl, ?_⟩
        intro t c r hr ht
        obtain ⟨l, lo, -, -, -, h⟩ := noUni t c r hr ht
        rw [hd] at h; cases h
      rw [nextOrEof_cons hd]
      obtain ⟨-, -, hb1, tb1⟩ := rest_cons hd
      simp only [Res.bind_okp]
      split
      · rename_i hne
        left
        refine ⟨rfl, ?_⟩
        intro t c r hr ht
        obtain ⟨l, lo, -, -, -, h⟩ := noUni t c r hr ht
        rw [hd] at h; simp at h; exact hne h.1
      rename_i heq
      simp at heq
      subst heq
      rcases d1.bump.head_cases with hd2 | ⟨c2, r2, hd2⟩
      · left
        rw [nextOrEof_nil hd2]
        refine ⟨rfl, ?_⟩
        intro t c r hr ht
        obtain ⟨l, lo, -, -, -, h⟩ := noUni t c r hr ht
        rw [hd] at h; rw [hb1] at hd2; simp [hd2] at h
      rw [nextOrEof_cons hd2]
      obtain ⟨-, -, hb2, tb2⟩ := rest_cons hd2
      simp only [Res.bind_okp]
      split
      · rename_i hne
        left
        refine ⟨rfl, ?_⟩
        intro t c r hr ht
        obtain ⟨l, lo, -, -, -, h⟩ := noUni t c r hr ht
        rw [hd] at h; rw [hb1] at hd2; simp [hd2] at h; exact hne h.1
      rename_i heq
      simp at heq
      subst heq
      have rd : d1.rest = 0x5C :: 0x75 :: r2 := by rw [hd, ← hb1, hd2]
      rcases d1.bump.bump.decodeHexEscape_spec with ⟨e3, f3⟩ | ⟨l, m, d3, e3, hl3, hm, t3, b3⟩
      · left
        rw [e3]
        refine ⟨rfl, ?_⟩
        intro t c r hr ht
        obtain ⟨l, lo, hl, -, -, h⟩ := noUni t c r hr ht
        rw [rd] at h; simp at h
        exact f3 l lo r (by rw [hb2, h]) hl
      rw [e3]
      simp only [Res.bind_okp]
      split
      · rename_i hnl
        left
        refine ⟨rfl, ?_⟩
        intro t c r hr ht
        obtain ⟨l', lo, hl', h1, h2, h⟩ := noUni t c r hr ht
        rw [rd] at h; simp at h
        have := t3.rest
        rw [hb2, h] at this
        obtain ⟨-, rfl, -⟩ := hex4_unique this hl' hl3
        simp [isLowSurrogate] at hnl
        omega
      rename_i hlow
      simp only [Bool.not_eq_true', Bool.not_eq_false, isLow_iff] at hlow
      rw [subU16_ok hhi.1, subU16_ok hlow.1]
      simp only [Res.bind_okp]
      obtain ⟨ch, hch, hcx⟩ := pair_char hhi hlow
      rw [hcx]
      right
      exact ⟨h ++ 0x5C :: 0x75 :: l, ch, d3, rfl, .pair h l n m ch hh hl3 hhi hlow hch,
        t1.trans (tb1.cons (tb2.cons t3)), by rw [b3]; exact b1⟩
    · rename_i hhi
      rw [isHigh_iff] at hhi
      have hv : n.isValidChar := by unfold Nat.isValidChar; omega
      have hcx : charFromU32 n = some n := charFromU32_some.2 ⟨rfl, Char.ofNat n, toNat_ofNat hv⟩
      rw [hcx]
      right
      refine ⟨h, Char.ofNat n, d1, ?_, ?_, t1, b1⟩
      · rw [toNat_ofNat hv]
      · exact .unicode h _ (by rw [toNat_ofNat hv]; exact hh)

/-- `parse_escape` reads exactly the tails of escapes. -/
theorem parseEscape_spec (d : De) :
    (d.parseEscape = .err ∧ ∀ t u r, d.rest = t ++ r → ¬ StrChar (0x5C :: t) u) ∨
    ∃ t u d', d.parseEscape = .ok d' ∧ StrChar (0x5C :: t) u ∧ Eats d d' t ∧ d'.buffer = d.buffer ++ u := by
  unfold parseEscape
  rcases d.head_cases with h | ⟨c, r0, h⟩
  · left
    rw [nextOrEof_nil h]
    refine ⟨rfl, ?_⟩
    intro t u r hr hs
    rw [h] at hr
    have : t = [] := by
      have := congrArg List.length hr
      simp at this
      exact List.eq_nil_of_length_eq_zero (by omega)
    subst this
    cases hs
    contradiction
  rw [nextOrEof_cons h]
  obtain ⟨-, -, hb, tb⟩ := rest_cons h
  simp only [Res.bind_ok']
  have short : ∀ (x y : UInt8), c = x → StrChar [0x5C, x] [y] →
      ∃ t u d', (Res.ok (d.bump.push y) : Res De) = .ok d' ∧ StrChar (0x5C :: t) u ∧ Eats d d' t ∧ d'.buffer = d.buffer ++ u := by
    intro x y hx hs
    subst hx
    exact ⟨[c], [y], _, rfl, hs, tb.of_buffer _, rfl⟩
  iterate 8 (split; · (right; exact short _ _ (by assumption) (by constructor)))
  split
  · rename_i hc
    subst hc
    rcases d.bump.unicodeEscape_spec with ⟨e, f⟩ | ⟨t, ch, d', e, ht, te, be⟩
    · left
      rw [e]
      refine ⟨rfl, ?_⟩
      intro t u r hr hs
      rw [h] at hr
      cases hs <;> simp at hr
      · contradiction
      · rename_i hx c hh
        exact f hx c r (by rw [hb]; exact hr) (.unicode _ _ hh)
      · rename_i h' l hi lo ch hh hl hhi hlo hc
        refine f (h' ++ 0x5C :: 0x75 :: l) ch r ?_ (.pair _ _ _ _ _ hh hl hhi hlo hc)
        rw [hb, hr]; simp
    · right
      rw [e]
      refine ⟨0x75 :: t, utf8Of ch, d'.extend (encodeUtf8 ch.toNat), rfl, ?_, ?_, ?_⟩
      · cases ht with
        | unicode h c hh => exact .unicode _ _ hh
        | pair h l hi lo c hh hl hhi hlo hc => exact .pair _ _ _ _ _ hh hl hhi hlo hc
      · exact (tb.cons te).of_buffer _
      · rw [← encodeUtf8_eq]
        show d'.buffer ++ _ = _
        rw [be]; rfl
  · left
    refine ⟨rfl, ?_⟩
    intro t u r hr hs
    rw [h] at hr
    cases hs <;> simp at hr <;> first | contradiction | (obtain ⟨rfl, -⟩ := hr; contradiction)

end De
end Miniserde
