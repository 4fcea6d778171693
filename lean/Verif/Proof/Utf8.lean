import Verif.Proof.Complete
import Verif.Spec.Utf8

/-!
# UTF-8 is preserved by unescaping
-/

namespace Miniserde

theorem ofNat_ge {n : Nat} (h1 : 0x80 ≤ n) (h2 : n < 256) : (0x80 : UInt8) ≤ UInt8.ofNat n := by
  rw [UInt8.le_iff_toNat_le]
  simp
  omega

/-- A character is one byte below 0x80, or several bytes from 0x80 on. -/
theorem utf8Of_cases (c : Char) : (∃ b : UInt8, utf8Of c = [b] ∧ b < 0x80) ∨
    (utf8Of c ≠ [] ∧ ∀ b ∈ utf8Of c, 0x80 ≤ b) := by
  rw [← encodeUtf8_eq]
  have hc : c.toNat < 0x110000 := by
    have := c.valid
    simp [UInt32.isValidChar, Nat.isValidChar] at this
    have e : c.toNat = c.val.toNat := rfl
    omega
  generalize c.toNat = v at hc
  unfold encodeUtf8
  split
  · left
    refine ⟨_, rfl, ?_⟩
    rw [UInt8.lt_iff_toNat_lt]
    simp
    omega
  · right
    split
    · refine ⟨by simp, ?_⟩
      intro b hb
      simp only [List.mem_cons, List.not_mem_nil, or_false] at hb
      rcases hb with rfl | rfl <;> exact ofNat_ge (by omega) (by omega)
    · split
      · refine ⟨by simp, ?_⟩
        intro b hb
        simp only [List.mem_cons, List.not_mem_nil, or_false] at hb
        rcases hb with rfl | rfl | rfl <;> exact ofNat_ge (by omega) (by omega)
      · refine ⟨by simp, ?_⟩
        intro b hb
        simp only [List.mem_cons, List.not_mem_nil, or_false] at hb
        rcases hb with rfl | rfl | rfl | rfl <;> exact ofNat_ge (by omega) (by omega)

theorem valid_nil : ValidUtf8 [] := ⟨[], rfl⟩

theorem valid_append {a b : Bytes} (ha : ValidUtf8 a) (hb : ValidUtf8 b) : ValidUtf8 (a ++ b) := by
  obtain ⟨x, rfl⟩ := ha
  obtain ⟨y, rfl⟩ := hb
  exact ⟨x ++ y, by simp [utf8s]⟩

theorem valid_char (c : Char) : ValidUtf8 (utf8Of c) := ⟨[c], by simp [utf8s]⟩

theorem utf8Of_ofNat {n : Nat} (h : n < 0x80) : utf8Of (Char.ofNat n) = [UInt8.ofNat n] := by
  rw [← encodeUtf8_eq, toNat_ofNat (.inl (by omega))]
  unfold encodeUtf8
  rw [if_pos h]

theorem valid_ascii {a : Bytes} (h : ∀ b ∈ a, b < 0x80) : ValidUtf8 a := by
  induction a with
  | nil => exact valid_nil
  | cons b a ih =>
    have hb := h b (by simp)
    rw [UInt8.lt_iff_toNat_lt] at hb
    have h1 : ValidUtf8 [b] := by
      refine ⟨[Char.ofNat b.toNat], ?_⟩
      simp [utf8s, utf8Of_ofNat hb]
    exact valid_append h1 (ih fun x hx => h x (by simp [hx]))

/-- A valid string is split at any ASCII byte into valid strings. -/
theorem valid_split {a b : Bytes} {c : UInt8} (hc : c < 0x80) (h : ValidUtf8 (a ++ c :: b)) :
    ValidUtf8 a ∧ ValidUtf8 b := by
  obtain ⟨cs, e⟩ := h
  induction cs generalizing a with
  | nil => simp [utf8s] at e
  | cons x cs ih =>
    simp only [utf8s, List.flatMap_cons] at e
    have ih' := fun a' (h : a' ++ c :: b = utf8s cs) => ih h
    rcases utf8Of_cases x with ⟨y, hy, hlt⟩ | ⟨hne, hge⟩
    · rw [hy] at e
      cases a with
      | nil =>
        simp only [List.nil_append, List.cons_append, List.cons.injEq] at e
        exact ⟨valid_nil, cs, e.2⟩
      | cons z a =>
        simp only [List.cons_append, List.nil_append, List.cons.injEq] at e
        obtain ⟨h1, h2⟩ := ih' a e.2
        exact ⟨valid_append (a := [z]) ⟨[x], by simp [utf8s, hy, e.1]⟩ h1, h2⟩
    · -- the whole multi-byte character lies in `a`
      rcases List.append_eq_append_iff.1 e with ⟨a', h1, h2⟩ | ⟨c', h1, h2⟩
      · have hm : ∀ y ∈ a', (0x80 : UInt8) ≤ y := fun y hy => hge y (by rw [h1]; simp [hy])
        cases a' with
        | nil =>
          simp only [List.append_nil] at h1
          simp only [List.nil_append] at h2
          obtain ⟨g1, g2⟩ := ih' [] (by simpa [utf8s] using h2)
          exact ⟨by rw [← h1]; exact valid_char x, g2⟩
        | cons y a' =>
          simp only [List.cons_append, List.cons.injEq] at h2
          have := hm y (by simp)
          rw [← h2.1] at this
          rw [UInt8.lt_iff_toNat_lt] at hc
          rw [UInt8.le_iff_toNat_le] at this
          omega
      · obtain ⟨g1, g2⟩ := ih' c' (by simpa [utf8s] using h2.symm)
        exact ⟨by rw [h1]; exact valid_append (valid_char x) g1, g2⟩

/-- Stripping an ASCII prefix. -/
theorem valid_drop_ascii {a b : Bytes} (ha : ∀ c ∈ a, c < 0x80) (h : ValidUtf8 (a ++ b)) : ValidUtf8 b := by
  induction a with
  | nil => simpa using h
  | cons c a ih =>
    refine ih (fun x hx => ha x (by simp [hx])) ?_
    exact (valid_split (a := []) (ha c (by simp)) h).2

theorem hexDigit_ascii {c : UInt8} {n : Nat} (h : hexDigit? c = some n) : c < 0x80 := by
  have : ∀ c : UInt8, hexDigit? c ≠ none → c < 0x80 := by
    apply forall_byte
    decide +kernel
  exact this c (by rw [h]; simp)

theorem hex4_ascii {h : Bytes} {n : Nat} (hh : Hex4 h n) : ∀ c ∈ h, c < 0x80 := by
  obtain ⟨a, b, c, d, w, x, y, z, rfl, p1, p2, p3, p4, -⟩ := hh
  intro e he
  simp only [List.mem_cons, List.not_mem_nil, or_false] at he
  rcases he with rfl | rfl | rfl | rfl
  · exact hexDigit_ascii p1
  · exact hexDigit_ascii p2
  · exact hexDigit_ascii p3
  · exact hexDigit_ascii p4

/-- Either a raw byte, or an ASCII escape denoting valid UTF-8. -/
theorem strChar_utf8 {t u : Bytes} (h : StrChar t u) :
    (∃ c, t = [c] ∧ u = [c]) ∨ (∃ r, t = 0x5C :: r) ∧ (∀ c ∈ t, c < 0x80) ∧ ValidUtf8 u := by
  cases h with
  | raw c => exact .inl ⟨c, rfl, rfl⟩
  | unicode h c hh =>
    refine .inr ⟨⟨_, rfl⟩, ?_, valid_char c⟩
    intro x hx
    simp only [List.mem_cons] at hx
    rcases hx with rfl | rfl | hx
    · decide
    · decide
    · exact hex4_ascii hh x hx
  | pair h l hi lo c hh hl =>
    refine .inr ⟨⟨_, rfl⟩, ?_, valid_char c⟩
    intro x hx
    simp only [List.mem_cons, List.mem_append] at hx
    rcases hx with rfl | rfl | hx | rfl | rfl | hx
    · decide
    · decide
    · exact hex4_ascii hh x hx
    · decide
    · decide
    · exact hex4_ascii hl x hx
  | _ => exact .inr ⟨⟨_, rfl⟩, by decide, valid_ascii (by decide)⟩

theorem strChar_ne_nil {t u : Bytes} (h : StrChar t u) : t ≠ [] := by
  rcases strChar_utf8 h with ⟨c, rfl, -⟩ | ⟨⟨r, rfl⟩, -⟩ <;> simp

/-- A run of bytes from 0x80 on is copied. -/
theorem strBody_high {p r s : Bytes} (hp : ∀ c ∈ p, (0x80 : UInt8) ≤ c) (h : StrBody (p ++ r) s) :
    ∃ s', s = p ++ s' ∧ StrBody r s' := by
  induction p generalizing s with
  | nil => exact ⟨s, rfl, h⟩
  | cons c p ih =>
    generalize e : (c :: p) ++ r = t at h
    cases h with
    | nil => simp at e
    | @cons t u ts us hc hs =>
      rcases strChar_utf8 hc with ⟨x, rfl, rfl⟩ | ⟨⟨q, rfl⟩, -⟩
      · simp only [List.cons_append, List.nil_append, List.cons.injEq] at e
        obtain ⟨rfl, rfl⟩ := e
        obtain ⟨s', rfl, hs'⟩ := ih (fun x hx => hp x (by simp [hx])) hs
        exact ⟨s', rfl, hs'⟩
      · simp only [List.cons_append, List.cons.injEq] at e
        have := hp c (by simp)
        rw [e.1] at this
        exact absurd this (by decide)

/-- Unescaping a valid body gives a valid string. -/
theorem strBody_valid (n : Nat) {t s : Bytes} (hn : t.length ≤ n) (h : StrBody t s) (hv : ValidUtf8 t) : ValidUtf8 s := by
  induction n using Nat.strongRecOn generalizing t s with
  | _ n ih =>
  obtain ⟨cs, e⟩ := hv
  cases cs with
  | nil =>
    simp only [utf8s, List.flatMap_nil] at e
    generalize t = t' at h e
    cases h with
    | nil => exact valid_nil
    | cons hc hs => simp at e; exact absurd e.1 (strChar_ne_nil hc)
  | cons c cs =>
    simp only [utf8s, List.flatMap_cons] at e
    rcases utf8Of_cases c with ⟨y, hy, hlt⟩ | ⟨hne, hge⟩
    · rw [hy] at e
      cases h with
      | nil => simp at e
      | @cons t u ts us hc hs =>
        have hl : 0 < t.length := List.length_pos_iff.2 (strChar_ne_nil hc)
        simp only [List.length_append] at hn
        rcases strChar_utf8 hc with ⟨x, rfl, rfl⟩ | ⟨-, h2, h3⟩
        · simp only [List.cons_append, List.nil_append, List.cons.injEq] at e
          obtain ⟨rfl, rfl⟩ := e
          refine valid_append (valid_ascii (by simpa using hlt)) (ih _ ?_ (Nat.le_refl _) hs ⟨cs, rfl⟩)
          simp at hn ⊢
          omega
        · refine valid_append h3 (ih ts.length (by omega) (Nat.le_refl _) hs ?_)
          exact valid_drop_ascii h2 ⟨c :: cs, by simp [utf8s, hy, e]⟩
    · rw [e] at h
      obtain ⟨s', rfl, hs⟩ := strBody_high hge h
      refine valid_append (valid_char c) (ih _ ?_ (Nat.le_refl _) hs ⟨cs, rfl⟩)
      have hl : 0 < (utf8Of c).length := List.length_pos_iff.2 hne
      rw [e] at hn
      simp only [List.length_append] at hn
      omega

open De

mutual
/-- Every string in a partial tree satisfies `p`. -/
def PT.All (p : Bytes → Prop) : PT → Prop
  | .leaf (.str s) => p s
  | .leaf _ => True
  | .bad _ => True
  | .seq xs _ => PT.AllL p xs
  | .map ms _ => PT.AllM p ms

def PT.AllL (p : Bytes → Prop) : List PT → Prop
  | [] => True
  | x :: xs => x.All p ∧ PT.AllL p xs

def PT.AllM (p : Bytes → Prop) : List (Bytes × PT) → Prop
  | [] => True
  | (k, x) :: xs => p k ∧ x.All p ∧ PT.AllM p xs
end

theorem ws_ascii {w : Bytes} (h : Ws w) : ∀ c ∈ w, c < 0x80 := by
  intro c hc
  rcases h c hc with rfl | rfl | rfl | rfl <;> decide

theorem digit_ascii {c : UInt8} (h : IsDigit c) : c < 0x80 := by
  have := h.2
  rw [UInt8.le_iff_toNat_le] at this
  rw [UInt8.lt_iff_toNat_lt]
  simp at this ⊢
  omega

theorem digits_ascii {ds : Bytes} (h : Digits ds) : ∀ c ∈ ds, c < 0x80 := fun c hc => digit_ascii (h.2 c hc)

theorem num_ascii {l : NumLit} (h : l.WF) : ∀ c ∈ l.text, c < 0x80 := by
  obtain ⟨mn, int, fo, xo⟩ := l
  obtain ⟨h1, -, h3, h4⟩ := h
  intro c hc
  unfold NumLit.text at hc
  simp only [List.mem_append] at hc
  rcases hc with ((hc | hc) | hc) | hc
  · cases mn <;> simp at hc
    subst hc; decide
  · exact digits_ascii h1 c hc
  · cases fo with
    | none => simp at hc
    | some fs =>
      simp only [List.mem_cons] at hc
      rcases hc with rfl | hc
      · decide
      · exact digits_ascii (h3 fs rfl) c hc
  · cases xo with
    | none => simp at hc
    | some x =>
      obtain ⟨u, sg, ds⟩ := x
      simp only [ExpPart.text, List.mem_cons, List.mem_append] at hc
      rcases hc with rfl | hc | hc
      · split <;> decide
      · rcases sg with _ | _ | _ <;> simp at hc <;> subst hc <;> decide
      · exact digits_ascii (h4 _ rfl) c hc

theorem jstring_valid {t s r : Bytes} (h : JString t s) (hv : ValidUtf8 (t ++ r)) : ValidUtf8 s ∧ ValidUtf8 r := by
  cases h with
  | @mk body _ hb =>
    have h1 : ValidUtf8 (body ++ 0x22 :: r) := by
      refine (valid_split (a := []) (c := 0x22) (by decide) ?_).2
      simpa using hv
    obtain ⟨h2, h3⟩ := valid_split (by decide) h1
    exact ⟨strBody_valid _ (Nat.le_refl _) hb h2, h3⟩

theorem tok_valid {t : Bytes} {ev : Event} {r : Bytes} (h : Tok t ev) (hv : ValidUtf8 (t ++ r)) :
    ValidUtf8 r ∧ (PT.leaf ev).All ValidUtf8 := by
  cases h with
  | num l h ev he =>
    refine ⟨valid_drop_ascii (num_ascii h) hv, ?_⟩
    rcases numEvent_cases l with h' | h' | ⟨n, h'⟩ | ⟨n, h'⟩ | ⟨n, h'⟩ <;> rw [h'] at he <;> cases he <;> simp [PT.All]
  | str h =>
    obtain ⟨h1, h2⟩ := jstring_valid h hv
    exact ⟨h2, by simpa [PT.All] using h1⟩
  | _ => exact ⟨valid_drop_ascii (by decide) hv, by simp [PT.All]⟩

theorem event_valid {d d' : De} {ev : Event} (h : d.event = .ok (ev, d')) (hv : ValidUtf8 d.rest) :
    ValidUtf8 d'.rest ∧ (PT.leaf ev).All ValidUtf8 := by
  obtain ⟨w, t, hw, ht, te⟩ := event_ok_spec h
  rw [te.rest, List.append_assoc] at hv
  exact tok_valid ht (valid_drop_ascii (ws_ascii hw) hv)

theorem sepStep_valid {close : UInt8} (hcl : close = 0x5D ∨ close = 0x7D) {ac : Bool} {d : De} (hv : ValidUtf8 d.rest) :
    (∀ d', sepStep close ac d = .close d' → ValidUtf8 d'.rest) ∧ (∀ d', sepStep close ac d = .child d' → ValidUtf8 d'.rest) := by
  have key : ∀ (w : Bytes) (c : UInt8) (d' : De), Ws w → c < 0x80 → Eats d d' (w ++ [c]) → ValidUtf8 d'.rest := by
    intro w c d' hw hc te
    rw [te.rest] at hv
    refine valid_drop_ascii (a := w ++ [c]) ?_ hv
    intro x hx
    simp only [List.mem_append, List.mem_cons, List.not_mem_nil, or_false] at hx
    rcases hx with hx | rfl
    · exact ws_ascii hw x hx
    · exact hc
  rcases sepStep_spec close hcl ac d with ⟨w, d2, h1, h2, h3⟩ | ⟨w, d2, -, h1, h2, h3⟩ | ⟨w, d2, -, h1, h2, h3⟩ | h1
  · refine ⟨fun d' h => ?_, fun d' h => ?_⟩ <;> rw [h1] at h <;> cases h
    refine key w close d2 h2 ?_ h3
    rcases hcl with rfl | rfl <;> decide
  · refine ⟨fun d' h => ?_, fun d' h => ?_⟩ <;> rw [h1] at h <;> cases h
    exact key w _ d2 h2 (by decide) h3
  · refine ⟨fun d' h => ?_, fun d' h => ?_⟩ <;> rw [h1] at h <;> cases h
    rw [h3.rest] at hv
    exact valid_drop_ascii (ws_ascii h2) hv
  · refine ⟨fun d' h => ?_, fun d' h => ?_⟩ <;> rw [h1] at h <;> cases h

theorem keyStep_valid {d : De} (hv : ValidUtf8 d.rest) :
    (∀ k d', keyStep d = .key k d' → ValidUtf8 k ∧ ValidUtf8 d'.rest) ∧ (∀ k, keyStep d = .noColon k → ValidUtf8 k) := by
  rcases keyStep_spec d with ⟨w1, k, key, w2, d', h1, h2, h3, h4, h5⟩ | ⟨k, h1, w1, kt, r, h2, h3, h4⟩ | h1
  · refine ⟨fun k d' h => ?_, fun k h => ?_⟩ <;> rw [h1] at h <;> cases h
    rw [h5.rest] at hv
    have hv2 := valid_drop_ascii (ws_ascii h2) (by simpa using hv)
    obtain ⟨g1, g2⟩ := jstring_valid h3 hv2
    refine ⟨g1, ?_⟩
    have := valid_drop_ascii (ws_ascii h4) g2
    exact (valid_split (a := []) (by decide) this).2
  · refine ⟨fun k d' h => ?_, fun k h => ?_⟩ <;> rw [h1] at h <;> cases h
    rw [h4] at hv
    exact (jstring_valid h3 (valid_drop_ascii (ws_ascii h2) hv)).1
  · refine ⟨fun k d' h => ?_, fun k h => ?_⟩ <;> rw [h1] at h <;> cases h

mutual

theorem PVal.valid : ∀ {d t o} (_ : PVal d t o), ValidUtf8 d.rest →
    t.All ValidUtf8 ∧ ∀ d', o = some d' → ValidUtf8 d'.rest
  | _, _, _, .err _, _ => ⟨by simp [PT.All], by simp⟩
  | _, _, _, .panic _, _ => ⟨by simp [PT.All], by simp⟩
  | _, _, _, .leaf h _, hv => ⟨(event_valid h hv).2, fun d' hd => by cases hd; exact (event_valid h hv).1⟩
  | _, _, _, .seq h hs, hv => by
    rw [PT.All]; exact hs.valid (event_valid h hv).1
  | _, _, _, .map h hs, hv => by
    rw [PT.All]; exact hs.valid (event_valid h hv).1

theorem PElems.valid : ∀ {ac d xs e o} (_ : PElems ac d xs e o), ValidUtf8 d.rest →
    PT.AllL ValidUtf8 xs ∧ ∀ d', o = some d' → ValidUtf8 d'.rest
  | _, _, _, _, _, .close h, hv => ⟨by simp [PT.AllL], fun d' hd => by cases hd; exact (sepStep_valid (by simp) hv).1 _ h⟩
  | _, _, _, _, _, .stop _, _ => ⟨by simp [PT.AllL], by simp⟩
  | _, _, _, _, _, .child h hx hr, hv => by
    obtain ⟨h1, h2⟩ := hx.valid ((sepStep_valid (by simp) hv).2 _ h)
    obtain ⟨h3, h4⟩ := hr.valid (h2 _ rfl)
    rw [PT.AllL]
    exact ⟨⟨h1, h3⟩, h4⟩
  | _, _, _, _, _, .last h hx, hv => by
    obtain ⟨h1, h2⟩ := hx.valid ((sepStep_valid (by simp) hv).2 _ h)
    exact ⟨by simp [PT.AllL, h1], by simp⟩

theorem PMembers.valid : ∀ {ac d xs e o} (_ : PMembers ac d xs e o), ValidUtf8 d.rest →
    PT.AllM ValidUtf8 xs ∧ ∀ d', o = some d' → ValidUtf8 d'.rest
  | _, _, _, _, _, .close h, hv => ⟨by simp [PT.AllM], fun d' hd => by cases hd; exact (sepStep_valid (by simp) hv).1 _ h⟩
  | _, _, _, _, _, .stop _, _ => ⟨by simp [PT.AllM], by simp⟩
  | _, _, _, _, _, .keyStop _ _, _ => ⟨by simp [PT.AllM], by simp⟩
  | _, _, _, _, _, .noColon h hk, hv => by
    have := (keyStep_valid ((sepStep_valid (by simp) hv).2 _ h)).2 _ hk
    exact ⟨by simp [PT.AllM, PT.All, this], by simp⟩
  | _, _, _, _, _, .child h hk hx hr, hv => by
    obtain ⟨h0, h00⟩ := (keyStep_valid ((sepStep_valid (by simp) hv).2 _ h)).1 _ _ hk
    obtain ⟨h1, h2⟩ := hx.valid h00
    obtain ⟨h3, h4⟩ := hr.valid (h2 _ rfl)
    rw [PT.AllM]
    exact ⟨⟨h0, h1, h3⟩, h4⟩
  | _, _, _, _, _, .last h hk hx, hv => by
    obtain ⟨h0, h00⟩ := (keyStep_valid ((sepStep_valid (by simp) hv).2 _ h)).1 _ _ hk
    obtain ⟨h1, h2⟩ := hx.valid h00
    exact ⟨by simp [PT.AllM, h1, h0], by simp⟩

end

section
variable {σ : Type} (P : Proto σ)

mutual

theorem drivePT_check (v : P.V) : ∀ (t : PT) (w : σ), t.All ValidUtf8 → drivePT P.checkUtf8 v t w = drivePT P v t w
  | .leaf ev, w, h => by
    simp only [drivePT]
    cases ev with
    | str s => rw [PT.All] at h; simp [leafCall, Proto.checkUtf8, h]
    | _ => rfl
  | .bad _, w, _ => by simp only [drivePT]
  | .seq xs e, w, h => by
    rw [PT.All] at h
    simp only [drivePT]
    have : ∀ q w, driveElemsPT P.checkUtf8 q xs e w = driveElemsPT P q xs e w := fun q w => driveElemsPT_check q xs e w h
    simp only [this]
    generalize hx : P.seq v w = x
    have hx' : P.checkUtf8.seq v w = x := hx
    rw [hx']
    obtain ⟨r, w'⟩ := x
    cases r <;> rfl
  | .map xs e, w, h => by
    rw [PT.All] at h
    simp only [drivePT]
    have : ∀ q w, driveMembersPT P.checkUtf8 q xs e w = driveMembersPT P q xs e w := fun q w => driveMembersPT_check q xs e w h
    simp only [this]
    generalize hx : P.map v w = x
    have hx' : P.checkUtf8.map v w = x := hx
    rw [hx']
    obtain ⟨r, w'⟩ := x
    cases r <;> rfl

theorem driveElemsPT_check (q : P.Q) : ∀ (xs : List PT) (e : End) (w : σ), PT.AllL ValidUtf8 xs →
    driveElemsPT P.checkUtf8 q xs e w = driveElemsPT P q xs e w
  | [], .closed, w, _ => by simp only [driveElemsPT]; rfl
  | [], .stop _, w, _ => by simp only [driveElemsPT]
  | x :: xs, e, w, h => by
    rw [PT.AllL] at h
    simp only [driveElemsPT]
    have h1 : ∀ v w, drivePT P.checkUtf8 v x w = drivePT P v x w := fun v w => drivePT_check v x w h.1
    have h2 : ∀ w, driveElemsPT P.checkUtf8 q xs e w = driveElemsPT P q xs e w := fun w => driveElemsPT_check q xs e w h.2
    simp only [h1, h2]
    generalize hx : P.element q w = x
    have hx' : P.checkUtf8.element q w = x := hx
    rw [hx']
    obtain ⟨r, w'⟩ := x
    cases r <;> rfl

theorem driveMembersPT_check (q : P.M) : ∀ (xs : List (Bytes × PT)) (e : End) (w : σ), PT.AllM ValidUtf8 xs →
    driveMembersPT P.checkUtf8 q xs e w = driveMembersPT P q xs e w
  | [], .closed, w, _ => by simp only [driveMembersPT]; rfl
  | [], .stop _, w, _ => by simp only [driveMembersPT]
  | (k, x) :: xs, e, w, h => by
    rw [PT.AllM] at h
    simp only [driveMembersPT]
    have h0 : P.checkUtf8.key q k w = P.key q k w := by simp [Proto.checkUtf8, h.1]
    have h1 : ∀ v w, drivePT P.checkUtf8 v x w = drivePT P v x w := fun v w => drivePT_check v x w h.2.1
    have h2 : ∀ w, driveMembersPT P.checkUtf8 q xs e w = driveMembersPT P q xs e w := fun w => driveMembersPT_check q xs e w h.2.2
    simp only [h1, h2]
    generalize hx : P.key q k w = x at h0
    rw [h0]
    obtain ⟨r, w'⟩ := x
    cases r <;> rfl

end

/-- On a `&str`, the UTF-8 check of the strings never fails. -/
theorem fromStrImpl_check {s : Bytes} (hv : ValidUtf8 s) (v : P.V) (w : σ) (fuel : Nat) (hf : s.length < fuel) :
    fromStrImplFuel P.checkUtf8 fuel s v w = fromStrImplFuel P fuel s v w := by
  obtain ⟨t, o, p⟩ := (parse_total (initDe s).rem).1 (initDe s) (Nat.le_refl _)
  have h := (p.valid (by simpa using hv)).1
  rw [fromStrImpl_eq P p fuel hf v w, fromStrImpl_eq P.checkUtf8 p fuel hf v w, drivePT_check P v t w h]

end
end Miniserde
