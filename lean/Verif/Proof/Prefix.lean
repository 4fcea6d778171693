import Verif.Proof.Complete

/-!
# JSON values form a prefix code

The grammar is unambiguous, and no value other than a number is a proper prefix of another one.
-/

namespace Miniserde

open De

/-- Bytes of number literals. -/
def NumByte (c : UInt8) : Prop := IsDigit c ∨ c = 0x2B ∨ c = 0x2D ∨ c = 0x2E ∨ c = 0x45 ∨ c = 0x65

instance : DecidablePred NumByte := fun _ => inferInstanceAs (Decidable (_ ∨ _))

/-- Does not start with a byte of a number literal. -/
def NumEnd (r : Bytes) : Prop := ∀ c, r.head? = some c → ¬ NumByte c

theorem span_unique {P : UInt8 → Prop} : ∀ {a b x y : Bytes}, (∀ c ∈ a, P c) → (∀ c ∈ b, P c) → (∀ c, x.head? = some c → ¬ P c) →
    (∀ c, y.head? = some c → ¬ P c) → a ++ x = b ++ y → a = b ∧ x = y
  | [], [], _, _, _, _, _, _, e => ⟨rfl, e⟩
  | [], d :: b, x, _, _, hb, hx, _, e => by
    simp only [List.nil_append, List.cons_append] at e
    subst e
    exact absurd (hb d (by simp)) (hx d rfl)
  | c :: a, [], _, y, ha, _, _, hy, e => by
    simp only [List.nil_append, List.cons_append] at e
    subst e
    exact absurd (ha c (by simp)) (hy c rfl)
  | c :: a, d :: b, x, y, ha, hb, hx, hy, e => by
    simp only [List.cons_append, List.cons.injEq] at e
    obtain ⟨rfl, e⟩ := e
    obtain ⟨rfl, rfl⟩ := span_unique (fun c h => ha c (by simp [h])) (fun c h => hb c (by simp [h])) hx hy e
    exact ⟨rfl, rfl⟩

theorem digits_cons {ds : Bytes} (h : Digits ds) : ∃ c r, ds = c :: r ∧ IsDigit c := by
  obtain ⟨h1, h2⟩ := h
  cases ds with
  | nil => exact absurd rfl h1
  | cons c r => exact ⟨c, r, rfl, h2 c (by simp)⟩

/-- The text of an optional exponent. -/
def expText (x : Option ExpPart) : Bytes := match x with | none => [] | some e => e.text
/-- The text of an optional fraction. -/
def fracText (x : Option Bytes) : Bytes := match x with | none => [] | some ds => 0x2E :: ds

theorem NumLit.text_eq (l : NumLit) : l.text = (if l.minus then [0x2D] else []) ++ l.int ++ fracText l.frac ++ expText l.exp := rfl

theorem digits_end {ds ds' r r' : Bytes} (h : Digits ds) (h' : Digits ds') (hr : ∀ c, r.head? = some c → ¬ IsDigit c)
    (hr' : ∀ c, r'.head? = some c → ¬ IsDigit c) (e : ds ++ r = ds' ++ r') : ds = ds' ∧ r = r' :=
  span_unique h.2 h'.2 hr hr' e

theorem NumEnd.noDigit {r : Bytes} (h : NumEnd r) : ∀ c, r.head? = some c → ¬ IsDigit c := fun c hc hd => h c hc (.inl hd)

theorem exp_unique {x x' : Option ExpPart} {r r' : Bytes} (hx : ∀ e, x = some e → Digits e.digits) (hx' : ∀ e, x' = some e → Digits e.digits)
    (hr : NumEnd r) (hr' : NumEnd r') (e : expText x ++ r = expText x' ++ r') : x = x' ∧ r = r' := by
  have key : ∀ (y : ExpPart) (s : Bytes), NumEnd s → s ≠ expText (some y) ++ r := by
    rintro ⟨up, sg, ds⟩ s hs rfl
    refine hs (if up then 0x45 else 0x65) rfl ?_
    cases up <;> decide
  have key' : ∀ (y : ExpPart) (s : Bytes), NumEnd s → s ≠ expText (some y) ++ r' := by
    rintro ⟨up, sg, ds⟩ s hs rfl
    refine hs (if up then 0x45 else 0x65) rfl ?_
    cases up <;> decide
  cases x with
  | none => cases x' with
    | none => exact ⟨rfl, e⟩
    | some y => exact absurd e (key' y r hr)
  | some x => cases x' with
    | none => exact absurd e.symm (key x r' hr')
    | some y =>
      obtain ⟨up, sg, ds⟩ := x
      obtain ⟨up', sg', ds'⟩ := y
      have hd := hx _ rfl
      have hd' := hx' _ rfl
      simp only at hd hd'
      simp only [expText, ExpPart.text, List.cons_append, List.cons.injEq, List.append_assoc] at e
      obtain ⟨e1, e2⟩ := e
      have hup : up = up' := by cases up <;> cases up' <;> simp at e1 ⊢
      subst hup
      obtain ⟨c, q, hc, hcd⟩ := digits_cons hd
      obtain ⟨c', q', hc', hcd'⟩ := digits_cons hd'
      have hsg : sg = sg' := by
        rw [hc, hc'] at e2
        have a1 : c ≠ 0x2D ∧ c ≠ 0x2B := ⟨by rintro rfl; exact absurd hcd (by decide), by rintro rfl; exact absurd hcd (by decide)⟩
        have a2 : c' ≠ 0x2D ∧ c' ≠ 0x2B := ⟨by rintro rfl; exact absurd hcd' (by decide), by rintro rfl; exact absurd hcd' (by decide)⟩
        rcases sg with _ | _ | _ <;> rcases sg' with _ | _ | _ <;> simp at e2 ⊢
        · exact a1.2 e2.1
        · exact a1.1 e2.1
        · exact a2.2 e2.1.symm
        · exact a2.1 e2.1.symm
      subst hsg
      have e3 := List.append_cancel_left e2
      obtain ⟨rfl, rfl⟩ := digits_end hd hd' hr.noDigit hr'.noDigit e3
      exact ⟨rfl, rfl⟩

theorem expText_head {x : Option ExpPart} {r : Bytes} (hr : NumEnd r) : ∀ c, (expText x ++ r).head? = some c → ¬ IsDigit c ∧ c ≠ 0x2E := by
  intro c hc
  cases x with
  | none => exact ⟨fun h => hr c hc (.inl h), fun h => hr c hc (by subst h; decide)⟩
  | some y =>
    obtain ⟨up, sg, ds⟩ := y
    simp only [expText, ExpPart.text, List.cons_append, List.head?_cons, Option.some.injEq] at hc
    have : ∀ up : Bool, ¬ IsDigit (if up = true then 0x45 else 0x65) ∧ (if up = true then 0x45 else 0x65 : UInt8) ≠ 0x2E := by decide
    exact hc ▸ this up

theorem frac_unique {f f' : Option Bytes} {r r' : Bytes} (hf : ∀ ds, f = some ds → Digits ds) (hf' : ∀ ds, f' = some ds → Digits ds)
    (hr : ∀ c, r.head? = some c → ¬ IsDigit c ∧ c ≠ 0x2E) (hr' : ∀ c, r'.head? = some c → ¬ IsDigit c ∧ c ≠ 0x2E)
    (e : fracText f ++ r = fracText f' ++ r') : f = f' ∧ r = r' := by
  cases f with
  | none => cases f' with
    | none => exact ⟨rfl, e⟩
    | some y =>
      simp only [fracText, List.nil_append, List.cons_append] at e
      subst e
      exact absurd rfl (hr 0x2E rfl).2
  | some x => cases f' with
    | none =>
      simp only [fracText, List.nil_append, List.cons_append] at e
      subst e
      exact absurd rfl (hr' 0x2E rfl).2
    | some y =>
      simp only [fracText, List.cons_append, List.cons.injEq, true_and] at e
      obtain ⟨rfl, rfl⟩ := digits_end (hf _ rfl) (hf' _ rfl) (fun c hc => (hr c hc).1) (fun c hc => (hr' c hc).1) e
      exact ⟨rfl, rfl⟩

theorem fracText_head {f : Option Bytes} {r : Bytes} (hr : ∀ c, r.head? = some c → ¬ IsDigit c ∧ c ≠ 0x2E) :
    ∀ c, (fracText f ++ r).head? = some c → ¬ IsDigit c := by
  intro c hc
  cases f with
  | none => exact (hr c hc).1
  | some y =>
    simp only [fracText, List.cons_append, List.head?_cons, Option.some.injEq] at hc
    subst hc; decide

/-- Number literals are determined by their text and end where no number byte follows. -/
theorem NumLit.text_unique {l l' : NumLit} {r r' : Bytes} (h : l.WF) (h' : l'.WF) (hr : NumEnd r) (hr' : NumEnd r')
    (e : l.text ++ r = l'.text ++ r') : l = l' ∧ r = r' := by
  obtain ⟨m, i, f, x⟩ := l
  obtain ⟨m', i', f', x'⟩ := l'
  simp only [NumLit.text_eq, List.append_assoc] at e
  have hi := h.int_digits
  have hi' := h'.int_digits
  simp only at hi hi'
  have hm : m = m' := by
    obtain ⟨c, q, hc, hcd⟩ := digits_cons hi
    obtain ⟨c', q', hc', hcd'⟩ := digits_cons hi'
    have a1 : c ≠ 0x2D := by rintro rfl; exact absurd hcd (by decide)
    have a2 : c' ≠ 0x2D := by rintro rfl; exact absurd hcd' (by decide)
    rw [hc, hc'] at e
    cases m <;> cases m' <;> simp at e ⊢
    · exact a1 e.1
    · exact a2 e.1.symm
  subst hm
  have e := List.append_cancel_left e
  obtain ⟨e1, e2⟩ := digits_end hi hi' (fracText_head (expText_head hr)) (fracText_head (expText_head hr')) e
  obtain ⟨e3, e4⟩ := frac_unique h.frac_digits h'.frac_digits (expText_head hr) (expText_head hr') e2
  obtain ⟨e5, e6⟩ := exp_unique h.exp_digits h'.exp_digits hr hr' e4
  simp only at e3 e5
  exact ⟨by rw [e1, e3, e5], e6⟩

/-! ## Whitespace, strings -/

/-- Does not start with whitespace. -/
def WsEnd (r : Bytes) : Prop := ∀ c, r.head? = some c → ¬ (c = 0x20 ∨ c = 0x09 ∨ c = 0x0A ∨ c = 0x0D)

theorem ws_unique {w w' r r' : Bytes} (h : Ws w) (h' : Ws w') (hr : WsEnd r) (hr' : WsEnd r') (e : w ++ r = w' ++ r') : w = w' ∧ r = r' :=
  span_unique h h' hr hr' e

theorem wsEnd_cons {c : UInt8} {r : Bytes} (h : isWs c = false) : WsEnd (c :: r) := by
  intro d hd hw
  simp at hd
  subst hd
  rw [(isWs_iff c).2 hw] at h
  cases h

theorem JValue.wsEnd {t r : Bytes} {j : Json} (h : JValue t j) : WsEnd (t ++ r) := by
  obtain ⟨c, q, rfl, hc, -⟩ := jvalue_head h
  exact wsEnd_cons hc

theorem JString.wsEnd {t s r : Bytes} (h : JString t s) : WsEnd (t ++ r) := by
  obtain ⟨q, rfl⟩ := jstring_head h
  exact wsEnd_cons (by decide)

theorem JString.unique {t t' s s' r r' : Bytes} (h : JString t s) (h' : JString t' s') (e : t ++ r = t' ++ r') : t = t' ∧ s = s' ∧ r = r' := by
  cases h with
  | mk h => cases h' with
    | mk h' =>
      simp only [List.cons_append, List.append_assoc, List.cons.injEq, true_and, List.nil_append] at e
      obtain ⟨rfl, rfl, rfl⟩ := h.unique h' e
      exact ⟨rfl, rfl, rfl⟩

theorem Ws.numEnd {w r : Bytes} (h : Ws w) (hr : NumEnd r) : NumEnd (w ++ r) := by
  cases w with
  | nil => exact hr
  | cons c w =>
    intro d hd
    simp at hd
    subst hd
    rcases h c (by simp) with rfl | rfl | rfl | rfl <;> decide

theorem numEnd_cons {c : UInt8} {r : Bytes} (h : ¬ NumByte c) : NumEnd (c :: r) := by
  intro d hd; simp at hd; subst hd; exact h

theorem numEnd_nil : NumEnd [] := by intro c hc; simp at hc

/-- Ends a number, or the value is not a number. -/
def Ends (j : Json) (r : Bytes) : Prop := (∀ l, j ≠ .num l) ∨ NumEnd r

theorem wsEnd_close {r : Bytes} : WsEnd (0x5D :: r) := wsEnd_cons (by decide)
theorem wsEnd_brace {r : Bytes} : WsEnd (0x7D :: r) := wsEnd_cons (by decide)

theorem ends_sep {j : Json} {w r : Bytes} {c : UInt8} (hw : Ws w) (hc : ¬ NumByte c) : Ends j (w ++ c :: r) := .inr (hw.numEnd (numEnd_cons hc))

/-- The first byte of a value tells what kind of value it is. -/
def kindByte : Json → UInt8 → Prop
  | .null, c => c = 0x6E
  | .bool true, c => c = 0x74
  | .bool false, c => c = 0x66
  | .num _, c => c = 0x2D ∨ IsDigit c
  | .str _, c => c = 0x22
  | .arr _, c => c = 0x5B
  | .obj _, c => c = 0x7B

theorem jvalue_kind {t : Bytes} {j : Json} (h : JValue t j) : ∃ c r, t = c :: r ∧ kindByte j c := by
  cases h with
  | null => exact ⟨_, _, rfl, rfl⟩
  | true => exact ⟨_, _, rfl, rfl⟩
  | «false» => exact ⟨_, _, rfl, rfl⟩
  | num l h =>
    obtain ⟨c, q, hc, hd⟩ := digits_cons h.int_digits
    rw [NumLit.text_eq, hc]
    cases hm : l.minus
    · exact ⟨c, _, by simp; rfl, .inr hd⟩
    · exact ⟨0x2D, _, by simp; rfl, .inl rfl⟩
  | str h => obtain ⟨r, rfl⟩ := jstring_head h; exact ⟨_, _, rfl, rfl⟩
  | arrEmpty => exact ⟨_, _, rfl, rfl⟩
  | arr => exact ⟨_, _, rfl, rfl⟩
  | objEmpty => exact ⟨_, _, rfl, rfl⟩
  | obj => exact ⟨_, _, rfl, rfl⟩

theorem kind_of {t' r' x : Bytes} {c : UInt8} {j' : Json} (h' : JValue t' j') (e : c :: x = t' ++ r') : kindByte j' c := by
  obtain ⟨d, q, rfl, hk⟩ := jvalue_kind h'
  simp only [List.cons_append, List.cons.injEq] at e
  exact e.1 ▸ hk

theorem ws_no_elements {w t r r' : Bytes} {xs : List Json} (hw : Ws w) (h : JElements t xs) (e : w ++ 0x5D :: r = t ++ 0x5D :: r') : False := by
  obtain ⟨w', c, q, rfl, hw', hc, h1, h2, h3⟩ := elements_head h
  obtain ⟨rfl, e⟩ := ws_unique (r' := c :: (q ++ 0x5D :: r')) hw hw' wsEnd_close (wsEnd_cons hc) (by simpa using e)
  simp at e
  exact h2 e.1.symm

theorem ws_no_members {w t r r' : Bytes} {xs : List (Bytes × Json)} (hw : Ws w) (h : JMembers t xs) (e : w ++ 0x7D :: r = t ++ 0x7D :: r') : False := by
  obtain ⟨w', c, q, rfl, hw', hc, h1, h2, h3⟩ := members_head h
  obtain ⟨rfl, e⟩ := ws_unique (r' := c :: (q ++ 0x7D :: r')) hw hw' wsEnd_brace (wsEnd_cons hc) (by simpa using e)
  simp at e
  exact h3 e.1.symm

mutual

theorem JValue.unique : ∀ {t t' : Bytes} {j j' : Json} {r r' : Bytes}, JValue t j → JValue t' j' → Ends j r → Ends j' r' → t ++ r = t' ++ r' →
    t = t' ∧ j = j' ∧ r = r'
  | _, _, _, _, _, _, .null, h', e1, e2, e => by
    have hk := kind_of h' e
    cases h' <;> simp [kindByte, IsDigit] at hk
    simp at e; simp [e]
  | _, _, _, _, _, _, .true, h', e1, e2, e => by
    have hk := kind_of h' e
    cases h' <;> simp [kindByte, IsDigit] at hk
    simp at e; simp [e]
  | _, _, _, _, _, _, .false, h', e1, e2, e => by
    have hk := kind_of h' e
    cases h' <;> simp [kindByte, IsDigit] at hk
    simp at e; simp [e]
  | _, _, _, k, _, _, .num l h, h', e1, e2, e => by
    obtain ⟨c, q, hq, hk0⟩ := jvalue_kind (.num l h)
    have hk := kind_of (c := c) (x := q ++ _) h' (by rw [← e, hq]; rfl)
    have hn : ∃ l', k = Json.num l' := by
      cases h' with
      | num l' _ => exact ⟨l', rfl⟩
      | _ =>
        exfalso
        rcases hk0 with rfl | hk0
        · simp [kindByte] at hk
        · simp only [kindByte] at hk; subst hk; revert hk0; decide
    obtain ⟨l', rfl⟩ := hn
    cases h' with
    | num _ h' =>
      obtain ⟨rfl, rfl⟩ := NumLit.text_unique h h' (e1.resolve_left fun h => h l rfl) (e2.resolve_left fun h => h l' rfl) e
      exact ⟨rfl, rfl, rfl⟩
  | _, _, _, _, _, _, .str h, h', e1, e2, e => by
    obtain ⟨q, hq⟩ := jstring_head h
    have hk := kind_of (c := 0x22) (x := q ++ _) h' (by rw [← e, hq]; rfl)
    cases h' <;> simp [kindByte, IsDigit] at hk
    rename_i h'
    obtain ⟨rfl, rfl, rfl⟩ := h.unique h' e
    exact ⟨rfl, rfl, rfl⟩
  | _, _, _, _, _, _, .arrEmpty hw, h', e1, e2, e => by
    have hk := kind_of h' e
    cases h' <;> simp [kindByte, IsDigit] at hk
    · rename_i hw'
      simp at e
      obtain ⟨rfl, f0⟩ := ws_unique hw hw' wsEnd_close wsEnd_close e
      simp at f0
      exact ⟨rfl, rfl, f0⟩
    · rename_i h'
      simp at e
      exact (ws_no_elements hw h' e).elim
  | _, _, _, _, _, _, .arr h, h', e1, e2, e => by
    have hk := kind_of h' e
    cases h' <;> simp [kindByte, IsDigit] at hk
    · rename_i hw'
      simp at e
      exact (ws_no_elements hw' h e.symm).elim
    · rename_i h'
      simp at e
      obtain ⟨rfl, rfl, rfl⟩ := JElements.unique h h' e
      exact ⟨rfl, rfl, rfl⟩
  | _, _, _, _, _, _, .objEmpty hw, h', e1, e2, e => by
    have hk := kind_of h' e
    cases h' <;> simp [kindByte, IsDigit] at hk
    · rename_i hw'
      simp at e
      obtain ⟨rfl, f0⟩ := ws_unique hw hw' wsEnd_brace wsEnd_brace e
      simp at f0
      exact ⟨rfl, rfl, f0⟩
    · rename_i h'
      simp at e
      exact (ws_no_members hw h' e).elim
  | _, _, _, _, _, _, .obj h, h', e1, e2, e => by
    have hk := kind_of h' e
    cases h' <;> simp [kindByte, IsDigit] at hk
    · rename_i hw'
      simp at e
      exact (ws_no_members hw' h e.symm).elim
    · rename_i h'
      simp at e
      obtain ⟨rfl, rfl, rfl⟩ := JMembers.unique h h' e
      exact ⟨rfl, rfl, rfl⟩

theorem JElements.unique : ∀ {t t' : Bytes} {xs xs' : List Json} {r r' : Bytes}, JElements t xs → JElements t' xs' →
    t ++ 0x5D :: r = t' ++ 0x5D :: r' → t = t' ∧ xs = xs' ∧ r = r'
  | _, _, _, _, _, _, .one h1 h h2, h', e => by
    cases h' with
    | one h1' h' h2' =>
      simp only [List.append_assoc] at e
      obtain ⟨rfl, f0⟩ := ws_unique h1 h1' h.wsEnd h'.wsEnd e
      obtain ⟨rfl, rfl, f1⟩ := JValue.unique h h' (ends_sep h2 (by decide)) (ends_sep h2' (by decide)) f0
      obtain ⟨rfl, f2⟩ := ws_unique h2 h2' wsEnd_close wsEnd_close f1
      simp at f2
      exact ⟨rfl, rfl, f2⟩
    | cons h1' h' h2' hs' =>
      simp only [List.append_assoc, List.cons_append] at e
      obtain ⟨rfl, f0⟩ := ws_unique h1 h1' h.wsEnd h'.wsEnd e
      obtain ⟨rfl, rfl, f1⟩ := JValue.unique h h' (ends_sep h2 (by decide)) (ends_sep h2' (by decide)) f0
      obtain ⟨rfl, f2⟩ := ws_unique h2 h2' wsEnd_close (wsEnd_cons (by decide)) f1
      simp at f2
  | _, _, _, _, _, _, .cons h1 h h2 hs, h', e => by
    cases h' with
    | one h1' h' h2' =>
      simp only [List.append_assoc, List.cons_append] at e
      obtain ⟨rfl, f0⟩ := ws_unique h1 h1' h.wsEnd h'.wsEnd e
      obtain ⟨rfl, rfl, f1⟩ := JValue.unique h h' (ends_sep h2 (by decide)) (ends_sep h2' (by decide)) f0
      obtain ⟨rfl, f2⟩ := ws_unique h2 h2' (wsEnd_cons (by decide)) wsEnd_close f1
      simp at f2
    | cons h1' h' h2' hs' =>
      simp only [List.append_assoc, List.cons_append] at e
      obtain ⟨rfl, f0⟩ := ws_unique h1 h1' h.wsEnd h'.wsEnd e
      obtain ⟨rfl, rfl, f1⟩ := JValue.unique h h' (ends_sep h2 (by decide)) (ends_sep h2' (by decide)) f0
      obtain ⟨rfl, f2⟩ := ws_unique h2 h2' (wsEnd_cons (by decide)) (wsEnd_cons (by decide)) f1
      simp only [List.cons.injEq, true_and] at f2
      obtain ⟨rfl, rfl, rfl⟩ := JElements.unique hs hs' f2
      exact ⟨rfl, rfl, rfl⟩

theorem JMembers.unique : ∀ {t t' : Bytes} {xs xs' : List (Bytes × Json)} {r r' : Bytes}, JMembers t xs → JMembers t' xs' →
    t ++ 0x7D :: r = t' ++ 0x7D :: r' → t = t' ∧ xs = xs' ∧ r = r'
  | _, _, _, _, _, _, .one h1 hk h2 h3 h h4, h', e => by
    cases h' with
    | one h1' hk' h2' h3' h' h4' =>
      simp only [List.append_assoc, List.cons_append] at e
      obtain ⟨rfl, f0⟩ := ws_unique h1 h1' hk.wsEnd hk'.wsEnd e
      obtain ⟨rfl, rfl, f1⟩ := hk.unique hk' f0
      obtain ⟨rfl, f2⟩ := ws_unique h2 h2' (wsEnd_cons (by decide)) (wsEnd_cons (by decide)) f1
      simp only [List.cons.injEq, true_and] at f2
      obtain ⟨rfl, f3⟩ := ws_unique h3 h3' h.wsEnd h'.wsEnd f2
      obtain ⟨rfl, rfl, f4⟩ := JValue.unique h h' (ends_sep h4 (by decide)) (ends_sep h4' (by decide)) f3
      obtain ⟨rfl, f5⟩ := ws_unique h4 h4' wsEnd_brace wsEnd_brace f4
      simp at f5
      exact ⟨rfl, rfl, f5⟩
    | cons h1' hk' h2' h3' h' h4' hs' =>
      simp only [List.append_assoc, List.cons_append] at e
      obtain ⟨rfl, f0⟩ := ws_unique h1 h1' hk.wsEnd hk'.wsEnd e
      obtain ⟨rfl, rfl, f1⟩ := hk.unique hk' f0
      obtain ⟨rfl, f2⟩ := ws_unique h2 h2' (wsEnd_cons (by decide)) (wsEnd_cons (by decide)) f1
      simp only [List.cons.injEq, true_and] at f2
      obtain ⟨rfl, f3⟩ := ws_unique h3 h3' h.wsEnd h'.wsEnd f2
      obtain ⟨rfl, rfl, f4⟩ := JValue.unique h h' (ends_sep h4 (by decide)) (ends_sep h4' (by decide)) f3
      obtain ⟨rfl, f5⟩ := ws_unique h4 h4' wsEnd_brace (wsEnd_cons (by decide)) f4
      simp at f5
  | _, _, _, _, _, _, .cons h1 hk h2 h3 h h4 hs, h', e => by
    cases h' with
    | one h1' hk' h2' h3' h' h4' =>
      simp only [List.append_assoc, List.cons_append] at e
      obtain ⟨rfl, f0⟩ := ws_unique h1 h1' hk.wsEnd hk'.wsEnd e
      obtain ⟨rfl, rfl, f1⟩ := hk.unique hk' f0
      obtain ⟨rfl, f2⟩ := ws_unique h2 h2' (wsEnd_cons (by decide)) (wsEnd_cons (by decide)) f1
      simp only [List.cons.injEq, true_and] at f2
      obtain ⟨rfl, f3⟩ := ws_unique h3 h3' h.wsEnd h'.wsEnd f2
      obtain ⟨rfl, rfl, f4⟩ := JValue.unique h h' (ends_sep h4 (by decide)) (ends_sep h4' (by decide)) f3
      obtain ⟨rfl, f5⟩ := ws_unique h4 h4' (wsEnd_cons (by decide)) wsEnd_brace f4
      simp at f5
    | cons h1' hk' h2' h3' h' h4' hs' =>
      simp only [List.append_assoc, List.cons_append] at e
      obtain ⟨rfl, f0⟩ := ws_unique h1 h1' hk.wsEnd hk'.wsEnd e
      obtain ⟨rfl, rfl, f1⟩ := hk.unique hk' f0
      obtain ⟨rfl, f2⟩ := ws_unique h2 h2' (wsEnd_cons (by decide)) (wsEnd_cons (by decide)) f1
      simp only [List.cons.injEq, true_and] at f2
      obtain ⟨rfl, f3⟩ := ws_unique h3 h3' h.wsEnd h'.wsEnd f2
      obtain ⟨rfl, rfl, f4⟩ := JValue.unique h h' (ends_sep h4 (by decide)) (ends_sep h4' (by decide)) f3
      obtain ⟨rfl, f5⟩ := ws_unique h4 h4' (wsEnd_cons (by decide)) (wsEnd_cons (by decide)) f4
      simp only [List.cons.injEq, true_and] at f5
      obtain ⟨rfl, rfl, rfl⟩ := JMembers.unique hs hs' f5
      exact ⟨rfl, rfl, rfl⟩

end

/-- The grammar is unambiguous. -/
theorem JText.unique {s : Bytes} {j j' : Json} (h : JText s j) (h' : JText s j') : j = j' := by
  obtain ⟨w, t, u, rfl, hw, ht, hu⟩ := h
  obtain ⟨w', t', u', e, hw', ht', hu'⟩ := h'
  obtain ⟨rfl, f0⟩ := ws_unique hw hw' ht.wsEnd ht'.wsEnd e
  have hn : ∀ {u : Bytes}, Ws u → NumEnd u := fun {u} hu => by simpa using hu.numEnd (r := []) numEnd_nil
  exact (JValue.unique ht ht' (.inr (hn hu)) (.inr (hn hu')) f0).2.1

/-- What follows a text that is not a number, in a longer text, is whitespace. -/
theorem JText.prefix {s u : Bytes} {j j' : Json} (hj : ∀ l, j ≠ .num l) (h : JText s j) (h' : JText (s ++ u) j') : Ws u ∧ j' = j := by
  obtain ⟨w, t, x, rfl, hw, ht, hx⟩ := h
  obtain ⟨w', t', x', e, hw', ht', hx'⟩ := h'
  simp only [List.append_assoc] at e
  obtain ⟨rfl, f0⟩ := ws_unique hw hw' ht.wsEnd ht'.wsEnd e
  obtain ⟨rfl, rfl, f1⟩ := JValue.unique ht ht' (.inl hj) (.inr (by simpa using hx'.numEnd (r := []) numEnd_nil)) f0
  refine ⟨fun c hc => hx' c ?_, rfl⟩
  rw [← f1]; simp [hc]

end Miniserde
