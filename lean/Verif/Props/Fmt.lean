import Verif.Model.Fmt
import Verif.Spec.Fmt
import Verif.Props.Float
import Verif.Props.Reparse
import Verif.Props.Prefix
import Verif.Props.Kind

/-!
# `Display` of numbers and `Debug` of values
-/

namespace Miniserde

section
variable {ryu : F64 → Bytes} {lit : F64 → NumLit}

/-- `n` is a `Number`. -/
def Val.IsNum : Val → Bool
  | .numU _ | .numI _ | .numF _ => true
  | _ => false

/-- **C59.** The `Display` of a `Number` is the text `to_string` writes for it, if it is finite. -/
theorem C59_display (E : Env) (order : Nat → List (Bytes × Val) → List (Bytes × Val)) (v : Val) (hv : HasTy E .number v)
    (hf : ∀ x, v = .numF x → x.isFinite = true) (o : Bytes) : PrintsAs E order ryu .number v o ↔ o = displayNumber ryu v := by
  have key : ∀ (f : Frag Nat Nat) (d : Bytes), beginVal E order .number v SHeap.empty = (some f, SHeap.empty) →
      stepS (P := serLib E order) ryu ⟨[], [], f, SHeap.empty⟩ = .finished (some d) SHeap.empty → (PrintsAs E order ryu .number v o ↔ o = d) := by
    intro f d hb hs
    have hp : Prints (serLib E order) ryu (.number, v) SHeap.empty d SHeap.empty := by
      refine ⟨1, ?_⟩
      have hb' : (serLib E order).begin (.number, v) SHeap.empty = (some f, SHeap.empty) := hb
      have : beginWith (P := serLib E order) [] [] (.number, v) SHeap.empty = .running ⟨[], [], f, SHeap.empty⟩ := by
        unfold beginWith
        rw [hb']
      unfold toStringN
      rw [this]
      exact hs
    constructor
    · rintro ⟨w, h⟩
      exact (Prints.unique h hp).1
    · rintro rfl
      exact ⟨_, hp⟩
  cases hv with
  | numU _ _ => exact key _ _ rfl (by simp [stepS, advance, displayNumber])
  | numI _ _ => exact key _ _ rfl (by simp [stepS, advance, displayNumber])
  | @numF _ x _ _ =>
    have := hf x rfl
    refine key _ _ rfl ?_
    cases x <;> simp [Flt.isFinite] at this
    simp [stepS, advance, displayNumber, ryuFormat, Flt.isFinite]
  | array h => rcases h with e | e <;> cases e
  | object h => rcases h with e | e <;> cases e

theorem not_start {c : UInt8} {r w b u : Bytes} {j : Json} (hc : startKind c = none) (hc' : ¬ Ws [c]) (hw : Ws w) (hb : JValue b j)
    (e : c :: r = w ++ (b ++ u)) : False := by
  cases w with
  | cons x w =>
    have := (List.cons.inj e).1
    subst this
    exact hc' fun y hy => hw y (by simp at hy; simp [hy])
  | nil =>
    obtain ⟨c', r', rfl, hk⟩ := jvalue_startKind hb
    have := (List.cons.inj e).1
    subst this
    rw [hc] at hk
    cases hk

theorem not_minus {c : UInt8} {r w b u : Bytes} {j : Json} (hc : ¬ IsDigit c) (hw : Ws w) (hb : JValue b j)
    (e : 0x2D :: c :: r = w ++ (b ++ u)) : False := by
  cases w with
  | cons x w =>
    have h1 := (List.cons.inj e).1
    subst h1
    exact absurd (hw 0x2D (by simp)) (by decide)
  | nil =>
    rw [List.nil_append] at e
    cases hb with
    | num l h =>
      obtain ⟨hi, hd⟩ := h.int_digits
      obtain ⟨mn, int, fo, xo⟩ := l
      cases int with
      | nil => exact hi rfl
      | cons d ds =>
        have hd' := hd d (by simp)
        cases mn with
        | true =>
          simp only [NumLit.text, if_true, List.cons_append, List.nil_append, List.cons.injEq] at e
          exact hc (e.2.1 ▸ hd')
        | false =>
          simp only [NumLit.text, Bool.false_eq_true, if_false, List.cons_append, List.nil_append, List.cons.injEq] at e
          exact absurd (e.1 ▸ hd') (by decide)
    | str h => cases h; exact absurd (List.cons.inj e).1 (by decide)
    | _ => exact absurd (List.cons.inj e).1 (by decide)

/-- **C59.** The `Display` of a number that is not finite is `NaN`, `inf` or `-inf`; no type reads it. -/
theorem C59_non_finite (E : Env) (x : F64) (hx : x.isFinite = false) (t : Ty) :
    displayNumber ryu (.numF x) = (if x = .nan then str! "NaN" else if x = .inf true then str! "-inf" else str! "inf") ∧
    parseAs E t (displayNumber ryu (.numF x)) = some .err := by
  have h : displayNumber ryu (.numF x) = str! "NaN" ∨ displayNumber ryu (.numF x) = str! "inf" ∨ displayNumber ryu (.numF x) = str! "-inf" := by
    cases x with
    | nan => exact .inl rfl
    | inf s => cases s <;> simp [displayNumber, ryuFormat]
    | fin => cases hx
  have h0 : displayNumber ryu (.numF x) = (if x = .nan then str! "NaN" else if x = .inf true then str! "-inf" else str! "inf") := by
    cases x with
    | nan => rfl
    | inf s => cases s <;> simp [displayNumber, ryuFormat]
    | fin => cases hx
  refine ⟨h0, parseAs_not_text E ?_ ?_ t⟩
  · rintro ⟨j, w, b, u, e, hw, hb, -⟩
    rcases h with h | h | h <;> rw [h] at e
    · exact not_start (by decide) (by simp [Ws]) hw hb e
    · exact not_start (by decide) (by simp [Ws]) hw hb e
    · exact not_minus (by decide) hw hb e
  · rcases h with h | h | h <;> rw [h] <;> decide

/-! ## `Debug` -/

/-- What is assumed of the `Debug` of `str` (quotes, with escapes): the text starts with a quote and it is clear where it ends and which string it is. -/
structure StrDebug (d : Bytes → Bytes) : Prop where
  quote : ∀ s, ∃ r, d s = 0x22 :: r
  delimited : ∀ s s' r r', ValidUtf8 s → ValidUtf8 s' → d s ++ r = d s' ++ r' → s = s' ∧ r = r'

/-- Texts without a closing parenthesis, before one. -/
theorem paren_cancel : ∀ {a b r r' : Bytes}, (0x29 : UInt8) ∉ a → (0x29 : UInt8) ∉ b → a ++ 0x29 :: r = b ++ 0x29 :: r' → a = b ∧ r = r'
  | [], [], _, _, _, _, e => ⟨rfl, (List.cons.inj e).2⟩
  | [], y :: b, _, _, _, hb, e => by
    have := (List.cons.inj e).1
    subst this
    exact absurd List.mem_cons_self hb
  | x :: a, [], _, _, ha, _, e => by
    have := (List.cons.inj e).1
    subst this
    exact absurd List.mem_cons_self ha
  | x :: a, y :: b, _, _, ha, hb, e => by
    obtain ⟨rfl, e'⟩ := List.cons.inj e
    obtain ⟨rfl, h⟩ := paren_cancel (fun h => ha (List.mem_cons_of_mem _ h)) (fun h => hb (List.mem_cons_of_mem _ h)) e'
    exact ⟨rfl, h⟩

theorem digits_no_paren {ds : Bytes} (h : ∀ c ∈ ds, IsDigit c) : (0x29 : UInt8) ∉ ds := fun hm => absurd (h _ hm) (by decide)

theorem text_no_paren {l : NumLit} (h : l.WF) : (0x29 : UInt8) ∉ l.text := by
  obtain ⟨mn, int, fo, xo⟩ := l
  obtain ⟨h1, -, h3, h4⟩ := h
  have e1 := digits_no_paren h1.2
  simp only at e1
  unfold NumLit.text
  simp only [List.mem_append, not_or]
  refine ⟨⟨⟨?_, e1⟩, ?_⟩, ?_⟩
  · cases mn <;> simp
  · cases fo with
    | none => simp
    | some fs =>
      have e2 := digits_no_paren (h3 fs rfl).2
      simpa using e2
  · cases xo with
    | none => simp
    | some x =>
      obtain ⟨u, sg, ds⟩ := x
      have e2 := digits_no_paren (h4 _ rfl).2
      simp only at e2
      cases u <;> rcases sg with _ | _ | _ <;> simpa [ExpPart.text] using e2

/-- The literal written for a `Number`, if it is finite. -/
theorem display_cases (hr : RyuSyntax ryu lit) {E : Env} {v : Val} (hv : HasTy E .number v) :
    (∃ n, v.canon = .numU n ∧ displayNumber ryu v = (NumLit.mk false (decimal n) none none).text) ∨
    (∃ n : Nat, 0 < n ∧ v.canon = .numI (-n) ∧ displayNumber ryu v = (NumLit.mk true (decimal n) none none).text) ∨
    (∃ x : F64, x.isFinite = true ∧ x.Valid binary64 ∧ v = .numF x ∧ displayNumber ryu v = (lit x).text) ∨
    (∃ x : F64, x.isFinite = false ∧ v = .numF x) := by
  cases hv with
  | @numU _ n _ _ => exact .inl ⟨n, rfl, decimal_text n⟩
  | @numI _ z _ _ =>
    by_cases hz : z < 0
    · refine .inr (.inl ⟨z.natAbs, by omega, ?_, ?_⟩)
      · simp only [Val.canon, if_pos hz]
        congr 1
        omega
      · simp [displayNumber, decimalInt_text, hz]
    · refine .inl ⟨z.natAbs, ?_, ?_⟩
      · simp only [Val.canon, if_neg hz]
        congr 1
        omega
      · simp [displayNumber, decimalInt_text, hz]
  | @numF _ x _ hx =>
    cases hf : x.isFinite with
    | true =>
      refine .inr (.inr (.inl ⟨x, hf, hx, rfl, ?_⟩))
      cases x <;> simp [Flt.isFinite] at hf
      exact hr.text _ rfl
    | false => exact .inr (.inr (.inr ⟨x, hf, rfl⟩))
  | array h => rcases h with e | e <;> cases e
  | object h => rcases h with e | e <;> cases e

theorem lit_unique {l l' : NumLit} (h : l.WF) (h' : l'.WF) (e : l.text = l'.text) : l = l' := by
  have h1 := num_text l h
  rw [e] at h1
  exact Json.num.inj (JText.unique h1 (num_text l' h'))

theorem decimal_inj {n m : Nat} (h : decimal n = decimal m) : n = m := by rw [← decimal_val n, h, decimal_val]

/-- The `Display` of a non-finite number is not a number literal. -/
theorem nonfinite_text {x : F64} (hx : x.isFinite = false) {l : NumLit} (hl : l.WF) : displayNumber ryu (.numF x) ≠ l.text := by
  intro e
  have hb := JValue.num l hl
  rw [← e] at hb
  cases x with
  | nan => exact not_start (c := 0x4E) (w := []) (u := []) (by decide) (by simp [Ws]) De.ws_nil hb rfl
  | inf s =>
    cases s with
    | true => exact not_minus (c := 0x69) (w := []) (u := []) (by decide) De.ws_nil hb rfl
    | false => exact not_start (c := 0x69) (w := []) (u := []) (by decide) (by simp [Ws]) De.ws_nil hb rfl
  | fin => cases hx

/-- The `Display` of a number determines the number, except that `U64` and `I64` are not distinguished. -/
theorem display_injective (hr : RyuSyntax ryu lit) (hv : RyuRounds lit) {E : Env} {a b : Val} (ha : HasTy E .number a) (hb : HasTy E .number b)
    (e : displayNumber ryu a = displayNumber ryu b) : a.canon = b.canon := by
  rcases display_cases hr ha with ⟨n, h1, h2⟩ | ⟨n, h0, h1, h2⟩ | ⟨x, hx, hvx, rfl, h2⟩ | ⟨x, hx, rfl⟩ <;>
    rcases display_cases hr hb with ⟨m, g1, g2⟩ | ⟨m, g0, g1, g2⟩ | ⟨y, hy, hvy, rfl, g2⟩ | ⟨y, hy, rfl⟩
  · rw [h2, g2] at e
    have := lit_unique (decimal_wf _ _) (decimal_wf _ _) e
    rw [h1, g1, decimal_inj (NumLit.mk.inj this).2.1]
  · rw [h2, g2] at e
    have := lit_unique (decimal_wf _ _) (decimal_wf _ _) e
    cases (NumLit.mk.inj this).1
  · rw [h2, g2] at e
    have := lit_unique (decimal_wf _ _) (hr.wf y hy) e
    rcases hr.notInt y hy with h | h <;> rw [← this] at h <;> exact absurd rfl h
  · rw [h2] at e
    exact absurd e.symm (nonfinite_text hy (decimal_wf _ _))
  · rw [h2, g2] at e
    have := lit_unique (decimal_wf _ _) (decimal_wf _ _) e
    cases (NumLit.mk.inj this).1
  · rw [h2, g2] at e
    have := lit_unique (decimal_wf _ _) (decimal_wf _ _) e
    rw [h1, g1, decimal_inj (NumLit.mk.inj this).2.1]
  · rw [h2, g2] at e
    have := lit_unique (decimal_wf _ _) (hr.wf y hy) e
    rcases hr.notInt y hy with h | h <;> rw [← this] at h <;> exact absurd rfl h
  · rw [h2] at e
    exact absurd e.symm (nonfinite_text hy (decimal_wf _ _))
  · rw [h2, g2] at e
    have := lit_unique (hr.wf x hx) (decimal_wf _ _) e
    rcases hr.notInt x hx with h | h <;> rw [this] at h <;> exact absurd rfl h
  · rw [h2, g2] at e
    have := lit_unique (hr.wf x hx) (decimal_wf _ _) e
    rcases hr.notInt x hx with h | h <;> rw [this] at h <;> exact absurd rfl h
  · rw [h2, g2] at e
    have hl := lit_unique (hr.wf x hx) (hr.wf y hy) e
    have h3 := hv.value x hx hvx
    have h4 := hv.value y hy hvy
    rw [← hl] at h4
    have h5 := h3.unique binary64_ok h4 (fun _ => by rw [← hv.sign x hx hvx, ← hv.sign y hy hvy, hl])
    rw [h5]
  · rw [h2] at e
    exact absurd e.symm (nonfinite_text hy (hr.wf x hx))
  · rw [g2] at e
    exact absurd e (nonfinite_text hx (decimal_wf _ _))
  · rw [g2] at e
    exact absurd e (nonfinite_text hx (decimal_wf _ _))
  · rw [g2] at e
    exact absurd e (nonfinite_text hx (hr.wf y hy))
  · cases x with
    | fin => cases hx
    | nan =>
      cases y with
      | fin => cases hy
      | nan => rfl
      | inf s => cases s <;> simp [displayNumber, ryuFormat] at e
    | inf s =>
      cases y with
      | fin => cases hy
      | nan => cases s <;> simp [displayNumber, ryuFormat] at e
      | inf s' => cases s <;> cases s' <;> simp [displayNumber, ryuFormat] at e ⊢

theorem display_no_paren (hr : RyuSyntax ryu lit) {E : Env} {a : Val} (ha : HasTy E .number a) : (0x29 : UInt8) ∉ displayNumber ryu a := by
  rcases display_cases hr ha with ⟨n, h1, h2⟩ | ⟨n, h0, h1, h2⟩ | ⟨x, hx, hvx, rfl, h2⟩ | ⟨x, hx, rfl⟩
  · rw [h2]; exact text_no_paren (decimal_wf _ _)
  · rw [h2]; exact text_no_paren (decimal_wf _ _)
  · rw [h2]; exact text_no_paren (hr.wf x hx)
  · cases x with
    | fin => cases hx
    | nan => simp [displayNumber, ryuFormat]
    | inf s => cases s <;> simp [displayNumber, ryuFormat]

/-- The six kinds of `Value`s. -/
theorem value_cases {E : Env} {v : Val} (h : HasTy E .value v) : v = .null ∨ (∃ b, v = .bool b) ∨ (∃ s, v = .str s ∧ ValidUtf8 s) ∨
    (HasTy E .number v ∧ ∀ d, debugValue ryu d v = str! "Number(" ++ displayNumber ryu v ++ str! ")") ∨
    (∃ vs, v = .seq vs ∧ ∀ v ∈ vs, HasTy E .value v) ∨ (∃ ms, v = .map ms ∧ ∀ m ∈ ms, ValidUtf8 m.1 ∧ HasTy E .value m.2) := by
  cases h with
  | numU _ h => exact .inr (.inr (.inr (.inl ⟨.numU (.inl rfl) h, fun _ => by rw [debugValue]⟩)))
  | numI _ h => exact .inr (.inr (.inr (.inl ⟨.numI (.inl rfl) h, fun _ => by rw [debugValue]⟩)))
  | numF _ h => exact .inr (.inr (.inr (.inl ⟨.numF (.inl rfl) h, fun _ => by rw [debugValue]⟩)))
  | vNull => exact .inl rfl
  | vBool b => exact .inr (.inl ⟨b, rfl⟩)
  | vStr h => exact .inr (.inr (.inl ⟨_, rfl, h⟩))
  | array _ h => exact .inr (.inr (.inr (.inr (.inl ⟨_, rfl, h⟩))))
  | object _ hk _ h => exact .inr (.inr (.inr (.inr (.inr ⟨_, rfl, fun m hm => ⟨hk m hm, h m hm⟩⟩))))

theorem debug_head {d : Bytes → Bytes} {E : Env} {v : Val} (h : HasTy E .value v) :
    ∃ c r, debugValue ryu d v = c :: r ∧ c ≠ 0x5D ∧ c ≠ 0x7D ∧ c ≠ 0x2C := by
  rcases value_cases (ryu := ryu) h with rfl | ⟨b, rfl⟩ | ⟨s, rfl, hu⟩ | ⟨-, hd⟩ | ⟨vs, rfl, -⟩ | ⟨ms, rfl, -⟩
  · exact ⟨_, _, by rw [debugValue], by decide, by decide, by decide⟩
  · exact ⟨_, _, by rw [debugValue]; rfl, by decide, by decide, by decide⟩
  · exact ⟨_, _, by rw [debugValue]; rfl, by decide, by decide, by decide⟩
  · exact ⟨_, _, by rw [hd]; rfl, by decide, by decide, by decide⟩
  · exact ⟨_, _, by rw [debugValue]; rfl, by decide, by decide, by decide⟩
  · exact ⟨_, _, by rw [debugValue]; rfl, by decide, by decide, by decide⟩

section
variable {d : Bytes → Bytes} {E : Env}

/-- Is the value no array and no object? -/
def Val.isScalar : Val → Bool
  | .seq _ | .map _ => false
  | _ => true

theorem debug_scalar (hd : StrDebug d) (hr : RyuSyntax ryu lit) (hl : RyuRounds lit) {v v' : Val} {r r' : Bytes} (h : HasTy E .value v)
    (h' : HasTy E .value v') (hv : v.isScalar = true) (e : debugValue ryu d v ++ r = debugValue ryu d v' ++ r') : v.canon = v'.canon ∧ r = r' := by
  rcases value_cases (ryu := ryu) h with rfl | ⟨b, rfl⟩ | ⟨s, rfl, hu⟩ | ⟨g, gd⟩ | ⟨vs, rfl, -⟩ | ⟨ms, rfl, -⟩
  · rcases value_cases (ryu := ryu) h' with rfl | ⟨b', rfl⟩ | ⟨s', rfl, hu'⟩ | ⟨h', hd'⟩ | ⟨vs', rfl, h'⟩ | ⟨ms', rfl, h'⟩
    · simpa [debugValue] using e
    · simp [debugValue] at e
    · simp [debugValue] at e
    · rw [hd'] at e; simp [debugValue] at e
    · simp [debugValue] at e
    · simp [debugValue] at e
  · rcases value_cases (ryu := ryu) h' with rfl | ⟨b', rfl⟩ | ⟨s', rfl, hu'⟩ | ⟨h', hd'⟩ | ⟨vs', rfl, h'⟩ | ⟨ms', rfl, h'⟩
    · simp [debugValue] at e
    · cases b <;> cases b' <;> simp [debugValue] at e ⊢ <;> exact e
    · simp [debugValue] at e
    · rw [hd'] at e; simp [debugValue] at e
    · simp [debugValue] at e
    · simp [debugValue] at e
  · rcases value_cases (ryu := ryu) h' with rfl | ⟨b', rfl⟩ | ⟨s', rfl, hu'⟩ | ⟨h', hd'⟩ | ⟨vs', rfl, h'⟩ | ⟨ms', rfl, h'⟩
    · simp [debugValue] at e
    · simp [debugValue] at e
    · simp only [debugValue, List.append_assoc, List.cons_append, List.nil_append, List.cons.injEq, true_and] at e
      obtain ⟨rfl, e1⟩ := hd.delimited _ _ _ _ hu hu' e
      exact ⟨rfl, (List.cons.inj e1).2⟩
    · rw [hd'] at e; simp [debugValue] at e
    · simp [debugValue] at e
    · simp [debugValue] at e
  · rw [gd] at e
    rcases value_cases (ryu := ryu) h' with rfl | ⟨b', rfl⟩ | ⟨s', rfl, hu'⟩ | ⟨h', hd'⟩ | ⟨vs', rfl, h'⟩ | ⟨ms', rfl, h'⟩
    · simp [debugValue] at e
    · simp [debugValue] at e
    · simp [debugValue] at e
    · rw [hd'] at e
      simp only [List.append_assoc, List.cons_append, List.nil_append, List.cons.injEq, true_and] at e
      obtain ⟨e1, e2⟩ := paren_cancel (display_no_paren hr g) (display_no_paren hr h') e
      exact ⟨display_injective hr hl g h' e1, e2⟩
    · simp [debugValue] at e
    · simp [debugValue] at e
  · cases hv
  · cases hv

mutual

theorem debug_delimited (hd : StrDebug d) (hr : RyuSyntax ryu lit) (hl : RyuRounds lit) : ∀ (v v' : Val) (r r' : Bytes), HasTy E .value v →
    HasTy E .value v' → debugValue ryu d v ++ r = debugValue ryu d v' ++ r' → v.canon = v'.canon ∧ r = r'
  | .seq vs, v', r, r', h, h', e => by
    have hs : ∀ v ∈ vs, HasTy E .value v := by
      rcases value_cases (ryu := ryu) h with h | ⟨b, h⟩ | ⟨s, h, -⟩ | ⟨h, -⟩ | ⟨vs', h, g⟩ | ⟨ms, h, -⟩ <;> cases h
      · exact fun v hv => by rename_i ht _; rcases ht with e | e <;> cases e
      · exact g
    rcases value_cases (ryu := ryu) h' with rfl | ⟨b', rfl⟩ | ⟨s', rfl, hu'⟩ | ⟨-, hd'⟩ | ⟨vs', rfl, g'⟩ | ⟨ms', rfl, g'⟩
    · simp [debugValue] at e
    · simp [debugValue] at e
    · simp [debugValue] at e
    · rw [hd'] at e; simp [debugValue] at e
    · simp only [debugValue, List.append_assoc, List.cons_append, List.nil_append, List.cons.injEq, true_and] at e
      obtain ⟨h1, h2⟩ := debugList_delimited hd hr hl true vs vs' r r' hs g' e
      exact ⟨by simp only [Val.canon, h1], h2⟩
    · simp [debugValue] at e
  | .map ms, v', r, r', h, h', e => by
    have hs : ∀ m ∈ ms, ValidUtf8 m.1 ∧ HasTy E .value m.2 := by
      rcases value_cases (ryu := ryu) h with h | ⟨b, h⟩ | ⟨s, h, -⟩ | ⟨h, -⟩ | ⟨vs', h, g⟩ | ⟨ms, h, g⟩ <;> cases h
      · exact fun v hv => by rename_i ht _ _ _; rcases ht with e | e <;> cases e
      · exact g
    rcases value_cases (ryu := ryu) h' with rfl | ⟨b', rfl⟩ | ⟨s', rfl, hu'⟩ | ⟨-, hd'⟩ | ⟨vs', rfl, g'⟩ | ⟨ms', rfl, g'⟩
    · simp [debugValue] at e
    · simp [debugValue] at e
    · simp [debugValue] at e
    · rw [hd'] at e; simp [debugValue] at e
    · simp [debugValue] at e
    · simp only [debugValue, List.append_assoc, List.cons_append, List.nil_append, List.cons.injEq, true_and] at e
      obtain ⟨h1, h2⟩ := debugMap_delimited hd hr hl true ms ms' r r' hs g' e
      exact ⟨by simp only [Val.canon, h1], h2⟩
  | .null, v', r, r', h, h', e => debug_scalar hd hr hl h h' rfl e
  | .bool _, v', r, r', h, h', e => debug_scalar hd hr hl h h' rfl e
  | .str _, v', r, r', h, h', e => debug_scalar hd hr hl h h' rfl e
  | .numU _, v', r, r', h, h', e => debug_scalar hd hr hl h h' rfl e
  | .numI _, v', r, r', h, h', e => debug_scalar hd hr hl h h' rfl e
  | .numF _, v', r, r', h, h', e => debug_scalar hd hr hl h h' rfl e
  | .int _, _, _, _, h, _, _ => nomatch h
  | .f32 _, _, _, _, h, _, _ => nomatch h
  | .f64 _, _, _, _, h, _, _ => nomatch h
  | .optNone, _, _, _, h, _, _ => nomatch h
  | .optSome _, _, _, _, h, _, _ => nomatch h
  | .box _, _, _, _, h, _, _ => nomatch h
  | .strct _, _, _, _, h, _, _ => nomatch h
  | .enm _, _, _, _, h, _, _ => nomatch h

theorem debugList_delimited (hd : StrDebug d) (hr : RyuSyntax ryu lit) (hl : RyuRounds lit) (first : Bool) : ∀ (vs vs' : List Val) (r r' : Bytes),
    (∀ v ∈ vs, HasTy E .value v) → (∀ v ∈ vs', HasTy E .value v) →
    debugList ryu d first vs ++ 0x5D :: r = debugList ryu d first vs' ++ 0x5D :: r' → canons vs = canons vs' ∧ r = r'
  | [], [], r, r', _, _, e => by simpa [debugList, canons] using e
  | [], v' :: vs', r, r', _, h', e => by
    obtain ⟨c, t, hc, h1, -, -⟩ := debug_head (ryu := ryu) (d := d) (h' v' List.mem_cons_self)
    cases first <;> simp [debugList, hc] at e
    exact absurd e.1.symm h1
  | v :: vs, [], r, r', h, _, e => by
    obtain ⟨c, t, hc, h1, -, -⟩ := debug_head (ryu := ryu) (d := d) (h v List.mem_cons_self)
    cases first <;> simp [debugList, hc] at e
    exact absurd e.1 h1
  | v :: vs, v' :: vs', r, r', h, h', e => by
    have e' : debugValue ryu d v ++ (debugList ryu d false vs ++ 0x5D :: r) = debugValue ryu d v' ++ (debugList ryu d false vs' ++ 0x5D :: r') := by
      cases first <;> simpa [debugList] using e
    obtain ⟨h1, h2⟩ := debug_delimited hd hr hl v v' _ _ (h v List.mem_cons_self) (h' v' List.mem_cons_self) e'
    obtain ⟨h3, h4⟩ := debugList_delimited hd hr hl false vs vs' r r' (fun v hv => h v (List.mem_cons_of_mem _ hv))
      (fun v hv => h' v (List.mem_cons_of_mem _ hv)) h2
    exact ⟨by simp only [canons, h1, h3], h4⟩

theorem debugMap_delimited (hd : StrDebug d) (hr : RyuSyntax ryu lit) (hl : RyuRounds lit) (first : Bool) :
    ∀ (ms ms' : List (Bytes × Val)) (r r' : Bytes), (∀ m ∈ ms, ValidUtf8 m.1 ∧ HasTy E .value m.2) →
    (∀ m ∈ ms', ValidUtf8 m.1 ∧ HasTy E .value m.2) →
    debugMap ryu d first ms ++ 0x7D :: r = debugMap ryu d first ms' ++ 0x7D :: r' → canonMembers ms = canonMembers ms' ∧ r = r'
  | [], [], r, r', _, _, e => by simpa [debugMap, canonMembers] using e
  | [], (k', v') :: ms', r, r', _, h', e => by
    obtain ⟨t, hc⟩ := hd.quote k'
    cases first <;> simp [debugMap, hc] at e
  | (k, v) :: ms, [], r, r', h, _, e => by
    obtain ⟨t, hc⟩ := hd.quote k
    cases first <;> simp [debugMap, hc] at e
  | (k, v) :: ms, (k', v') :: ms', r, r', h, h', e => by
    have e' : d k ++ (0x3A :: 0x20 :: (debugValue ryu d v ++ (debugMap ryu d false ms ++ 0x7D :: r))) =
        d k' ++ (0x3A :: 0x20 :: (debugValue ryu d v' ++ (debugMap ryu d false ms' ++ 0x7D :: r'))) := by
      cases first <;> simpa [debugMap] using e
    obtain ⟨rfl, e1⟩ := hd.delimited _ _ _ _ (h _ List.mem_cons_self).1 (h' _ List.mem_cons_self).1 e'
    simp only [List.cons.injEq, true_and] at e1
    obtain ⟨h1, h2⟩ := debug_delimited hd hr hl v v' _ _ (h _ List.mem_cons_self).2 (h' _ List.mem_cons_self).2 e1
    obtain ⟨h3, h4⟩ := debugMap_delimited hd hr hl false ms ms' r r' (fun v hv => h v (List.mem_cons_of_mem _ hv))
      (fun v hv => h' v (List.mem_cons_of_mem _ hv)) h2
    exact ⟨by simp only [canonMembers, h1, h3], h4⟩

end

/-- **C60.** It is clear where the `Debug` of a `Value` ends, and which `Value` it is, up to the representation of integers. -/
theorem C60_debug (hd : StrDebug d) (hr : RyuSyntax ryu lit) (hl : RyuRounds lit) {v v' : Val} (h : HasTy E .value v) (h' : HasTy E .value v')
    {r r' : Bytes} (e : debugValue ryu d v ++ r = debugValue ryu d v' ++ r') : v.canon = v'.canon ∧ r = r' :=
  debug_delimited hd hr hl v v' r r' h h' e

theorem display_canon (z : Int) (hz : ¬ z < 0) : displayNumber ryu (.numU z.toNat) = displayNumber ryu (.numI z) := by
  rw [displayNumber, displayNumber, decimalInt_text, decimal_text, show z.toNat = z.natAbs by omega]
  simp [hz]

mutual

theorem debug_canon : ∀ v : Val, debugValue ryu d v.canon = debugValue ryu d v
  | .numI z => by
    rw [Val.canon]
    split
    · rfl
    · rename_i hz
      rw [debugValue, debugValue, display_canon z hz]
  | .seq vs => by rw [Val.canon, debugValue, debugValue, debugs_canon true vs]
  | .map ms => by rw [Val.canon, debugValue, debugValue, debugMap_canon true ms]
  | .null | .bool _ | .str _ | .numU _ | .numF _ | .int _ | .f32 _ | .f64 _ | .optNone | .optSome _ | .box _ | .strct _ | .enm _ => by
    simp [Val.canon]

theorem debugs_canon (first : Bool) : ∀ vs : List Val, debugList ryu d first (canons vs) = debugList ryu d first vs
  | [] => by rw [canons]
  | v :: vs => by rw [canons, debugList, debugList, debug_canon v, debugs_canon false vs]

theorem debugMap_canon (first : Bool) : ∀ ms : List (Bytes × Val), debugMap ryu d first (canonMembers ms) = debugMap ryu d first ms
  | [] => by rw [canonMembers]
  | (k, v) :: ms => by rw [canonMembers, debugMap, debugMap, debug_canon v, debugMap_canon false ms]

end

/-- **C60.** Two `Value`s have the same `Debug` exactly if they are the same up to the representation of integers. -/
theorem C60_same (hd : StrDebug d) (hr : RyuSyntax ryu lit) (hl : RyuRounds lit) {v v' : Val} (h : HasTy E .value v) (h' : HasTy E .value v') :
    debugValue ryu d v = debugValue ryu d v' ↔ v.canon = v'.canon := by
  constructor
  · intro e
    exact (C60_debug (r := []) (r' := []) hd hr hl h h' (by rw [e])).1
  · intro e
    rw [← debug_canon v, e, debug_canon]

end

end

/-! ## The text -/

theorem debugList_false (ryu : F64 → Bytes) (d : Bytes → Bytes) : ∀ vs : List Val,
    debugList ryu d false vs = match vs with | [] => [] | _ => (str! ", ") ++ debugList ryu d true vs
  | [] => by rw [debugList]
  | v :: vs => by simp [debugList]

theorem debugMap_false (ryu : F64 → Bytes) (d : Bytes → Bytes) : ∀ ms : List (Bytes × Val),
    debugMap ryu d false ms = match ms with | [] => [] | _ => (str! ", ") ++ debugMap ryu d true ms
  | [] => by rw [debugMap]
  | (k, v) :: ms => by simp [debugMap]

mutual

theorem debug_text {E : Env} (ryu : F64 → Bytes) (d : Bytes → Bytes) : ∀ (v : Val), HasTy E .value v →
    DebugOf (displayNumber ryu) d v (debugValue ryu d v)
  | .null, _ => by rw [debugValue]; exact .null
  | .bool true, _ => by rw [debugValue]; exact .true
  | .bool false, _ => by rw [debugValue]; exact .false
  | .numU n, _ => by rw [debugValue]; exact .num (.inl ⟨n, rfl⟩)
  | .numI n, _ => by rw [debugValue]; exact .num (.inr (.inl ⟨n, rfl⟩))
  | .numF n, _ => by rw [debugValue]; exact .num (.inr (.inr ⟨n, rfl⟩))
  | .str s, _ => by rw [debugValue]; exact .str s
  | .seq vs, h => by
    obtain ⟨ts, h1, h2⟩ := debug_items ryu d vs (by cases h; assumption)
    rw [debugValue, h2]; exact .arr h1
  | .map ms, h => by
    obtain ⟨ts, h1, h2⟩ := debug_members ryu d ms (by cases h; assumption)
    rw [debugValue, h2]; exact .obj h1

theorem debug_items {E : Env} (ryu : F64 → Bytes) (d : Bytes → Bytes) : ∀ (vs : List Val), (∀ v ∈ vs, HasTy E .value v) →
    ∃ ts, DebugItems (displayNumber ryu) d vs ts ∧ debugList ryu d true vs = commaSep ts
  | [], _ => ⟨[], .nil, by rw [debugList, commaSep]⟩
  | v :: vs, h => by
    obtain ⟨ts, h1, h2⟩ := debug_items ryu d vs fun u hu => h u (List.mem_cons_of_mem _ hu)
    refine ⟨debugValue ryu d v :: ts, .cons (debug_text ryu d v (h v List.mem_cons_self)) h1, ?_⟩
    rw [debugList, debugList_false]
    cases h1 with
    | nil => simp [commaSep]
    | cons => simp [commaSep, h2]

theorem debug_members {E : Env} (ryu : F64 → Bytes) (d : Bytes → Bytes) : ∀ (ms : List (Bytes × Val)), (∀ m ∈ ms, HasTy E .value m.2) →
    ∃ ts, DebugMembers (displayNumber ryu) d ms ts ∧ debugMap ryu d true ms = commaSep ts
  | [], _ => ⟨[], .nil, by rw [debugMap, commaSep]⟩
  | (k, v) :: ms, h => by
    obtain ⟨ts, h1, h2⟩ := debug_members ryu d ms fun u hu => h u (List.mem_cons_of_mem _ hu)
    refine ⟨(d k ++ (str! ": ") ++ debugValue ryu d v) :: ts, .cons (debug_text ryu d v (h (k, v) List.mem_cons_self)) h1, ?_⟩
    rw [debugMap, debugMap_false]
    cases h1 with
    | nil => simp [commaSep]
    | cons => simp [commaSep, h2]

end

/-- **C60.** The `Debug` of a `Value`: `Null`, `Bool(true)`, `Number(...)`, `String(...)`, `Array [..., ...]`, `Object {"k": ..., "l": ...}`. -/
theorem C60_text (E : Env) (ryu : F64 → Bytes) (strDebug : Bytes → Bytes) (v : Val) (h : HasTy E .value v) :
    DebugOf (displayNumber ryu) strDebug v (debugValue ryu strDebug v) := debug_text ryu strDebug v h

/-! ## The assumptions can be met -/

/-- A `Debug` of strings: quotes, `\` before a quote and a backslash. -/
def exDebugBody : Bytes → Bytes
  | [] => [0x22]
  | c :: s => if c = 0x22 ∨ c = 0x5C then 0x5C :: c :: exDebugBody s else c :: exDebugBody s

theorem exDebugBody_delimited : ∀ s s' r r', exDebugBody s ++ r = exDebugBody s' ++ r' → s = s' ∧ r = r'
  | [], [], r, r', e => by simpa [exDebugBody] using e
  | [], c :: s', r, r', e => by
    by_cases h : c = 0x22 ∨ c = 0x5C
    · simp [exDebugBody, h] at e
    · simp [exDebugBody, h] at e
      exact absurd (.inl e.1.symm) h
  | c :: s, [], r, r', e => by
    by_cases h : c = 0x22 ∨ c = 0x5C
    · simp [exDebugBody, h] at e
    · simp [exDebugBody, h] at e
      exact absurd (.inl e.1) h
  | c :: s, c' :: s', r, r', e => by
    by_cases h : c = 0x22 ∨ c = 0x5C <;> by_cases h' : c' = 0x22 ∨ c' = 0x5C <;> simp [exDebugBody, h, h'] at e
    · obtain ⟨rfl, e2⟩ := e
      obtain ⟨rfl, e3⟩ := exDebugBody_delimited s s' r r' e2
      exact ⟨rfl, e3⟩
    · exact absurd (.inr e.1.symm) h'
    · exact absurd (.inr e.1) h
    · obtain ⟨rfl, e2⟩ := e
      obtain ⟨rfl, e3⟩ := exDebugBody_delimited s s' r r' e2
      exact ⟨rfl, e3⟩

theorem exDebug : StrDebug (fun s => 0x22 :: exDebugBody s) where
  quote _ := ⟨_, rfl⟩
  delimited s s' r r' _ _ e := exDebugBody_delimited s s' r r' (List.cons.inj e).2

/-- `[null]` and `[[]]` have different `Debug` texts. -/
example : debugValue (fun x => (exLit x).text) (fun s => 0x22 :: exDebugBody s) (.seq [.null]) ≠
    debugValue (fun x => (exLit x).text) (fun s => 0x22 :: exDebugBody s) (.seq [.seq []]) := by
  intro e
  have := (C60_debug (E := exEnv) exDebug exRyu exRyuRounds (r := []) (r' := []) (v := .seq [.null]) (v' := .seq [.seq []])
    (.array (.inr rfl) fun v hv => by cases List.mem_singleton.1 hv; exact .vNull)
    (.array (.inr rfl) fun v hv => by cases List.mem_singleton.1 hv; exact .array (.inr rfl) (fun _ h => nomatch h)) (by rw [e])).1
  simp [Val.canon, canons] at this

example : debugValue (fun x => (exLit x).text) (fun s => 0x22 :: exDebugBody s) (.map [(str! "a\"", .seq [.numI (-5), .bool true, .str (str! "x")])]) =
    str! "Object {\"a\\\"\": Array [Number(-5), Bool(true), String(\"x\")]}" := by
  simp [debugValue, debugMap, debugList, exDebugBody, displayNumber]; decide +kernel

example : PrintsAs exEnv exOrder (fun x => (exLit x).text) .number (.numI (-5)) (str! "-5") :=
  (C59_display exEnv exOrder (.numI (-5)) (.numI (.inl rfl) (by decide)) (fun _ h => nomatch h) _).2 (by decide +kernel)

example : parseAs exEnv (.vec .f64) (displayNumber (fun x => (exLit x).text) (.numF (.inf true))) = some .err :=
  (C59_non_finite exEnv (.inf true) rfl (.vec .f64)).2

end Miniserde
