import Verif.Proof.LexBound
import Verif.Spec.LexCost

/-!
# Every byte and every call is accounted for

The step counter misses nothing: a successful parse has at least as many steps as the input has bytes, plus one for every call of the visitor.
-/

namespace Miniserde

/-- When `x` succeeds, its steps and what its result is worth make up for `N`. -/
def Tk.covers {α : Type} (φ : α → Nat) (N : Nat) (x : Tk α) : Prop := ∀ a, x.1 = .ok a → N ≤ x.2 + φ a

namespace Tk
variable {α β : Type} {φ : α → Nat} {ψ : β → Nat}

theorem covers_tick {n N : Nat} {x : Tk α} (h : covers φ (N - n) x) : covers φ N (tick n x) := by
  intro a ha
  have := h a ha
  simp only [tick]
  omega

theorem covers_ok {N : Nat} {a : α} (h : N ≤ φ a) : covers φ N (ret (.ok a)) := by
  intro _ e
  cases e
  simpa [ret] using h

theorem covers_err {N : Nat} : covers φ N (ret .err) := fun _ e => nomatch e
theorem covers_panic {N : Nat} : covers φ N (ret .panic) := fun _ e => nomatch e

theorem covers_map {N : Nat} {f : α → β} {x : Tk α} (h : covers (fun a => ψ (f a)) N x) : covers ψ N (map f x) := by
  rcases x with ⟨a | _ | _, n⟩
  · intro _ e
    cases e
    exact h a rfl
  · exact fun _ e => nomatch e
  · exact fun _ e => nomatch e

theorem covers_bind {N : Nat} {x : Tk α} {f : α → Tk β} (hx : covers φ N x) (hf : ∀ a, x.1 = .ok a → covers ψ (φ a) (f a)) : covers ψ N (bind x f) := by
  rcases x with ⟨a | _ | _, n⟩
  · intro y hy
    have h1 := hx a rfl
    have h2 := hf a rfl y hy
    simp only [bind] at *
    omega
  · exact fun _ e => nomatch e
  · exact fun _ e => nomatch e

theorem covers_ret_bind {N : Nat} {x : Res α} {f : α → Tk β} (hf : ∀ a, x = .ok a → covers ψ N (f a)) : covers ψ N (bind (ret x) f) := by
  rcases x with a | _ | _
  · intro y hy
    have := hf a rfl y hy
    simp only [bind, ret] at *
    omega
  · exact fun _ e => nomatch e
  · exact fun _ e => nomatch e

theorem covers_le {N M : Nat} {x : Tk α} (h : covers φ N x) (hle : M ≤ N) : covers φ M x := fun a ha => Nat.le_trans hle (h a ha)

end Tk

namespace De
open Tk

theorem left_bump (d : De) : d.left ≤ d.bump.left + 1 := by simp only [left, bump]; omega

theorem nextOrEofC_covers (d : De) : covers (fun r => r.2.left) d.left d.nextOrEofC := by
  unfold nextOrEofC
  refine covers_tick fun r h => ?_
  simp only [ret] at h ⊢
  unfold nextOrEof De.next at h
  cases hh : d.input[d.pos]? with
  | none => rw [hh] at h; cases h
  | some c =>
    rw [hh] at h
    cases h
    simp only [left]
    omega

theorem hexLoopC_covers (k : Nat) (d : De) (n : Nat) : covers (fun r => r.2.left) d.left (hexLoopC k d n) := by
  induction k generalizing d n with
  | zero => exact covers_ok (Nat.le_refl _)
  | succ k ih =>
    rw [hexLoopC]
    refine covers_bind (nextOrEofC_covers d) fun r _ => ?_
    cases hexVal r.1 with
    | none => exact covers_err
    | some v => exact covers_ret_bind fun n' _ => ih r.2 n'

theorem charFrom_covers (o : Option Nat) (d : De) : covers (fun r => r.2.left) d.left (match o with
    | some c => Tk.ret (.ok (c, d))
    | none => Tk.ret .err) := by
  cases o with
  | none => exact covers_err
  | some c => exact covers_ok (Nat.le_refl _)

theorem unicodeEscapeC_covers (d : De) : covers (fun r => r.2.left) d.left d.unicodeEscapeC := by
  unfold unicodeEscapeC
  refine covers_bind (hexLoopC_covers 4 d 0) fun n1 _ => ?_
  split
  · exact covers_err
  split
  · refine covers_bind (nextOrEofC_covers n1.2) fun c1 _ => ?_
    split
    · exact covers_err
    refine covers_bind (nextOrEofC_covers c1.2) fun c2 _ => ?_
    split
    · exact covers_err
    refine covers_bind (hexLoopC_covers 4 c2.2 0) fun n2 _ => ?_
    split
    · exact covers_err
    refine covers_ret_bind fun hi _ => covers_ret_bind fun lo _ => ?_
    cases charFromU32 (surrogatePair hi lo) with
    | none => exact covers_err
    | some c => exact covers_ok (Nat.le_refl _)
  · exact charFrom_covers _ _

theorem parseEscapeC_covers (d : De) : covers left d.left d.parseEscapeC := by
  unfold parseEscapeC
  refine covers_bind (nextOrEofC_covers d) fun r _ => ?_
  have key : ∀ {x : De} {n : Nat}, r.2.left ≤ x.left → covers left r.2.left (.tick n (.ret (.ok x))) :=
    fun h => covers_tick (covers_ok (Nat.le_trans (Nat.sub_le ..) h))
  iterate 8 (split; · refine key ?_; simp only [left, push]; omega)
  split
  · refine covers_bind (unicodeEscapeC_covers r.2) fun u _ => ?_
    exact covers_tick (covers_ok (Nat.le_trans (Nat.sub_le ..) (Nat.le_refl u.2.left)))
  · exact covers_err

/-- All the plain bytes and the byte that ends the loop. -/
theorem skipPlainC_covers (d : De) : d.left + 1 ≤ d.skipPlainC.2 + d.skipPlainC.1.left := by
  fun_induction skipPlainC d with
  | case1 d c h hc => simp only; omega
  | case2 d c h hc ih => have := bump_left'' h; simp only; omega
  | case3 d h => simp only; omega

theorem parseWhitespaceC_covers (d : De) : d.left + 1 ≤ d.parseWhitespaceC.2 + d.parseWhitespaceC.1.2.left := by
  fun_induction parseWhitespaceC d with
  | case1 d c h hc ih => have := bump_left'' h; simp only; omega
  | case2 d c h hc => simp only; omega
  | case3 d h => simp only; omega

/-- Nothing is left when the whitespace goes on to the end. -/
theorem parseWhitespaceC_end (d : De) (h : d.parseWhitespaceC.1.1 = none) : d.parseWhitespaceC.1.2.left = 0 := by
  fun_induction parseWhitespaceC d with
  | case1 d c h1 hc ih => exact ih h
  | case2 d c h1 hc => cases h
  | case3 d h1 =>
    have := List.getElem?_eq_none_iff.1 h1
    simp only [left]
    omega

theorem skipDigitsC_covers (d : De) : d.left + 1 ≤ d.skipDigitsC.2 + d.skipDigitsC.1.left := by
  fun_induction skipDigitsC d with
  | case1 d h ih => have := bump_left' (peekOrNul_digit_lt h); simp only; omega
  | case2 d h => simp only; omega

theorem parseIdentC_covers (d : De) (es : Bytes) : covers left d.left (parseIdentC d es) := by
  induction es generalizing d with
  | nil => exact covers_ok (Nat.le_refl _)
  | cons e es ih =>
    rw [parseIdentC]
    refine covers_tick ?_
    unfold De.next
    cases h : d.input[d.pos]? with
    | none => exact covers_err
    | some c =>
      have hb := bump_left'' h
      simp only
      split
      · exact covers_err
      · exact covers_le (ih d.bump) (by omega)

theorem parseStrLoopC_covers (d : De) (start : Nat) : covers (fun p => p.2.left) d.left (parseStrLoopC d start) := by
  rw [parseStrLoopC_eq]
  refine covers_tick ?_
  have h1 := skipPlainC_covers d
  have a1 := skipPlain_adv d
  rw [← skipPlainC_fst d] at a1
  revert h1
  generalize d.skipPlainC.2 = n
  generalize d.skipPlainC.1 = d1 at a1 ⊢
  intro h1
  unfold strStepC
  cases hc : d1.input[d1.pos]? with
  | none => exact covers_err
  | some c =>
    have hb := bump_left'' hc
    have a3 := (List.getElem?_eq_some_iff.1 hc).1
    simp only
    split
    · split
      · exact covers_ret_bind fun a _ => covers_ok (by simp only; omega)
      · refine covers_ret_bind fun a ha => covers_tick (covers_ok ?_)
        have e : (d1.extend a).bump.left = d1.bump.left := rfl
        simp only [e]
        omega
    split
    · refine covers_ret_bind fun a ha => covers_tick ?_
      have hp := parseEscapeC_covers (d1.extend a).bump
      have e : (d1.extend a).bump.left = d1.bump.left := rfl
      refine covers_le (covers_bind hp fun d3 he => ?_) (by omega)
      rw [parseEscapeC_fst] at he
      have a2 := parseEscape_adv he
      simp only [bump, extend] at a2
      have hlt : d3.input.length - d3.pos < d.input.length - d.pos := by rw [a2.1, a1.1]; rw [a1.1] at a3; omega
      exact parseStrLoopC_covers d3 d3.pos
    · exact covers_err
termination_by d.input.length - d.pos

theorem parseStrC_covers (d : De) : covers (fun p => p.2.left) d.left d.parseStrC := parseStrLoopC_covers { d with buffer := [] } _

theorem fromParts_covers (nonneg : Bool) (n : Nat) (E : Int) (d : De) :
    covers (fun p => p.2.left) d.left ((f64FromPartsC nonneg n E).bind fun f => .ret (.ok (f, d))) :=
  covers_bind (φ := fun _ => d.left) (fun _ _ => Nat.le_add_left _ _) fun _ _ => covers_ok (Nat.le_refl _)

theorem parseExponentOverflowC_covers (d : De) (nonneg : Bool) (n : Nat) (p : Bool) : covers (fun p => p.2.left) d.left (d.parseExponentOverflowC nonneg n p) := by
  unfold parseExponentOverflowC
  split
  · exact covers_err
  · have := skipDigitsC_covers d
    exact covers_tick (covers_ok (by simp only; omega))

theorem exponentLoopC_covers (nonneg : Bool) (n : Nat) (E : Int) (p : Bool) (d : De) (exp : Nat) :
    covers (fun p => p.2.left) d.left (exponentLoopC nonneg n E p d exp) := by
  rw [exponentLoopC]
  refine covers_tick ?_
  split
  · rename_i h
    have h' := peekOrNul_digit_lt h
    have hb := bump_left' h'
    simp only
    split
    · exact covers_le (parseExponentOverflowC_covers d.bump nonneg n p) (by omega)
    split
    · exact covers_le (exponentLoopC_covers nonneg n E p d.bump (exp * 10 + digitVal d.peekOrNul)) (by omega)
    · exact covers_panic
  · exact covers_le (fromParts_covers _ _ _ _) (Nat.sub_le ..)
termination_by d.input.length - d.pos
decreasing_by simp only [bump]; omega

theorem left_nextOrNul (d : De) : d.left ≤ d.nextOrNul.2.left + 1 := by
  unfold nextOrNul De.next
  split
  · simp only [left]; omega
  · simp only; omega

/-- The letter `e` has been looked at by the caller. -/
theorem parseExponentC_covers (d : De) (nonneg : Bool) (n : Nat) (E : Int) : covers (fun p => p.2.left) (d.left - 1) (d.parseExponentC nonneg n E) := by
  unfold parseExponentC
  simp only
  refine covers_tick ?_
  have hq : d.left ≤ (if d.bump.peekOrNul = b('+') then (true, d.bump.bump) else if d.bump.peekOrNul = b('-') then (false, d.bump.bump) else (true, d.bump)).2.left + 2 := by
    have h1 := left_bump d
    have h2 := left_bump d.bump
    split
    · simp only; omega
    split <;> (simp only; omega)
  revert hq
  generalize (if d.bump.peekOrNul = b('+') then (true, d.bump.bump) else if d.bump.peekOrNul = b('-') then (false, d.bump.bump) else (true, d.bump)) = q
  intro hq
  have := left_nextOrNul q.2
  split
  · exact covers_le (exponentLoopC_covers _ _ _ _ _ _) (by omega)
  · exact covers_err

theorem decimalLoopC_covers (d : De) (a : Bool) (n : Nat) (E : Int) : covers (fun p => p.2.left) d.left (decimalLoopC d a n E) := by
  rw [decimalLoopC]
  refine covers_tick ?_
  split
  · rename_i h
    have h' := peekOrNul_digit_lt h
    have hb := bump_left' h'
    simp only
    split
    · have := skipDigitsC_covers d.bump
      exact covers_tick (covers_ok (by simp only; omega))
    · cases hu : u64 (n * 10 + digitVal d.peekOrNul) with
      | ok s =>
        cases i32 (E - 1) with
        | ok e => exact covers_le (decimalLoopC_covers d.bump true s e) (by omega)
        | err => exact covers_panic
        | panic => exact covers_panic
      | err => exact covers_panic
      | panic => exact covers_panic
  · exact covers_ok (Nat.sub_le ..)
termination_by d.input.length - d.pos
decreasing_by simp only [bump]; omega

/-- The point has been looked at by the caller. -/
theorem parseDecimalC_covers (d : De) (nonneg : Bool) (n : Nat) (E : Int) : covers (fun p => p.2.left) (d.left - 1) (d.parseDecimalC nonneg n E) := by
  unfold parseDecimalC
  have h2 := left_bump d
  refine covers_le (covers_bind (decimalLoopC_covers d.bump false n E) fun r hr => ?_) (by omega)
  refine covers_tick ?_
  split
  · exact covers_err
  split
  · exact parseExponentC_covers _ _ _ _
  · exact covers_le (fromParts_covers _ _ _ _) (Nat.sub_le ..)

theorem parseLongIntegerC_covers (d : De) (nonneg : Bool) (n : Nat) (E : Int) : covers (fun p => p.2.left) d.left (d.parseLongIntegerC nonneg n E) := by
  rw [parseLongIntegerC]
  refine covers_tick ?_
  split
  · rename_i h
    have h' := peekOrNul_digit_lt h
    have hb := bump_left' h'
    cases i32 (E + 1) with
    | ok e => exact covers_le (parseLongIntegerC_covers d.bump nonneg n e) (by omega)
    | err => exact covers_panic
    | panic => exact covers_panic
  split
  · exact parseDecimalC_covers _ _ _ _
  split
  · exact parseExponentC_covers _ _ _ _
  · exact covers_le (fromParts_covers _ _ _ _) (Nat.sub_le ..)
termination_by d.input.length - d.pos
decreasing_by simp only [bump]; omega

theorem mapFloatC_covers {N : Nat} {r : Tk (F64 × De)} (h : covers (fun p => p.2.left) N r) : covers (fun p => p.2.left) N (mapFloatC r) := covers_map h

theorem parseNumberC_covers (d : De) (nonneg : Bool) (n : Nat) : covers (fun p => p.2.left) d.left (d.parseNumberC nonneg n) := by
  unfold parseNumberC
  refine covers_tick ?_
  split
  · exact mapFloatC_covers (parseDecimalC_covers _ _ _ _)
  split
  · exact mapFloatC_covers (parseExponentC_covers _ _ _ _)
  split
  · exact covers_ok (Nat.sub_le ..)
  · simp only
    split <;> exact covers_ok (Nat.sub_le ..)

theorem integerLoopC_covers (d : De) (nonneg : Bool) (n : Nat) : covers (fun p => p.2.left) d.left (d.integerLoopC nonneg n) := by
  rw [integerLoopC]
  refine covers_tick ?_
  split
  · rename_i h
    have h' := peekOrNul_digit_lt h
    have hb := bump_left' h'
    simp only
    split
    · exact mapFloatC_covers (covers_le (parseLongIntegerC_covers _ _ _ _) (by omega))
    · cases hu : u64 (n * 10 + digitVal d.peekOrNul) with
      | ok s => exact covers_le (integerLoopC_covers d.bump nonneg s) (by omega)
      | err => exact covers_panic
      | panic => exact covers_panic
  · exact covers_le (parseNumberC_covers _ _ _) (Nat.sub_le ..)
termination_by d.input.length - d.pos
decreasing_by simp only [bump]; omega

theorem parseIntegerC_covers (d : De) (nonneg : Bool) (c : UInt8) : covers (fun p => p.2.left) d.left (d.parseIntegerC nonneg c) := by
  unfold parseIntegerC
  split
  · refine covers_tick ?_
    split
    · exact covers_err
    · exact covers_le (parseNumberC_covers _ _ _) (Nat.sub_le ..)
  split
  · exact integerLoopC_covers _ _ _
  · exact covers_err

theorem eventC_covers (d : De) : covers (fun p => p.2.left) d.left d.eventC := by
  unfold eventC
  refine covers_tick ?_
  have hw := parseWhitespaceC_covers d
  rcases hp : d.parseWhitespaceC with ⟨⟨_ | c, d1⟩, n⟩
  · exact covers_err
  · rw [hp] at hw
    simp only at hw ⊢
    have hb := left_bump d1
    have key : ∀ {x : Tk (Event × De)}, covers (fun p => p.2.left) d1.bump.left x → covers (fun p => p.2.left) (d.left - n) x := fun h => covers_le h (by omega)
    split
    · exact key (covers_map (parseStrC_covers d1.bump))
    split
    · exact key (parseIntegerC_covers _ _ _)
    split
    · refine key (covers_tick ?_)
      have := left_nextOrNul d1.bump
      exact covers_le (parseIntegerC_covers _ _ _) (by omega)
    split
    · exact key (covers_ok (Nat.le_refl _))
    split
    · exact key (covers_ok (Nat.le_refl _))
    iterate 3 (split; · exact key (covers_map (parseIdentC_covers _ _)))
    exact key covers_err

end De

section
variable {σ : Type}

/-- The calls of `x` are among its steps; and when it succeeds, the steps besides the calls and what the result is worth make up for `N`. -/
def TkW.covers {α : Type} (μ : σ → Nat) (φ : α → Nat) (m N : Nat) (x : TkW σ α) : Prop :=
  μ x.1.2 ≤ m + x.2 ∧ ∀ a, x.1.1 = .ok a → N + μ x.1.2 ≤ m + x.2 + φ a

namespace TkW
variable {α : Type} {μ : σ → Nat} {φ : α → Nat}

theorem covers_tick {n m N : Nat} {x : TkW σ α} (h : covers μ φ m (N - n) x) : covers μ φ m N (tick n x) := by
  refine ⟨by have := h.1; simp only [tick]; omega, fun a ha => ?_⟩
  have := h.2 a ha
  simp only [tick]
  omega

/-- Steps that are calls. -/
theorem covers_calls {n k m N : Nat} {x : TkW σ α} (h : covers μ φ (m + k) N x) (hk : k ≤ n) : covers μ φ m N (tick n x) := by
  refine ⟨by have := h.1; simp only [tick]; omega, fun a ha => ?_⟩
  have := h.2 a ha
  simp only [tick]
  omega

theorem covers_ok {m N : Nat} {a : α} {w : σ} (hm : μ w ≤ m) (h : N ≤ φ a) : covers μ φ m N (ret (.ok a, w)) := by
  refine ⟨by simp only [ret]; omega, fun _ e => ?_⟩
  cases e
  simp only [ret]
  omega

theorem covers_fail {β : Type} {m N : Nat} {r : Res β} {w : σ} (hm : μ w ≤ m) : covers μ φ m N (ret (r.fail, w)) :=
  ⟨by simp only [ret]; omega, fun _ e => by cases r <;> cases e⟩

theorem covers_err {m N : Nat} {w : σ} (hm : μ w ≤ m) : covers μ φ m N (ret (.err, w)) :=
  ⟨by simp only [ret]; omega, fun _ e => nomatch e⟩

theorem covers_le {m m' N N' : Nat} {x : TkW σ α} (h : covers μ φ m N x) (hm : m ≤ m') (hN : N' ≤ N) : covers μ φ m' N' x :=
  ⟨by have := h.1; omega, fun a ha => by have := h.2 a ha; omega⟩

end TkW

variable {P : Proto σ} {μ : σ → Nat} (C : P.Counts μ)
include C

theorem drop_calls (l : Layer P) (w : σ) : μ (l.drop w) ≤ μ w + 1 := by
  cases l with
  | seq q => exact C.dropSeq q w
  | map m => exact C.dropMap m w

theorem dropStack_calls (st : List (Frame P)) (w : σ) : μ (dropStack st w) ≤ μ w + st.length := by
  induction st generalizing w with
  | nil => exact Nat.le_refl _
  | cons f st ih =>
    have h1 := ih (f.2.drop w)
    have h2 := drop_calls C f.2 w
    simp only [dropStack, List.length_cons]
    omega

theorem visitEvent_calls (v : P.V) (ev : Event) (w : σ) : μ (visitEvent P v ev w).2 ≤ μ w + 1 := by
  cases ev with
  | null => exact C.null ..
  | bool b => exact C.boolean ..
  | negative n => exact C.negative ..
  | nonnegative n => exact C.nonnegative ..
  | float n => exact C.float ..
  | str s => exact C.string ..
  | seqStart => exact C.seq ..
  | mapStart => exact C.map ..

theorem finishLayer_calls (c : UInt8) (l : Layer P) (w : σ) : μ (finishLayer P c l w).2 ≤ μ w + 1 := by
  unfold finishLayer
  cases l with
  | seq q =>
    simp only
    split
    · exact C.seqFinish ..
    · simp only; omega
  | map m =>
    simp only
    split
    · exact C.mapFinish ..
    · simp only; omega

omit C in
/-- The bytes left when the inner loop is left. -/
def LoopExit.left : LoopExit P → Nat
  | .child d _ _ _ => d.left
  | .done d => d.left

open TkW

theorem closeLoopC_covers (d : De) (a : Bool) (v : P.V) (l : Layer P) (st : List (Frame P)) (w : σ) :
    TkW.covers μ LoopExit.left (μ w) d.left (closeLoopC P d a v l st w) := by
  induction st generalizing d a v l w with
  | nil =>
    rw [closeLoopC]
    refine TkW.covers_tick ?_
    have h1 := De.parseWhitespaceC_covers d
    generalize De.parseWhitespaceC d = wsh1 at h1 ⊢
    rcases wsh1 with ⟨⟨o, d1⟩, n⟩
    simp only at h1 ⊢
    have hb := d1.left_bump
    split
    · exact TkW.covers_ok (Nat.le_refl _) (by simp only [LoopExit.left]; omega)
    split
    · have hf := finishLayer_calls C (o.getD 0) l w
      rcases hh : finishLayer P (o.getD 0) l w with ⟨_ | _ | _, w'⟩ <;> rw [hh] at hf <;> simp only at hf ⊢ <;> have hd := drop_calls C l w'
      · refine TkW.covers_calls (k := 2) (TkW.covers_ok (by omega) ?_) (Nat.le_refl _)
        simp only [LoopExit.left]
        omega
      · exact TkW.covers_calls (k := 2) (TkW.covers_fail (by have := dropStack_calls C [] (l.drop w'); simp only [List.length_nil] at this; omega)) (by omega)
      · exact TkW.covers_calls (k := 2) (TkW.covers_fail (by have := dropStack_calls C [] (l.drop w'); simp only [List.length_nil] at this; omega)) (by omega)
    split
    · have hd := drop_calls C l w
      exact TkW.covers_calls (k := 1) (TkW.covers_err (by have := dropStack_calls C [] (l.drop w); simp only [List.length_nil] at this; omega)) (by omega)
    · exact TkW.covers_ok (Nat.le_refl _) (by simp only [LoopExit.left]; omega)
  | cons f st ih =>
    rw [closeLoopC]
    refine TkW.covers_tick ?_
    have h1 := De.parseWhitespaceC_covers d
    generalize De.parseWhitespaceC d = wsh1 at h1 ⊢
    rcases wsh1 with ⟨⟨o, d1⟩, n⟩
    simp only at h1 ⊢
    have hb := d1.left_bump
    split
    · exact TkW.covers_ok (Nat.le_refl _) (by simp only [LoopExit.left]; omega)
    split
    · have hf := finishLayer_calls C (o.getD 0) l w
      rcases hh : finishLayer P (o.getD 0) l w with ⟨_ | _ | _, w'⟩ <;> rw [hh] at hf <;> simp only at hf ⊢ <;> have hd := drop_calls C l w'
      · exact TkW.covers_calls (k := 2) (TkW.covers_le (ih d1.bump true f.1 f.2 (l.drop w')) (by omega) (by omega)) (by omega)
      · exact TkW.covers_calls (k := 2 + (f :: st).length) (TkW.covers_fail (by have := dropStack_calls C (f :: st) (l.drop w'); omega)) (by omega)
      · exact TkW.covers_calls (k := 2 + (f :: st).length) (TkW.covers_fail (by have := dropStack_calls C (f :: st) (l.drop w'); omega)) (by omega)
    split
    · have hd := drop_calls C l w
      exact TkW.covers_calls (k := 1 + (f :: st).length) (TkW.covers_err (by have := dropStack_calls C (f :: st) (l.drop w); omega)) (by omega)
    · exact TkW.covers_ok (Nat.le_refl _) (by simp only [LoopExit.left]; omega)

theorem openChildC_covers (d : De) (v : P.V) (l : Layer P) (st : List (Frame P)) (w : σ) :
    TkW.covers μ (fun r => r.1.left) (μ w) d.left (openChildC P d v l st w) := by
  unfold openChildC
  cases l with
  | seq q =>
    simp only
    have he := C.element q w
    rcases hh : P.element q w with ⟨_ | _ | _, w'⟩ <;> rw [hh] at he <;> simp only at he ⊢ <;> have hd := C.dropSeq q w'
    · exact TkW.covers_calls (k := 1) (TkW.covers_ok he (Nat.le_refl _)) (by omega)
    · exact TkW.covers_calls (k := 2 + st.length) (TkW.covers_fail (by have := dropStack_calls C st (P.dropSeq q w'); omega)) (by omega)
    · exact TkW.covers_calls (k := 2 + st.length) (TkW.covers_fail (by have := dropStack_calls C st (P.dropSeq q w'); omega)) (by omega)
  | map m =>
    simp only
    refine TkW.covers_tick ?_
    have h1 := De.parseWhitespaceC_covers d
    generalize De.parseWhitespaceC d = wsh1 at h1 ⊢
    rcases wsh1 with ⟨⟨o, d1⟩, n⟩
    simp only at h1 ⊢
    have hb := d1.left_bump
    have fail0 : ∀ {β : Type} {r : Res β} {N : Nat}, TkW.covers (α := De × P.V × List (Frame P)) μ (fun r => r.1.left) (μ w) N
        (.tick (1 + 2 * st.length) (.ret (r.fail, dropStack st (P.dropMap m w)))) := by
      intro β r N
      have hd := C.dropMap m w
      exact TkW.covers_calls (k := 1 + st.length) (TkW.covers_fail (by have := dropStack_calls C st (P.dropMap m w); omega)) (by omega)
    split
    · have hs := De.parseStrC_covers d1.bump
      generalize d1.bump.parseStrC = ps at hs ⊢
      refine TkW.covers_tick ?_
      rcases ps with ⟨⟨k, d2⟩ | _ | _, n2⟩
      · have hs := hs _ rfl
        simp only at hs ⊢
        have hk := C.key m k w
        rcases hh : P.key m k w with ⟨_ | _ | _, w'⟩ <;> rw [hh] at hk <;> simp only at hk ⊢ <;> have hd := C.dropMap m w'
        · refine TkW.covers_calls (k := 1) (TkW.covers_tick ?_) (Nat.le_refl _)
          have g1 := De.parseWhitespaceC_covers d2
          generalize De.parseWhitespaceC d2 = wsg1 at g1 ⊢
          rcases wsg1 with ⟨⟨o2, d3⟩, n3⟩
          simp only at g1 ⊢
          have hb' := d3.left_bump
          split
          · exact TkW.covers_calls (k := 0) (TkW.covers_ok hk (by simp only; omega)) (by omega)
          · exact TkW.covers_calls (k := 1 + st.length) (TkW.covers_err (by have := dropStack_calls C st (P.dropMap m w'); omega)) (by omega)
        · exact TkW.covers_calls (k := 1) (TkW.covers_calls (k := 1 + st.length) (TkW.covers_fail (by have := dropStack_calls C st (P.dropMap m w'); omega)) (by omega)) (Nat.le_refl _)
        · exact TkW.covers_calls (k := 1) (TkW.covers_calls (k := 1 + st.length) (TkW.covers_fail (by have := dropStack_calls C st (P.dropMap m w'); omega)) (by omega)) (Nat.le_refl _)
      · exact fail0
      · exact fail0
    · exact fail0 (r := (.err : Res Unit))

omit C in
theorem trailing_covers (d : De) (w : σ) : TkW.covers μ (fun _ : Unit => 0) (μ w) d.left (.tick d.parseWhitespaceC.2 (.ret (trailing d, w))) := by
  have h1 := De.parseWhitespaceC_covers d
  refine TkW.covers_tick ⟨by simp only [ret]; omega, fun a ht => ?_⟩
  have h2 : d.parseWhitespaceC.1.1 = none := by
    rw [De.parseWhitespaceC_fst]
    simp only [ret, trailing] at ht
    cases hp : d.parseWhitespace.1 with
    | none => rfl
    | some c => rw [hp] at ht; cases ht
  have h3 := De.parseWhitespaceC_end d h2
  simp only [ret]
  omega

/-- The rest of an iteration of the outer loop after the inner loop. -/
theorem outer_tail_covers {fuel : Nat} (ih : ∀ d v st w x, outerLoopC P fuel d v st w = some x → TkW.covers μ (fun _ : Unit => 0) (μ w) d.left x)
    (next : TkW σ (LoopExit P)) {m N : Nat} (hN : TkW.covers μ LoopExit.left m N next) {x : TkW σ Unit}
    (h : (match next.1 with
        | (.ok (.child d visitor layer stack), w) =>
          let child := openChildC P d visitor layer stack w
          (match child.1 with
          | (.ok (d, visitor, stack), w) => outerLoopC P fuel d visitor stack w
          | (r, w) => some (.ret (r.fail, w))).map (TkW.tick child.2)
        | (.ok (.done d), w) => some (.tick d.parseWhitespaceC.2 (.ret (trailing d, w)))
        | (r, w) => some (.ret (r.fail, w))).map (TkW.tick next.2) = some x) : TkW.covers μ (fun _ : Unit => 0) m N x := by
  rcases next with ⟨⟨(⟨d2, v2, l2, st2⟩ | d2) | _ | _, w2⟩, n⟩
  · have h1 := hN.1
    have h2 := hN.2 _ rfl
    simp only [LoopExit.left] at h1 h2
    have hc := openChildC_covers C d2 v2 l2 st2 w2
    rcases hh : openChildC P d2 v2 l2 st2 w2 with ⟨⟨⟨d3, v3, st3⟩ | _ | _, w3⟩, k⟩
    · rw [hh] at hc
      have c1 := hc.1
      have c2 := hc.2 _ rfl
      simp only at c1 c2
      simp only [hh] at h
      rcases ho : outerLoopC P fuel d3 v3 st3 w3 with _ | y
      · rw [ho] at h; cases h
      · rw [ho] at h
        cases h
        have := ih _ _ _ _ _ ho
        refine ⟨?_, fun a ha => ?_⟩
        · have := this.1; simp only [TkW.tick]; omega
        · have := this.2 a ha; simp only [TkW.tick] at *; omega
    all_goals
      rw [hh] at hc
      have c1 := hc.1
      simp only at c1
      simp only [hh] at h
      cases h
      refine ⟨?_, fun a ha => nomatch ha⟩
      simp only [TkW.tick, TkW.ret]
      omega
  · have h1 := hN.1
    have h2 := hN.2 _ rfl
    simp only [LoopExit.left] at h1 h2
    have := trailing_covers (μ := μ) d2 w2
    cases h
    refine ⟨?_, fun a ha => ?_⟩
    · have := this.1; simp only [TkW.tick, TkW.ret] at *; omega
    · have := this.2 a ha; simp only [TkW.tick, TkW.ret] at *; omega
  all_goals
    have h1 := hN.1
    simp only at h1
    cases h
    refine ⟨?_, fun a ha => nomatch ha⟩
    simp only [TkW.tick, TkW.ret]
    omega

theorem outerLoopC_covers (fuel : Nat) (d : De) (v : P.V) (st : List (Frame P)) (w : σ) (x : TkW σ Unit) (h : outerLoopC P fuel d v st w = some x) :
    TkW.covers μ (fun _ : Unit => 0) (μ w) d.left x := by
  induction fuel generalizing d v st w x with
  | zero => cases h
  | succ fuel ih =>
    rw [outerLoopC] at h
    have he := De.eventC_covers d
    rcases hh : d.eventC with ⟨⟨ev, d'⟩ | _ | _, n⟩
    · rw [hh] at he h
      have he := he _ rfl
      simp only at he h
      have hvc := visitEvent_calls C v ev w
      rcases hv : visitEvent P v ev w with ⟨l? | _ | _, w'⟩
      · rw [hv] at h hvc
        simp only at h hvc
        have key : ∀ {o : Option (TkW σ Unit)}, (o.map (TkW.tick 1)).map (TkW.tick n) = some x → ∃ y, o = some y ∧ x = TkW.tick n (TkW.tick 1 y) := by
          intro o ho
          cases o with
          | none => cases ho
          | some y => cases ho; exact ⟨y, rfl, rfl⟩
        obtain ⟨y, hy, rfl⟩ := key h
        refine TkW.covers_tick (TkW.covers_calls (k := 1) (TkW.covers_le (m := μ w') (N := d'.left) ?_ hvc (by omega)) (Nat.le_refl _))
        cases l? with
        | some l => exact outer_tail_covers C ih _ (closeLoopC_covers C d' false v l st w') hy
        | none =>
          cases st with
          | nil => exact outer_tail_covers C ih (TkW.ret (.ok (.done d'), w')) (TkW.covers_ok (Nat.le_refl _) (Nat.le_refl _)) hy
          | cons f st =>
            exact outer_tail_covers C ih (TkW.tick 1 (closeLoopC P d' true f.1 f.2 st w'))
              (TkW.covers_calls (k := 0) (closeLoopC_covers C d' true f.1 f.2 st w') (by omega)) hy
      all_goals
        rw [hv] at h hvc
        simp only at hvc
        cases h
        have := dropStack_calls C st w'
        refine ⟨?_, fun a ha => nomatch ha⟩
        simp only [TkW.tick, TkW.ret]
        omega
    all_goals
      rw [hh] at h
      cases h
      have := dropStack_calls C st w
      refine ⟨?_, fun a ha => nomatch ha⟩
      simp only [TkW.tick, TkW.ret]
      omega

end

end Miniserde
