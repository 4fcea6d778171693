import Verif.Proof.LexCost

/-!
# The number of steps is linear in the input

A byte that is still to be read is worth 24 steps.
-/

namespace Miniserde

/-- The bytes not yet read. -/
def De.left (d : De) : Nat := d.input.length - d.pos

/-- The steps of `x` together with what its result is worth. -/
def Tk.spent {α : Type} (φ : α → Nat) (x : Tk α) : Nat :=
  x.2 + match x.1 with
    | .ok a => φ a
    | _ => 0

namespace Tk
variable {α β : Type} {φ : α → Nat} {ψ : β → Nat}

theorem spent_tick (n : Nat) (x : Tk α) : spent φ (tick n x) = spent φ x + n := by simp only [spent, tick]; omega
theorem spent_ok (a : α) : spent φ (ret (.ok a)) = φ a := by simp [spent, ret]
theorem spent_err : spent φ (ret .err) = 0 := rfl
theorem spent_panic : spent φ (ret .panic) = 0 := rfl
theorem spent_map (f : α → β) (x : Tk α) : spent ψ (map f x) = spent (fun a => ψ (f a)) x := by
  rcases x with ⟨_ | _ | _, n⟩ <;> rfl

theorem spent_bind {x : Tk α} {f : α → Tk β} {N B : Nat} (hx : spent φ x ≤ N) (hf : ∀ a, x.1 = .ok a → spent ψ (f a) ≤ φ a + B) : spent ψ (bind x f) ≤ N + B := by
  rcases x with ⟨a | _ | _, n⟩
  · have := hf a rfl
    simp only [spent, bind] at *
    omega
  · simp only [spent, bind] at *; omega
  · simp only [spent, bind] at *; omega

/-- A computation without steps in front. -/
theorem spent_ret_bind {x : Res α} {f : α → Tk β} {N : Nat} (hf : ∀ a, x = .ok a → spent ψ (f a) ≤ N) : spent ψ (bind (ret x) f) ≤ N := by
  rcases x with a | _ | _
  · have := hf a rfl
    simp only [spent, bind, ret] at *
    omega
  · simp [spent, bind, ret]
  · simp [spent, bind, ret]

end Tk

namespace De
open Tk

/-- What a state is worth. -/
abbrev worth (d : De) : Nat := 24 * d.left

theorem bump_left (d : De) : d.bump.left ≤ d.left := by simp only [left, bump]; omega
theorem bump_left' {d : De} (h : d.pos < d.input.length) : d.bump.left + 1 = d.left := by simp only [left, bump]; omega
theorem bump_left'' {d : De} {c : UInt8} (h : d.input[d.pos]? = some c) : d.bump.left + 1 = d.left := bump_left' (List.getElem?_eq_some_iff.1 h).1

theorem nextOrEofC_spent (d : De) : spent (fun r => r.2.worth) d.nextOrEofC ≤ d.worth + 1 := by
  unfold nextOrEofC
  rw [spent_tick]
  cases h : d.nextOrEof with
  | ok r =>
    have := nextOrEof_adv h
    rw [spent_ok]
    simp only [worth, left, this.1]
    omega
  | err => rw [spent_err]; omega
  | panic => rw [spent_panic]; omega

theorem hexLoopC_spent (k : Nat) (d : De) (n : Nat) : spent (fun r => r.2.worth) (hexLoopC k d n) ≤ d.worth + k := by
  induction k generalizing d n with
  | zero => rw [hexLoopC, spent_ok]; simp only; omega
  | succ k ih =>
    rw [hexLoopC]
    refine Nat.le_trans (spent_bind (B := k) (nextOrEofC_spent d) fun r _ => ?_) (by omega)
    cases hexVal r.1 with
    | none => simp only; rw [spent_err]; omega
    | some v => exact spent_ret_bind fun n' _ => ih r.2 n'

theorem charFrom_spent (o : Option Nat) (d : De) : spent (fun r => r.2.worth) (match o with
    | some c => Tk.ret (.ok (c, d))
    | none => Tk.ret .err) ≤ d.worth := by
  cases o with
  | none => exact Nat.zero_le _
  | some c => rw [spent_ok]

theorem unicodeEscapeC_spent (d : De) : spent (fun r => r.2.worth) d.unicodeEscapeC ≤ d.worth + 10 := by
  unfold unicodeEscapeC
  refine spent_bind (B := 6) (hexLoopC_spent 4 d 0) fun n1 _ => ?_
  · split
    · rw [spent_err]; omega
    split
    · refine spent_bind (B := 5) (nextOrEofC_spent n1.2) fun c1 _ => ?_
      split
      · rw [spent_err]; omega
      refine spent_bind (B := 4) (nextOrEofC_spent c1.2) fun c2 _ => ?_
      split
      · rw [spent_err]; omega
      refine Nat.le_trans (spent_bind (B := 0) (hexLoopC_spent 4 c2.2 0) fun n2 _ => ?_) (by omega)
      split
      · rw [spent_err]; omega
      refine spent_ret_bind fun hi _ => spent_ret_bind fun lo _ => ?_
      cases charFromU32 (surrogatePair hi lo) with
      | none => exact Nat.zero_le _
      | some c => simp only [spent_ok]; omega
    · have := charFrom_spent (charFromU32 n1.1) n1.2
      refine Nat.le_trans this ?_
      omega

theorem encodeUtf8_length (c : Nat) : (encodeUtf8 c).length ≤ 4 := by
  unfold encodeUtf8
  split
  · simp
  split
  · simp
  split <;> simp

theorem parseEscapeC_spent (d : De) : spent worth d.parseEscapeC ≤ d.worth + 15 := by
  unfold parseEscapeC
  refine spent_bind (B := 14) (nextOrEofC_spent d) fun r _ => ?_
  iterate 8 (split; · rw [spent_tick, spent_ok]; simp only [worth, left, push]; omega)
  split
  · refine spent_bind (B := 4) (unicodeEscapeC_spent r.2) fun u _ => ?_
    rw [spent_tick, spent_ok]
    have := encodeUtf8_length u.1
    simp only [worth, left, extend]
    omega
  · rw [spent_err]; omega

theorem skipPlainC_cost (d : De) : d.skipPlainC.2 + d.skipPlainC.1.left ≤ d.left + 1 := by
  fun_induction skipPlainC d with
  | case1 d c h hc => simp only; omega
  | case2 d c h hc ih => have := bump_left'' h; simp only; omega
  | case3 d h => simp only; omega

theorem parseWhitespaceC_cost (d : De) : d.parseWhitespaceC.2 + d.parseWhitespaceC.1.2.left ≤ d.left + 1 ∧ d.parseWhitespaceC.1.2.left ≤ d.left ∧
    (∀ c, d.parseWhitespaceC.1.1 = some c → d.parseWhitespaceC.1.2.bump.left + 1 = d.parseWhitespaceC.1.2.left) := by
  fun_induction parseWhitespaceC d with
  | case1 d c h hc ih => have := bump_left'' h; exact ⟨by simp only; omega, by simp only; omega, ih.2.2⟩
  | case2 d c h hc => exact ⟨by simp only; omega, Nat.le_refl _, fun _ _ => bump_left'' h⟩
  | case3 d h => exact ⟨by simp only; omega, Nat.le_refl _, fun _ h => by cases h⟩

theorem skipDigitsC_cost (d : De) : d.skipDigitsC.2 + d.skipDigitsC.1.left ≤ d.left + 1 ∧ d.skipDigitsC.1.left ≤ d.left := by
  fun_induction skipDigitsC d with
  | case1 d h ih => have := bump_left' (peekOrNul_digit_lt h); simp only; omega
  | case2 d h => simp only; omega

theorem parseIdentC_spent (d : De) (es : Bytes) : spent worth (parseIdentC d es) ≤ d.worth + 1 := by
  induction es generalizing d with
  | nil => rw [parseIdentC, spent_ok]; omega
  | cons e es ih =>
    rw [parseIdentC, spent_tick]
    unfold De.next
    cases h : d.input[d.pos]? with
    | none => simp only; rw [spent_err]; omega
    | some c =>
      have hb := bump_left'' h
      simp only
      split
      · rw [spent_err]; omega
      · have := ih d.bump
        simp only [bump, worth] at this hb ⊢
        omega

theorem slice_length {d : De} {a z : Nat} {l : Bytes} (h : d.slice a z = .ok l) : l.length = z - a ∧ z ≤ d.input.length := by
  unfold slice at h
  split at h
  · cases h; simp; omega
  · cases h

theorem parseStrLoopC_spent (d : De) : spent (fun p => p.2.worth) (parseStrLoopC d d.pos) ≤ d.worth + 1 := by
  rw [parseStrLoopC_eq, spent_tick]
  have h1 := skipPlainC_cost d
  have a1 := skipPlain_adv d
  rw [← skipPlainC_fst d] at a1
  revert h1
  generalize d.skipPlainC.2 = n
  generalize d.skipPlainC.1 = d1 at a1 ⊢
  intro h1
  unfold strStepC
  cases hc : d1.input[d1.pos]? with
  | none => simp only; rw [spent_err]; simp only [worth]; omega
  | some c =>
    have hb := bump_left'' hc
    have a3 := (List.getElem?_eq_some_iff.1 hc).1
    simp only
    split
    · split
      · have : spent (fun p : Bytes × De => p.2.worth) ((Tk.ret (d1.slice d.pos d1.pos)).bind fun borrowed => Tk.ret (.ok (borrowed, d1.bump))) ≤ d1.bump.worth :=
          spent_ret_bind fun a _ => by rw [spent_ok]
        simp only [worth] at this ⊢
        omega
      · have : spent (fun p : Bytes × De => p.2.worth) ((Tk.ret (d1.slice d.pos d1.pos)).bind fun tail =>
            Tk.tick tail.length (Tk.ret (.ok ((d1.extend tail).buffer, (d1.extend tail).bump)))) ≤ d1.bump.worth + (d1.pos - d.pos) :=
          spent_ret_bind fun a ha => by
            have := slice_length ha
            rw [spent_tick, spent_ok]
            simp only [worth, left, bump, extend]
            omega
        have e : d1.pos - d.pos = d.left - d1.left := by simp only [left, a1.1]; rw [a1.1] at a3; omega
        have e2 : d1.left ≤ d.left := by have := a1.2.1; simp only [left, a1.1]; omega
        simp only [worth] at this ⊢
        omega
    split
    · have : spent (fun p : Bytes × De => p.2.worth) ((Tk.ret (d1.slice d.pos d1.pos)).bind fun chunk => Tk.tick chunk.length <|
          (d1.extend chunk).bump.parseEscapeC.bind fun d3 => parseStrLoopC d3 d3.pos) ≤ d1.bump.worth + 15 + 1 + (d1.pos - d.pos) :=
        spent_ret_bind fun a ha => by
          have := slice_length ha
          have hp := parseEscapeC_spent (d1.extend a).bump
          rw [spent_tick]
          have := spent_bind (ψ := fun p : Bytes × De => p.2.worth) (f := fun d3 => parseStrLoopC d3 d3.pos) (B := 1) hp (by
            intro d3 he
            rw [parseEscapeC_fst] at he
            have a2 := parseEscape_adv he
            simp only [bump, extend] at a2
            have hlt : d3.input.length - d3.pos < d.input.length - d.pos := by rw [a2.1, a1.1]; rw [a1.1] at a3; omega
            exact parseStrLoopC_spent d3)
          have e : (d1.extend a).bump.worth = d1.bump.worth := rfl
          omega
      have e : d1.pos - d.pos = d.left - d1.left := by simp only [left, a1.1]; rw [a1.1] at a3; omega
      have e2 : d1.left ≤ d.left := by have := a1.2.1; simp only [left, a1.1]; omega
      simp only [worth] at this ⊢
      omega
    · rw [spent_err]; simp only [worth]; omega
termination_by d.input.length - d.pos

theorem parseStrC_spent (d : De) : spent (fun p => p.2.worth) d.parseStrC ≤ d.worth + 1 := parseStrLoopC_spent { d with buffer := [] }

theorem f64LoopC_cost : ∀ {n : Nat} {f : F64} {E : Int} {r : Res F64}, f64LoopWithin n f E = some r → (f64LoopC f E).2 ≤ n
  | 0, _, _, _, h => nomatch h
  | n + 1, f, E, r, h => by
    rw [f64LoopWithin] at h
    rw [f64LoopC]
    by_cases hk : E.natAbs < 309
    · rw [POW10_some hk]
      simp only
      split
      · split <;> simp [tick, ret]
      · simp [tick, ret]
    · rw [POW10_none hk]
      rw [if_neg hk] at h
      simp only
      by_cases hz : f.isZero = true
      · rw [if_pos hz]; simp [tick, ret]
      · rw [if_neg hz] at h ⊢
        by_cases h0 : E ≥ 0
        · rw [dif_pos h0]; simp [tick, ret]
        · rw [if_neg h0] at h
          rw [dif_neg h0, dif_pos (by omega)]
          have := f64LoopC_cost h
          simp only [tick]
          omega

theorem f64FromPartsC_cost (nonneg : Bool) {n : Nat} (hn : n ≤ u64Max) (E : Int) : (f64FromPartsC nonneg n E).2 ≤ 3 := by
  obtain ⟨r, hr⟩ := f64LoopWithin_three hn E
  have := f64LoopC_cost hr
  unfold f64FromPartsC Tk.bind
  split <;> simpa [ret] using this

theorem fromParts_spent (nonneg : Bool) {n : Nat} (hn : n ≤ u64Max) (E : Int) (d : De) :
    spent (fun p => p.2.worth) ((f64FromPartsC nonneg n E).bind fun f => .ret (.ok (f, d))) ≤ d.worth + 3 := by
  have h := f64FromPartsC_cost nonneg hn E
  have : spent (fun _ : F64 => d.worth) (f64FromPartsC nonneg n E) ≤ d.worth + 3 := by
    unfold spent
    split
    · simp only; omega
    · omega
  exact spent_bind (B := 0) this fun a _ => by rw [spent_ok]; simp only; omega

theorem parseExponentOverflowC_spent (d : De) (nonneg : Bool) (n : Nat) (p : Bool) : spent (fun p => p.2.worth) (d.parseExponentOverflowC nonneg n p) ≤ d.worth + 1 := by
  unfold parseExponentOverflowC
  split
  · rw [spent_err]; omega
  · rw [spent_tick, spent_ok]
    have := skipDigitsC_cost d
    simp only [worth]
    omega

theorem exponentLoopC_spent (nonneg : Bool) {n : Nat} (hn : n ≤ u64Max) (E : Int) (p : Bool) (d : De) (exp : Nat) :
    spent (fun p => p.2.worth) (exponentLoopC nonneg n E p d exp) ≤ d.worth + 4 := by
  rw [exponentLoopC, spent_tick]
  split
  · rename_i h
    have h' := peekOrNul_digit_lt h
    have hb := bump_left' h'
    simp only
    split
    · have := parseExponentOverflowC_spent d.bump nonneg n p
      simp only [worth] at this ⊢; omega
    split
    · have := exponentLoopC_spent nonneg hn E p d.bump (exp * 10 + digitVal d.peekOrNul)
      simp only [worth] at this ⊢; omega
    · rw [spent_panic]; omega
  · have := fromParts_spent nonneg hn (if p = true then satI32 (E + exp) else satI32 (E - exp)) d
    simp only [worth] at this ⊢; omega
termination_by d.input.length - d.pos
decreasing_by simp only [bump]; omega

theorem nextOrNul_left (d : De) : d.nextOrNul.2.left ≤ d.left := by
  unfold nextOrNul De.next
  split
  · simp only [left]; omega
  · exact Nat.le_refl _

theorem parseExponentC_spent (d : De) (nonneg : Bool) {n : Nat} (hn : n ≤ u64Max) (E : Int) : spent (fun p => p.2.worth) (d.parseExponentC nonneg n E) ≤ d.worth + 6 := by
  unfold parseExponentC
  simp only [spent_tick]
  have hq : (if d.bump.peekOrNul = b('+') then (true, d.bump.bump) else if d.bump.peekOrNul = b('-') then (false, d.bump.bump) else (true, d.bump)).2.left ≤ d.left := by
    have h1 := bump_left d
    have h2 := bump_left d.bump
    split
    · simp only; omega
    split <;> (simp only; omega)
  revert hq
  generalize (if d.bump.peekOrNul = b('+') then (true, d.bump.bump) else if d.bump.peekOrNul = b('-') then (false, d.bump.bump) else (true, d.bump)) = q
  intro hq
  have := nextOrNul_left q.2
  split
  · have := exponentLoopC_spent nonneg hn E q.1 q.2.nextOrNul.2 (digitVal q.2.nextOrNul.1)
    simp only [worth] at this ⊢
    omega
  · rw [spent_err]; omega

theorem u64_le {n m : Nat} (h : u64 n = .ok m) : m ≤ u64Max := by
  unfold u64 at h
  split at h
  · cases h; assumption
  · cases h

theorem decimalLoopC_spent (d : De) (a : Bool) {n : Nat} (hn : n ≤ u64Max) (E : Int) :
    spent (fun p => p.2.worth) (decimalLoopC d a n E) ≤ d.worth + 1 ∧ ∀ r, (decimalLoopC d a n E).1 = .ok r → r.1.2.1 ≤ u64Max := by
  rw [decimalLoopC, spent_tick, tick_fst]
  split
  · rename_i h
    have h' := peekOrNul_digit_lt h
    have hb := bump_left' h'
    simp only
    split
    · rw [spent_tick, spent_ok]
      have := skipDigitsC_cost d.bump
      refine ⟨by simp only [worth]; omega, fun r hr => ?_⟩
      cases hr
      exact hn
    · cases hu : u64 (n * 10 + digitVal d.peekOrNul) with
      | ok s =>
        cases i32 (E - 1) with
        | ok e =>
          have := decimalLoopC_spent d.bump true (u64_le hu) e
          exact ⟨by have := this.1; simp only [worth] at this ⊢; omega, this.2⟩
        | err => exact ⟨by simp only; rw [spent_panic]; omega, fun r hr => nomatch hr⟩
        | panic => exact ⟨by simp only; rw [spent_panic]; omega, fun r hr => nomatch hr⟩
      | err => exact ⟨by simp only; rw [spent_panic]; omega, fun r hr => nomatch hr⟩
      | panic => exact ⟨by simp only; rw [spent_panic]; omega, fun r hr => nomatch hr⟩
  · rw [spent_ok]
    refine ⟨by simp only; omega, fun r hr => ?_⟩
    cases hr
    exact hn
termination_by d.input.length - d.pos
decreasing_by simp only [bump]; omega

theorem parseDecimalC_spent (d : De) (nonneg : Bool) {n : Nat} (hn : n ≤ u64Max) (E : Int) : spent (fun p => p.2.worth) (d.parseDecimalC nonneg n E) ≤ d.worth + 8 := by
  unfold parseDecimalC
  have h1 := decimalLoopC_spent d.bump false hn E
  have h2 := bump_left d
  refine Nat.le_trans (spent_bind (B := 7) h1.1 fun r hr => ?_) (by simp only [worth]; omega)
  · have hr := h1.2 r hr
    rw [spent_tick]
    split
    · rw [spent_err]; omega
    split
    · have := parseExponentC_spent r.2 nonneg hr r.1.2.2; omega
    · have := fromParts_spent nonneg hr r.1.2.2 r.2; omega

theorem parseLongIntegerC_spent (d : De) (nonneg : Bool) {n : Nat} (hn : n ≤ u64Max) (E : Int) :
    spent (fun p => p.2.worth) (d.parseLongIntegerC nonneg n E) ≤ d.worth + 9 := by
  rw [parseLongIntegerC, spent_tick]
  split
  · rename_i h
    have h' := peekOrNul_digit_lt h
    have hb := bump_left' h'
    cases i32 (E + 1) with
    | ok e => have := parseLongIntegerC_spent d.bump nonneg hn e; simp only [worth] at this ⊢; omega
    | err => simp only; rw [spent_panic]; omega
    | panic => simp only; rw [spent_panic]; omega
  split
  · have := parseDecimalC_spent d nonneg hn E; omega
  split
  · have := parseExponentC_spent d nonneg hn E; omega
  · have := fromParts_spent nonneg hn E d; omega
termination_by d.input.length - d.pos
decreasing_by simp only [bump]; omega

theorem mapFloatC_spent (r : Tk (F64 × De)) : spent (fun p => p.2.worth) (mapFloatC r) = spent (fun p => p.2.worth) r := spent_map _ _

theorem parseNumberC_spent (d : De) (nonneg : Bool) {n : Nat} (hn : n ≤ u64Max) : spent (fun p => p.2.worth) (d.parseNumberC nonneg n) ≤ d.worth + 9 := by
  unfold parseNumberC
  rw [spent_tick]
  split
  · have := parseDecimalC_spent d nonneg hn 0; rw [mapFloatC_spent]; omega
  split
  · have := parseExponentC_spent d nonneg hn 0; rw [mapFloatC_spent]; omega
  split
  · rw [spent_ok]; simp only; omega
  · simp only
    split <;> (rw [spent_ok]; simp only; omega)

theorem integerLoopC_spent (d : De) (nonneg : Bool) {n : Nat} (hn : n ≤ u64Max) : spent (fun p => p.2.worth) (d.integerLoopC nonneg n) ≤ d.worth + 10 := by
  rw [integerLoopC, spent_tick]
  split
  · rename_i h
    have h' := peekOrNul_digit_lt h
    have hb := bump_left' h'
    simp only
    split
    · have := parseLongIntegerC_spent d.bump nonneg hn 1; rw [mapFloatC_spent]; simp only [worth] at this ⊢; omega
    · cases hu : u64 (n * 10 + digitVal d.peekOrNul) with
      | ok s => have := integerLoopC_spent d.bump nonneg (u64_le hu); simp only [worth] at this ⊢; omega
      | err => simp only; rw [spent_panic]; omega
      | panic => simp only; rw [spent_panic]; omega
  · have := parseNumberC_spent d nonneg hn; omega
termination_by d.input.length - d.pos
decreasing_by simp only [bump]; omega

theorem digitVal_le (c : UInt8) : digitVal c ≤ u64Max := by
  have := c.toNat_lt
  unfold digitVal u64Max
  omega

theorem parseIntegerC_spent (d : De) (nonneg : Bool) (c : UInt8) : spent (fun p => p.2.worth) (d.parseIntegerC nonneg c) ≤ d.worth + 10 := by
  unfold parseIntegerC
  split
  · rw [spent_tick]
    split
    · rw [spent_err]; omega
    · have := parseNumberC_spent d nonneg (n := 0) (Nat.zero_le _); omega
  split
  · exact integerLoopC_spent d nonneg (digitVal_le c)
  · rw [spent_err]; omega

theorem eventC_spent (d : De) : spent (fun p => p.2.worth + 12) d.eventC ≤ d.worth + 1 := by
  unfold eventC
  rw [spent_tick]
  have hw := parseWhitespaceC_cost d
  rcases hp : d.parseWhitespaceC with ⟨⟨_ | c, d1⟩, n⟩
  · rw [hp] at hw
    simp only at hw ⊢
    rw [spent_err]
    simp only [worth]
    omega
  · rw [hp] at hw
    simp only at hw ⊢
    have hb := hw.2.2 c rfl
    have hw := hw.1
    have plus : ∀ {x : Tk (Event × De)} {N : Nat}, spent (fun p => p.2.worth) x ≤ N → spent (fun p => p.2.worth + 12) x ≤ N + 12 := by
      intro x N h
      rcases x with ⟨a | _ | _, m⟩ <;> simp only [spent] at * <;> omega
    have key : ∀ {x : Tk (Event × De)}, spent (fun p => p.2.worth) x ≤ d1.bump.worth + 11 → spent (fun p => p.2.worth + 12) x + n ≤ d.worth + 1 := by
      intro x h
      have := plus h
      simp only [worth] at *
      omega
    split
    · exact key (by have := parseStrC_spent d1.bump; rw [spent_map]; simp only; omega)
    split
    · exact key (by have := parseIntegerC_spent d1.bump true c; omega)
    split
    · refine key ?_
      rw [spent_tick]
      have := parseIntegerC_spent d1.bump.nextOrNul.2 false d1.bump.nextOrNul.1
      have := nextOrNul_left d1.bump
      simp only [worth] at *
      omega
    split
    · exact key (by rw [spent_ok]; simp only; omega)
    split
    · exact key (by rw [spent_ok]; simp only; omega)
    iterate 3 (split; · exact key (by rw [spent_map]; exact Nat.le_trans (parseIdentC_spent d1.bump _) (by omega)))
    exact key (by rw [spent_err]; omega)

end De

variable {σ : Type}

/-- The steps of `x` together with what its result is worth. -/
def TkW.spent {α : Type} (φ : α → Nat) (x : TkW σ α) : Nat :=
  x.2 + match x.1.1 with
    | .ok a => φ a
    | _ => 0

namespace TkW
variable {α : Type} {φ : α → Nat}
theorem spent_tick (n : Nat) (x : TkW σ α) : spent φ (tick n x) = spent φ x + n := by simp only [spent, tick]; omega
theorem spent_ok (a : α) (w : σ) : spent φ (ret (.ok a, w)) = φ a := by simp [spent, ret]
theorem spent_err (w : σ) : spent φ (ret (.err, w)) = 0 := rfl
theorem spent_panic (w : σ) : spent φ (ret (.panic, w)) = 0 := rfl
theorem spent_fail {β : Type} (r : Res β) (w : σ) : spent φ (ret (r.fail, w)) = 0 := by cases r <;> rfl
end TkW

variable (P : Proto σ)
open TkW

/-- What the driver's position is worth: the bytes left, and two steps for each frame on the stack. -/
def LoopExit.worth {P : Proto σ} : LoopExit P → Nat
  | .child d _ _ st => d.worth + 2 * st.length
  | .done d => d.worth

theorem closeLoopC_spent (d : De) (a : Bool) (v : P.V) (l : Layer P) (st : List (Frame P)) (w : σ) :
    spent LoopExit.worth (closeLoopC P d a v l st w) ≤ d.worth + 2 * st.length + 2 := by
  induction st generalizing d a v l w with
  | nil =>
    rw [closeLoopC, TkW.spent_tick]
    obtain ⟨h1, h2, h3⟩ := De.parseWhitespaceC_cost d
    generalize De.parseWhitespaceC d = wsh1 at h1 h2 h3 ⊢
    rcases wsh1 with ⟨⟨o, d1⟩, n⟩
    simp only at h1 h2 h3 ⊢
    have hb := d1.bump_left
    split
    · rw [TkW.spent_ok]
      simp only [LoopExit.worth, De.worth] at *
      omega
    split
    · rename_i h
      have h3 : d1.bump.left + 1 = d1.left := by
        cases o with
        | none => simp at h
        | some c => exact h3 c rfl
      rcases finishLayer P (o.getD 0) l w with ⟨_ | _ | _, w'⟩
      · simp only
        rw [TkW.spent_tick, TkW.spent_ok]
        simp only [LoopExit.worth, De.worth, List.length_nil] at *
        omega
      · simp only
        rw [TkW.spent_tick, TkW.spent_fail]
        simp only [De.worth, List.length_nil] at *
        omega
      · simp only
        rw [TkW.spent_tick, TkW.spent_fail]
        simp only [De.worth, List.length_nil] at *
        omega
    split
    · rw [TkW.spent_tick, TkW.spent_err]
      simp only [De.worth, List.length_nil] at *
      omega
    · rw [TkW.spent_ok]
      simp only [LoopExit.worth, De.worth, List.length_nil] at *
      omega
  | cons f st ih =>
    rw [closeLoopC, TkW.spent_tick]
    obtain ⟨h1, h2, h3⟩ := De.parseWhitespaceC_cost d
    generalize De.parseWhitespaceC d = wsh1 at h1 h2 h3 ⊢
    rcases wsh1 with ⟨⟨o, d1⟩, n⟩
    simp only at h1 h2 h3 ⊢
    have hb := d1.bump_left
    split
    · rw [TkW.spent_ok]
      simp only [LoopExit.worth, De.worth] at *
      omega
    split
    · rename_i h
      have h3 : d1.bump.left + 1 = d1.left := by
        cases o with
        | none => simp at h
        | some c => exact h3 c rfl
      rcases finishLayer P (o.getD 0) l w with ⟨_ | _ | _, w'⟩
      · simp only
        rw [TkW.spent_tick]
        have := ih d1.bump true f.1 f.2 (l.drop w')
        simp only [De.worth, List.length_cons] at *
        omega
      · simp only
        rw [TkW.spent_tick, TkW.spent_fail]
        simp only [De.worth] at *
        omega
      · simp only
        rw [TkW.spent_tick, TkW.spent_fail]
        simp only [De.worth] at *
        omega
    split
    · rw [TkW.spent_tick, TkW.spent_err]
      simp only [De.worth] at *
      omega
    · rw [TkW.spent_ok]
      simp only [LoopExit.worth, De.worth] at *
      omega

theorem openChildC_spent (d : De) (v : P.V) (l : Layer P) (st : List (Frame P)) (w : σ) :
    spent (fun r => r.1.worth + 2 * r.2.2.length) (openChildC P d v l st w) ≤ d.worth + 2 * st.length + 4 := by
  unfold openChildC
  cases l with
  | seq q =>
    simp only
    rcases P.element q w with ⟨_ | _ | _, w'⟩
    · simp only
      rw [TkW.spent_tick, TkW.spent_ok]
      simp only [List.length_cons]
      omega
    · simp only
      rw [TkW.spent_tick, TkW.spent_fail]
      omega
    · simp only
      rw [TkW.spent_tick, TkW.spent_fail]
      omega
  | map m =>
    simp only
    rw [TkW.spent_tick]
    obtain ⟨h1, h2, h3⟩ := De.parseWhitespaceC_cost d
    generalize De.parseWhitespaceC d = wsh1 at h1 h2 h3 ⊢
    rcases wsh1 with ⟨⟨o, d1⟩, n⟩
    simp only at h1 h2 h3 ⊢
    split
    · rename_i h
      have hb := h3 _ h
      rw [TkW.spent_tick]
      have hs := De.parseStrC_spent d1.bump
      generalize d1.bump.parseStrC = ps at hs ⊢
      rcases ps with ⟨⟨k, d2⟩ | _ | _, n2⟩
      · simp only [Tk.spent] at hs ⊢
        rw [TkW.spent_tick]
        rcases P.key m k w with ⟨_ | _ | _, w'⟩
        · simp only
          rw [TkW.spent_tick]
          obtain ⟨g1, g2, g3⟩ := De.parseWhitespaceC_cost d2
          generalize De.parseWhitespaceC d2 = wsg1 at g1 g2 g3 ⊢
          rcases wsg1 with ⟨⟨o2, d3⟩, n3⟩
          simp only at g1 g2 g3 ⊢
          split
          · rename_i h'
            have hb' := g3 _ h'
            rw [TkW.spent_tick, TkW.spent_ok]
            simp only [De.worth, List.length_cons] at *
            omega
          · rw [TkW.spent_tick, TkW.spent_err]
            simp only [De.worth] at *
            omega
        · simp only
          rw [TkW.spent_tick, TkW.spent_fail]
          simp only [De.worth] at *
          omega
        · simp only
          rw [TkW.spent_tick, TkW.spent_fail]
          simp only [De.worth] at *
          omega
      · simp only [Tk.spent] at hs ⊢
        rw [TkW.spent_tick, TkW.spent_fail]
        simp only [De.worth] at *
        omega
      · simp only [Tk.spent] at hs ⊢
        rw [TkW.spent_tick, TkW.spent_fail]
        simp only [De.worth] at *
        omega
    · rw [TkW.spent_tick, TkW.spent_err]
      simp only [De.worth] at *
      omega

/-- The rest of an iteration of the outer loop after the inner loop. -/
theorem outer_tail {fuel : Nat} (ih : ∀ d v st w x, outerLoopC P fuel d v st w = some x → x.2 ≤ d.worth + 2 * st.length + 1)
    (next : TkW σ (LoopExit P)) {N : Nat} (hN : spent LoopExit.worth next ≤ N) {x : TkW σ Unit}
    (h : (match next.1 with
        | (.ok (.child d visitor layer stack), w) =>
          let child := openChildC P d visitor layer stack w
          (match child.1 with
          | (.ok (d, visitor, stack), w) => outerLoopC P fuel d visitor stack w
          | (r, w) => some (.ret (r.fail, w))).map (TkW.tick child.2)
        | (.ok (.done d), w) => some (.tick d.parseWhitespaceC.2 (.ret (trailing d, w)))
        | (r, w) => some (.ret (r.fail, w))).map (TkW.tick next.2) = some x) : x.2 ≤ N + 5 := by
  rcases next with ⟨⟨(⟨d2, v2, l2, st2⟩ | d2) | _ | _, w2⟩, n⟩
  · simp only [TkW.spent, LoopExit.worth] at hN
    have hc := openChildC_spent P d2 v2 l2 st2 w2
    rcases hh : openChildC P d2 v2 l2 st2 w2 with ⟨⟨⟨d3, v3, st3⟩ | _ | _, w3⟩, m⟩
    · rw [hh] at hc
      simp only [TkW.spent] at hc
      simp only [hh] at h
      rcases ho : outerLoopC P fuel d3 v3 st3 w3 with _ | y
      · rw [ho] at h; cases h
      · rw [ho] at h
        cases h
        have := ih _ _ _ _ _ ho
        simp only [TkW.tick]
        omega
    · rw [hh] at hc
      simp only [TkW.spent] at hc
      simp only [hh] at h
      cases h
      simp only [TkW.tick, TkW.ret]
      omega
    · rw [hh] at hc
      simp only [TkW.spent] at hc
      simp only [hh] at h
      cases h
      simp only [TkW.tick, TkW.ret]
      omega
  · simp only [TkW.spent, LoopExit.worth, De.worth] at hN
    have := (De.parseWhitespaceC_cost d2).1
    cases h
    simp only [TkW.tick, TkW.ret]
    omega
  · simp only [TkW.spent] at hN
    cases h
    simp only [TkW.tick, TkW.ret]
    omega
  · simp only [TkW.spent] at hN
    cases h
    simp only [TkW.tick, TkW.ret]
    omega

theorem outerLoopC_spent (fuel : Nat) (d : De) (v : P.V) (st : List (Frame P)) (w : σ) (x : TkW σ Unit) (h : outerLoopC P fuel d v st w = some x) :
    x.2 ≤ d.worth + 2 * st.length + 1 := by
  induction fuel generalizing d v st w x with
  | zero => cases h
  | succ fuel ih =>
    rw [outerLoopC] at h
    have he := De.eventC_spent d
    rcases hh : d.eventC with ⟨⟨ev, d'⟩ | _ | _, n⟩
    · rw [hh] at he h
      simp only [Tk.spent] at he h
      rcases hv : visitEvent P v ev w with ⟨l? | _ | _, w'⟩
      · rw [hv] at h
        simp only at h
        have key : ∀ {o : Option (TkW σ Unit)}, (o.map (TkW.tick 1)).map (TkW.tick n) = some x → ∃ y, o = some y ∧ x.2 = y.2 + 1 + n := by
          intro o ho
          cases o with
          | none => cases ho
          | some y => cases ho; exact ⟨y, rfl, rfl⟩
        obtain ⟨y, hy, hx⟩ := key h
        have : y.2 ≤ d'.worth + 2 * st.length + 2 + 1 + 5 := by
          cases l? with
          | some l => exact Nat.le_trans (outer_tail P ih _ (closeLoopC_spent P d' false v l st w') hy) (by omega)
          | none =>
            cases st with
            | nil => exact Nat.le_trans (outer_tail P ih (TkW.ret (.ok (.done d'), w')) (N := d'.worth) (by rw [TkW.spent_ok]; exact Nat.le_refl _) hy) (by omega)
            | cons f st =>
              have := outer_tail P ih (TkW.tick 1 (closeLoopC P d' true f.1 f.2 st w')) (N := d'.worth + 2 * st.length + 2 + 1)
                (by rw [TkW.spent_tick]; have := closeLoopC_spent P d' true f.1 f.2 st w'; omega) hy
              simp only [List.length_cons]
              omega
        omega
      · rw [hv] at h
        cases h
        simp only [TkW.tick, TkW.ret]
        omega
      · rw [hv] at h
        cases h
        simp only [TkW.tick, TkW.ret]
        omega
    · rw [hh] at he h
      simp only [Tk.spent] at he
      cases h
      simp only [TkW.tick, TkW.ret]
      omega
    · rw [hh] at he h
      simp only [Tk.spent] at he
      cases h
      simp only [TkW.tick, TkW.ret]
      omega

end Miniserde
