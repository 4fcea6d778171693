import Verif.Proof.Utf8

/-!
# Values of digit strings
-/

namespace Miniserde

/-- `digitsVal` with a start value. -/
def digitsFrom (acc : Nat) (ds : Bytes) : Nat := ds.foldl (fun a c => a * 10 + (c.toNat - 48)) acc

theorem digitsFrom_cons (acc : Nat) (c : UInt8) (ds : Bytes) :
    digitsFrom acc (c :: ds) = digitsFrom (acc * 10 + (c.toNat - 48)) ds := by
  unfold digitsFrom; rw [List.foldl_cons]

theorem digitsFrom_eq (acc : Nat) (ds : Bytes) : digitsFrom acc ds = acc * 10 ^ ds.length + digitsVal ds := by
  induction ds generalizing acc with
  | nil => simp [digitsFrom, digitsVal]
  | cons c ds ih =>
    rw [digitsFrom_cons, ih]
    have : digitsVal (c :: ds) = digitsFrom (0 * 10 + (c.toNat - 48)) ds := by
      unfold digitsVal digitsFrom; rw [List.foldl_cons]
    rw [this, ih, List.length_cons, Nat.pow_succ]
    simp only [Nat.zero_mul, Nat.zero_add, Nat.add_mul, Nat.mul_assoc, Nat.add_assoc, Nat.mul_comm 10]

theorem le_digitsFrom (acc : Nat) (ds : Bytes) : acc ≤ digitsFrom acc ds := by
  rw [digitsFrom_eq]
  have := Nat.mul_le_mul_left acc (Nat.one_le_pow ds.length 10 (by omega))
  omega

/-- Accumulation is exact as long as the number fits. -/
theorem accum_exact {bound acc : Nat} {ds : Bytes} (h : digitsFrom acc ds ≤ bound) :
    accum bound acc ds = (digitsFrom acc ds, 0) := by
  induction ds generalizing acc with
  | nil => rfl
  | cons c ds ih =>
    rw [digitsFrom_cons] at h
    have := le_digitsFrom (acc * 10 + (c.toNat - 48)) ds
    rw [accum, if_pos (by omega), ih h, digitsFrom_cons]

/-- ... and leaves digits over otherwise. -/
theorem accum_over {bound acc : Nat} {ds : Bytes} (h : bound < digitsFrom acc ds) (ha : acc ≤ bound) :
    (accum bound acc ds).2 ≠ 0 := by
  induction ds generalizing acc with
  | nil => simp [digitsFrom] at h; omega
  | cons c ds ih =>
    rw [digitsFrom_cons] at h
    rw [accum]
    split
    · rename_i h'; exact ih h h'
    · simp

/-- Every number delivered as a float event is finite or fails: what integer literals are delivered as. -/
theorem numEvent_int {l : NumLit} (hf : l.frac = none) (hx : l.exp = none) :
    numEvent l =
      if digitsVal l.int ≤ u64Max then
        if l.minus then
          if digitsVal l.int ≤ 9223372036854775808 then .ok (.negative (-(digitsVal l.int : Int)))
          else .ok (.float (Flt.ofNat binary64 (digitsVal l.int)).neg)
        else .ok (.nonnegative (digitsVal l.int))
      else (i32 (accum u64Max 0 l.int).2).bind fun e =>
        (De.f64FromParts (!l.minus) (accum u64Max 0 l.int).1 e).map .float := by
  have e : digitsFrom 0 l.int = digitsVal l.int := rfl
  unfold numEvent
  simp only [hf, hx]
  by_cases h : digitsVal l.int ≤ u64Max
  · rw [if_pos h, accum_exact (by rw [e]; exact h), e]
    simp
  · rw [if_neg h, if_neg]
    · simp [fracValue, expValue]
    · intro h'
      exact accum_over (bound := u64Max) (acc := 0) (ds := l.int) (by rw [e]; omega) (by simp) h'.1

end Miniserde
