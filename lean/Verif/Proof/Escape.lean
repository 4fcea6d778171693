import Verif.Spec.Ser
import Verif.Proof.Utf8

/-!
# `escape_str` writes the quoted string
-/

namespace Miniserde

/-- One byte: what the loop of `escape_str` does with it. -/
def escapeCheck (c : UInt8) : Bool :=
  match SER_ESCAPE[c.toNat]? with
  | none => false
  | some e => if e = 0 then escapedByte c == [c] else pushEscape e c == some (escapedByte c) && decide (c < 0x80)

theorem escapeCheck_all (c : UInt8) : escapeCheck c = true := by
  have h : ∀ n : Fin 256, escapeCheck (UInt8.ofNat n.1) = true := by decide +kernel
  have := h ⟨c.toNat, c.toNat_lt⟩
  simpa using this

theorem escape_byte (c : UInt8) : (SER_ESCAPE[c.toNat]? = some 0 ∧ escapedByte c = [c]) ∨
    ∃ e, SER_ESCAPE[c.toNat]? = some e ∧ e ≠ 0 ∧ pushEscape e c = some (escapedByte c) ∧ c < 0x80 := by
  have h := escapeCheck_all c
  unfold escapeCheck at h
  split at h
  · simp at h
  · rename_i e he
    rw [he]
    split at h
    · rename_i h0; left; simpa [h0] using h
    · rename_i h0; right
      simp only [Bool.and_eq_true, beq_iff_eq, decide_eq_true_eq] at h
      exact ⟨e, rfl, h0, h.1, h.2⟩

theorem valid_head {c : UInt8} {r : Bytes} (h : ValidUtf8 (c :: r)) : c < 0x80 ∨ 0xC0 ≤ c := by
  obtain ⟨cs, e⟩ := h
  match cs with
  | [] => simp [utf8s] at e
  | x :: cs =>
    simp only [utf8s, List.flatMap_cons] at e
    rw [← encodeUtf8_eq] at e
    have hc : x.toNat < 0x110000 := by
      have := x.valid
      simp [UInt32.isValidChar, Nat.isValidChar] at this
      have e : x.toNat = x.val.toNat := rfl
      omega
    generalize x.toNat = v at hc e
    unfold encodeUtf8 at e
    rw [UInt8.lt_iff_toNat_lt, UInt8.le_iff_toNat_le]
    by_cases h1 : v < 0x80
    · rw [if_pos h1] at e
      simp only [List.cons_append, List.cons.injEq] at e; rw [e.1]; simp; omega
    · rw [if_neg h1] at e
      by_cases h2 : v < 0x800
      · rw [if_pos h2] at e
        simp only [List.cons_append, List.cons.injEq] at e; rw [e.1]; simp; omega
      · rw [if_neg h2] at e
        by_cases h3 : v < 0x10000
        · rw [if_pos h3] at e
          simp only [List.cons_append, List.cons.injEq] at e; rw [e.1]; simp; omega
        · rw [if_neg h3] at e
          simp only [List.cons_append, List.cons.injEq] at e; rw [e.1]; simp; omega

/-- A position is a boundary when the rest from there is well formed. -/
theorem boundary_of_valid {a r : Bytes} (h : ValidUtf8 r) : isCharBoundary (a ++ r) a.length = true := by
  unfold isCharBoundary
  split
  · rfl
  · rename_i hne
    match r, h with
    | [], _ => simp at hne
    | c :: r, h => simpa using valid_head h

/-- A position is a boundary when an ASCII byte is there. -/
theorem boundary_of_ascii {a r : Bytes} {c : UInt8} (h : c < 0x80) : isCharBoundary (a ++ c :: r) a.length = true := by
  unfold isCharBoundary
  split
  · rfl
  · simp [h]

theorem slice_mid {a p r : Bytes} (h1 : isCharBoundary (a ++ (p ++ r)) a.length = true)
    (h2 : isCharBoundary (a ++ (p ++ r)) (a.length + p.length) = true) :
    sliceStr (a ++ (p ++ r)) a.length (a.length + p.length) = some p := by
  unfold sliceStr
  rw [if_pos ⟨by omega, by simp, h1, h2⟩]
  simp

/-- `src/json/ser.rs:174-178`: the end of `escape_str`. -/
def escapeEnd (value : Bytes) (x : Option (Nat × Bytes)) : Option Bytes :=
  match x with
  | none => none
  | some (start, out) =>
    match (if start ≠ value.length then (sliceStr value start value.length).map (out ++ ·) else some out) with
    | none => none
    | some out => some (out ++ [b('"')])

theorem escapeStr_end (value out : Bytes) :
    escapeStr value out = escapeEnd value (escapeLoop value 0 0 (out ++ [b('"')]) value) := rfl

theorem flatMap_plain {p : Bytes} (h : ∀ c ∈ p, escapedByte c = [c]) : p.flatMap escapedByte = p := by
  induction p with
  | nil => rfl
  | cons c p ih => rw [List.flatMap_cons, h c (by simp), ih fun x hx => h x (by simp [hx])]; rfl

/-- The loop, from a state where `a` has been written, `p` is pending and `r` is still to be read. -/
theorem escapeLoop_eq : ∀ (r a p out : Bytes), ValidUtf8 (p ++ r) → (∀ c ∈ p, escapedByte c = [c]) →
    escapeEnd (a ++ (p ++ r)) (escapeLoop (a ++ (p ++ r)) (a.length + p.length) a.length out r) =
      some (out ++ ((p ++ r).flatMap escapedByte ++ [0x22]))
  | [], a, p, out, hv, hp => by
    rw [escapeLoop, escapeEnd]
    simp only [List.append_nil] at *
    rw [flatMap_plain hp]
    split
    · rename_i h
      split at h
      · have hb : isCharBoundary (a ++ (p ++ [])) a.length = true := boundary_of_valid (by simpa using hv)
        have := slice_mid (a := a) (p := p) (r := []) hb (by simp [isCharBoundary])
        simp at this; simp [this] at h
      · simp at h
    · rename_i o h
      split at h
      · have hb : isCharBoundary (a ++ (p ++ [])) a.length = true := boundary_of_valid (by simpa using hv)
        have := slice_mid (a := a) (p := p) (r := []) hb (by simp [isCharBoundary])
        simp at this; simp [this] at h; simp [← h]
      · rename_i hne
        have : p = [] := by simpa using hne
        subst this
        simp at h; simp [h]
  | c :: r, a, p, out, hv, hp => by
    rcases escape_byte c with ⟨h0, hc⟩ | ⟨e, he, hne, hpe, ha⟩
    · have ih := escapeLoop_eq r a (p ++ [c]) out (by simpa using hv) (by
        intro x hx; simp only [List.mem_append, List.mem_singleton] at hx
        rcases hx with hx | rfl
        · exact hp x hx
        · exact hc)
      rw [escapeLoop, h0]
      simp only [if_true]
      simpa [Nat.add_assoc] using ih
    · have hv' := (valid_split ha hv).2
      have ih := escapeLoop_eq r (a ++ (p ++ [c])) [] (out ++ p ++ escapedByte c) (by simpa using hv') (by simp)
      have hs : (if a.length < a.length + p.length then
          (sliceStr (a ++ (p ++ c :: r)) a.length (a.length + p.length)).map (out ++ ·) else some out) = some (out ++ p) := by
        split
        · rw [slice_mid (boundary_of_valid hv) (by
            have := boundary_of_ascii (a := a ++ p) (r := r) ha
            simpa using this)]; rfl
        · have : p = [] := List.length_eq_zero_iff.1 (by omega)
          simp [this]
      rw [escapeLoop, he]
      simp only [if_neg hne, hs, hpe]
      have e1 : a ++ (p ++ [c]) ++ ([] ++ r) = a ++ (p ++ c :: r) := by simp
      rw [e1] at ih
      simp only [List.length_append, List.length_cons, List.length_nil, Nat.add_zero, Nat.zero_add] at ih
      rw [Nat.add_assoc, ih]
      simp [List.flatMap_append, flatMap_plain hp]

/-- `escape_str` appends the quoted string. -/
theorem escapeStr_eq {s : Bytes} (h : ValidUtf8 s) (out : Bytes) : escapeStr s out = some (out ++ quoted s) := by
  rw [escapeStr_end]
  have := escapeLoop_eq s [] [] (out ++ [b('"')]) (by simpa using h) (by simp)
  simp only [List.nil_append, List.length_nil, Nat.add_zero] at this
  rw [this]
  simp [quoted]

/-! ## The quoted string is a string literal denoting the string -/

theorem escapedByte_char (c : UInt8) : StrChar (escapedByte c) [c] := by
  unfold escapedByte
  split; · rename_i h; subst h; exact .quote
  split; · rename_i h; subst h; exact .backslash
  split; · rename_i h; subst h; exact .bs
  split; · rename_i h; subst h; exact .tab
  split; · rename_i h; subst h; exact .lf
  split; · rename_i h; subst h; exact .ff
  split; · rename_i h; subst h; exact .cr
  split
  · rename_i h
    have hn : c.toNat < 32 := by rw [UInt8.lt_iff_toNat_lt] at h; simpa using h
    have hu : utf8Of (Char.ofNat c.toNat) = [c] := by rw [utf8Of_ofNat (by omega)]; simp
    rw [← hu]
    refine .unicode _ _ ?_
    rw [toNat_ofNat (.inl (by omega))]
    have key : ∀ n : Fin 32, hexDigit? (hexLower (n.1 / 16)) = some (n.1 / 16) ∧ hexDigit? (hexLower (n.1 % 16)) = some (n.1 % 16) := by
      decide +kernel
    obtain ⟨k1, k2⟩ := key ⟨c.toNat, hn⟩
    refine ⟨_, _, _, _, 0, 0, _, _, rfl, by decide, by decide, k1, k2, ?_⟩
    simp only; omega
  · rename_i h1 h2 _ _ _ _ _ h3
    exact .raw c (UInt8.not_lt.1 h3) h1 h2

theorem quoted_string (s : Bytes) : JString (quoted s) s := by
  refine .mk ?_
  induction s with
  | nil => exact .nil
  | cons c s ih => exact .cons (escapedByte_char c) ih

end Miniserde
