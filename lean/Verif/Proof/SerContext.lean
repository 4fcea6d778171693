import Verif.Model.Ser

/-!
# A value is written in the same way wherever it occurs
-/

namespace Miniserde

/-- `escape_str` only appends. -/
theorem escapeLoop_prefix (value p : Bytes) : ∀ (rest : Bytes) (i start : Nat) (out : Bytes),
    escapeLoop value i start (p ++ out) rest = (escapeLoop value i start out rest).map fun r => (r.1, p ++ r.2)
  | [], i, start, out => rfl
  | byte :: rest, i, start, out => by
    simp only [escapeLoop]
    cases SER_ESCAPE[byte.toNat]? with
    | none => rfl
    | some e =>
      simp only
      by_cases he : e = 0
      · rw [if_pos he, if_pos he]
        exact escapeLoop_prefix value p rest _ _ _
      · rw [if_neg he, if_neg he]
        have key : (if start < i then (sliceStr value start i).map (p ++ out ++ ·) else some (p ++ out)) =
            (if start < i then (sliceStr value start i).map (out ++ ·) else some out).map (p ++ ·) := by
          by_cases hs : start < i
          · rw [if_pos hs, if_pos hs]
            cases sliceStr value start i <;> simp
          · rw [if_neg hs, if_neg hs]; rfl
        rw [key]
        cases (if start < i then (sliceStr value start i).map (out ++ ·) else some out) with
        | none => rfl
        | some o =>
          simp only [Option.map_some]
          cases pushEscape e byte with
          | none => rfl
          | some x =>
            simp only
            rw [List.append_assoc]
            exact escapeLoop_prefix value p rest _ _ _

theorem escapeStr_prefix (value p out : Bytes) : escapeStr value (p ++ out) = (escapeStr value out).map (p ++ ·) := by
  unfold escapeStr
  rw [List.append_assoc, escapeLoop_prefix]
  cases escapeLoop value 0 0 (out ++ [b('"')]) value with
  | none => rfl
  | some r =>
    obtain ⟨start, o⟩ := r
    simp only [Option.map_some]
    have key : (if start ≠ value.length then (sliceStr value start value.length).map (p ++ o ++ ·) else some (p ++ o)) =
        (if start ≠ value.length then (sliceStr value start value.length).map (o ++ ·) else some o).map (p ++ ·) := by
      by_cases hs : start ≠ value.length
      · rw [if_pos hs, if_pos hs]
        cases sliceStr value start value.length <;> simp
      · rw [if_neg hs, if_neg hs]; rfl
    rw [key]
    cases (if start ≠ value.length then (sliceStr value start value.length).map (o ++ ·) else some o) with
    | none => rfl
    | some x => simp

section
variable {σ : Type} {P : SProto σ} {ryu : F64 → Bytes}

/-- The same state, after `out` was written and with `stack` below. -/
def SSt.under (out : Bytes) (stack : List (SLayer P)) (st : SSt P) : SSt P := ⟨out ++ st.out, st.stack ++ stack, st.frag, st.w⟩

/-- What happens with `out` written before and `stack` below. -/
def SExit.under (out : Bytes) (stack : List (SLayer P)) : SExit P → SExit P
  | .running st => .running (st.under out stack)
  | .finished (some o) w => advance (out ++ o) stack w
  | .finished none w => .finished none (dropLayers stack w)

theorem dropLayers_append (stack : List (SLayer P)) : ∀ (st : List (SLayer P)) (w : σ), dropLayers (st ++ stack) w = dropLayers stack (dropLayers st w)
  | [], _ => rfl
  | l :: st, w => by
    rw [List.cons_append, dropLayers, dropLayers]
    exact dropLayers_append stack st _

theorem beginWith_under (out : Bytes) (stack : List (SLayer P)) (o : Bytes) (st : List (SLayer P)) (s : P.S) (w : σ) :
    beginWith (out ++ o) (st ++ stack) s w = (beginWith o st s w).under out stack := by
  unfold beginWith
  rcases P.begin s w with ⟨_ | f, w'⟩
  · simp only [SExit.under]
    rw [dropLayers_append]
  · rfl

theorem advance_under (out : Bytes) (stack : List (SLayer P)) : ∀ (st : List (SLayer P)) (o : Bytes) (w : σ),
    advance (out ++ o) (st ++ stack) w = (advance o st w).under out stack
  | [], o, w => rfl
  | .seq q :: st, o, w => by
    rw [List.cons_append, advance, advance]
    rcases P.seqNext q w with ⟨_ | _ | s, w'⟩
    · simp only [SExit.under]
      rw [← List.cons_append, dropLayers_append]
    · simp only
      rw [List.append_assoc]
      exact advance_under out stack st _ _
    · simp only
      rw [List.append_assoc]
      exact beginWith_under out stack _ (.seq q :: st) s w'
  | .map m :: st, o, w => by
    rw [List.cons_append, advance, advance]
    rcases P.mapNext m w with ⟨_ | _ | ⟨k, s⟩, w'⟩
    · simp only [SExit.under]
      rw [← List.cons_append, dropLayers_append]
    · simp only
      rw [List.append_assoc]
      exact advance_under out stack st _ _
    · simp only
      rw [List.append_assoc, escapeStr_prefix]
      cases escapeStr k (o ++ [b(',')]) with
      | none =>
        simp only [Option.map_none, SExit.under]
        rw [← List.cons_append, dropLayers_append]
      | some x =>
        simp only [Option.map_some]
        rw [List.append_assoc]
        exact beginWith_under out stack _ (.map m :: st) s w'

theorem stepS_under (out : Bytes) (stack : List (SLayer P)) (st : SSt P) : stepS ryu (st.under out stack) = (stepS ryu st).under out stack := by
  obtain ⟨o, st, f, w⟩ := st
  cases f with
  | null => simp only [SSt.under, stepS, List.append_assoc]; exact advance_under ..
  | bool b => simp only [SSt.under, stepS, List.append_assoc]; exact advance_under ..
  | u64 n => simp only [SSt.under, stepS, List.append_assoc]; exact advance_under ..
  | i64 n => simp only [SSt.under, stepS, List.append_assoc]; exact advance_under ..
  | f64 n => simp only [SSt.under, stepS, List.append_assoc]; exact advance_under ..
  | str s =>
    simp only [SSt.under, stepS]
    rw [escapeStr_prefix]
    cases escapeStr s o with
    | none => simp only [Option.map_none, SExit.under]; rw [dropLayers_append]
    | some x => exact advance_under ..
  | seq q =>
    simp only [SSt.under, stepS, List.append_assoc]
    rcases P.seqNext q w with ⟨_ | _ | s, w'⟩
    · simp only [SExit.under]
      rw [dropLayers_append]
    · exact advance_under ..
    · exact beginWith_under out stack _ (.seq q :: st) s w'
  | map m =>
    simp only [SSt.under, stepS, List.append_assoc]
    rcases P.mapNext m w with ⟨_ | _ | ⟨k, s⟩, w'⟩
    · simp only [SExit.under]
      rw [dropLayers_append]
    · exact advance_under ..
    · simp only
      rw [escapeStr_prefix]
      cases escapeStr k (o ++ [b('{')]) with
      | none =>
        simp only [Option.map_none, SExit.under]
        rw [dropLayers_append]
      | some x =>
        simp only [Option.map_some]
        rw [List.append_assoc]
        exact beginWith_under out stack _ (.map m :: st) s w'

/-- A run that has not ended goes the same way in a context. -/
theorem runS_under_running (out : Bytes) (stack : List (SLayer P)) : ∀ (n : Nat) (x : SExit P) (st : SSt P), runS ryu n x = .running st →
    runS ryu n (x.under out stack) = .running (st.under out stack)
  | 0, x, st, h => by
    simp only [runS] at h
    subst h
    rfl
  | n + 1, .running s, st, h => by
    simp only [runS] at h
    simp only [SExit.under, runS]
    rw [stepS_under]
    exact runS_under_running out stack n _ st h
  | n + 1, .finished o w, st, h => by simp [runS] at h

/-- A run that ends is followed by what comes next in the context. -/
theorem runS_under_finished (out : Bytes) (stack : List (SLayer P)) (o : Option Bytes) (w : σ) : ∀ (n : Nat) (x : SExit P), runS ryu n x = .finished o w →
    ∃ m, m ≤ n ∧ runS ryu m (x.under out stack) = (SExit.finished o w).under out stack
  | 0, x, h => by
    simp only [runS] at h
    subst h
    exact ⟨0, Nat.le_refl _, rfl⟩
  | n + 1, .running s, h => by
    simp only [runS] at h
    obtain ⟨m, hm, e⟩ := runS_under_finished out stack o w n _ h
    refine ⟨m + 1, by omega, ?_⟩
    simp only [SExit.under, runS]
    rw [stepS_under]
    exact e
  | n + 1, .finished o' w', h => by
    simp only [runS] at h
    rw [h]
    exact ⟨0, by omega, rfl⟩

end

end Miniserde
