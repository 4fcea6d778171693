import Verif.Props.Typed
import Verif.Spec.Kind

/-!
# No coercions between kinds of JSON values
-/

namespace Miniserde

theorem decode_kind {E : Env} {j : Json} : ∀ {t : Ty} {v : Val}, decode E j t = some v → j.kind ∈ t.kinds := by
  intro t
  induction t with
  | opt t ih =>
    intro v h
    unfold decode at h
    split at h
    · rename_i hn
      cases j <;> simp [Json.isNull] at hn
      exact List.mem_cons_self
    · simp only [Option.map_eq_some_iff] at h
      obtain ⟨u, hu, -⟩ := h
      exact List.mem_cons_of_mem _ (ih hu)
  | box t ih =>
    intro v h
    unfold decode at h
    simp only [Option.map_eq_some_iff] at h
    obtain ⟨u, hu, -⟩ := h
    exact ih hu
  | value => intro v _; cases j <;> simp [Json.kind, Ty.kinds]
  | _ =>
    intro v h
    unfold decode at h
    cases j <;> simp [decodeScalar, Ty.kinds, Json.kind] at h ⊢
    all_goals
      split at h
      · rename_i ev _
        cases ev <;> simp [decodeNum] at h
      · cases h

theorem jvalue_startKind {t : Bytes} {j : Json} (h : JValue t j) : ∃ c r, t = c :: r ∧ startKind c = some j.kind := by
  cases h with
  | num l h =>
    obtain ⟨hi, hd⟩ := h.int_digits
    obtain ⟨mn, int, fo, xo⟩ := l
    cases int with
    | nil => exact absurd rfl hi
    | cons c cs =>
      have hc := hd c (by simp)
      cases mn with
      | true => exact ⟨0x2D, _, by simp [NumLit.text]; rfl, by simp only [Json.kind]; decide⟩
      | false =>
        refine ⟨c, _, by simp [NumLit.text]; rfl, ?_⟩
        clear h hi hd
        simp only [Json.kind]
        revert c
        apply forall_byte
        decide +kernel
  | str h => cases h; exact ⟨_, _, rfl, by simp only [Json.kind]; decide⟩
  | _ => exact ⟨_, _, rfl, by simp only [Json.kind]; decide⟩

/-- **C58.** There are no coercions: a text is accepted for a type only if its first significant byte announces a kind of JSON value the type is read from
(numbers are not read from strings, booleans not from numbers, `String` not from `null`, structs not from arrays, ...). -/
theorem C58_no_coercion (E : Env) (t : Ty) (s : Bytes) (v : Val) (h : parseAs E t s = some (.ok v)) :
    ∃ w c r k, s = w ++ c :: r ∧ Ws w ∧ startKind c = some k ∧ k ∈ t.kinds := by
  obtain ⟨j, ⟨w₁, x, w₂, rfl, hw, hx, -⟩, hd⟩ := (parseAs_ok E).1 h
  obtain ⟨c, r, rfl, hc⟩ := jvalue_startKind hx
  exact ⟨w₁, c, r ++ w₂, _, by simp, hw, hc, decode_kind hd⟩

/-- **C58**, as an error: a text that starts like another kind is rejected, whatever follows. -/
theorem C58_mismatch (E : Env) (t : Ty) (w : Bytes) (c : UInt8) (r : Bytes) (hl : (w ++ c :: r).length < 2 ^ 31) (hw : Ws w)
    (hc : ¬ Ws [c]) (hk : ∀ k, startKind c = some k → k ∉ t.kinds) : parseAs E t (w ++ c :: r) = some .err := by
  rcases C05_returns E t _ hl with ⟨v, hv⟩ | he
  · exfalso
    obtain ⟨w', c', r', k, e, hw', hk', hm⟩ := C58_no_coercion E t _ v hv
    have key : ∀ (w w' : Bytes), Ws w → Ws w' → w ++ c :: r = w' ++ c' :: r' → c = c' := by
      have hc' : ¬ Ws [c'] := by
        intro h
        have := h c' (by simp)
        have hn : startKind c' = none := by rcases this with rfl | rfl | rfl | rfl <;> decide
        rw [hn] at hk'
        cases hk'
      intro w
      induction w with
      | nil =>
        intro w' _ hw' e
        cases w' with
        | nil => simpa using (List.cons.inj e).1
        | cons x w' =>
          have := (List.cons.inj e).1
          subst this
          exact absurd (fun y hy => hw' y (by simp at hy; simp [hy])) hc
      | cons x w ih =>
        intro w' hw hw' e
        cases w' with
        | nil =>
          have := (List.cons.inj e).1
          subst this
          exact absurd (fun y hy => hw y (by simp at hy; simp [hy])) hc'
        | cons x' w' =>
          exact ih w' (fun y hy => hw y (List.mem_cons_of_mem _ hy)) (fun y hy => hw' y (List.mem_cons_of_mem _ hy)) (List.cons.inj e).2
    have := key w w' hw hw' e
    subst this
    exact hk k hk' hm
  · exact he

/-- A string is not a number, a number is not a `bool`, `null` is not a `String`, an array is not a struct. -/
example : parseAs exEnv (.int false 8) (str! "\"1\"") = some .err ∧ parseAs exEnv .bool (str! " 1") = some .err ∧
    parseAs exEnv .string (str! "null") = some .err ∧ parseAs exEnv (.strct 0) (str! "[1]") = some .err :=
  ⟨C58_mismatch exEnv _ [] 0x22 _ (by decide) (by simp [Ws]) (by simp [Ws]) (by decide),
    C58_mismatch exEnv _ [0x20] 0x31 _ (by decide) (by simp [Ws]) (by simp [Ws]) (by decide),
    C58_mismatch exEnv _ [] 0x6E _ (by decide) (by simp [Ws]) (by simp [Ws]) (by decide),
    C58_mismatch exEnv _ [] 0x5B _ (by decide) (by simp [Ws]) (by simp [Ws]) (by decide)⟩

end Miniserde
