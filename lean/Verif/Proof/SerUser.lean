import Verif.Proof.SerGeneric

/-!
# The texts of user-defined streams
-/

namespace Miniserde
variable {σ : Type} {W : UserSer σ} {ryu : F64 → Bytes}

theorem runS_finished (n : Nat) (o : Option Bytes) (w : W.World) : runS ryu n (.finished o w : SExit W.proto) = .finished o w := by cases n <;> rfl

/-- As `runS_under_finished`, but a value whose text is complete took at least one iteration. -/
theorem element_run {l : SLayer W.proto} (out : Bytes) (r : SRef W.U W.K) (w : W.World) {n : Nat} {x : Option Bytes} {w' : W.World}
    (h : runS ryu n (beginWith (P := W.proto) out [l] r w) = .finished x w') :
    (∃ w₁, x = none ∧ w' = l.drop w₁ ∧ toStringN W.proto ryu n r w = .finished none w₁) ∨
    ∃ o w₁ m, m < n ∧ toStringN W.proto ryu n r w = .finished (some o) w₁ ∧ runS ryu m (advance (P := W.proto) (out ++ o) [l] w₁) = .finished x w' := by
  have hu := beginWith_under (P := W.proto) out [l] [] [] r w
  rw [List.append_nil, List.nil_append] at hu
  rw [hu] at h
  cases hx : runS ryu n (beginWith (P := W.proto) [] [] r w) with
  | running st =>
    rw [runS_under_running out [l] n _ st hx] at h
    cases h
  | finished y w₁ =>
    cases y with
    | none =>
      obtain ⟨k, hk, e⟩ := runS_under_finished out [l] _ _ n _ hx
      have := runS_mono hk (show runS ryu k ((beginWith (P := W.proto) [] [] r w).under out [l]) = .finished none (dropLayers [l] w₁) from e)
      rw [h] at this
      cases this
      exact Or.inl ⟨w₁, rfl, rfl, hx⟩
    | some o =>
      refine Or.inr ⟨o, w₁, ?_⟩
      cases hb : beginWith (P := W.proto) [] [] r w with
      | finished y' v =>
        rw [hb, runS_finished] at hx
        cases hx
        unfold beginWith at hb
        generalize W.proto.begin r w = z at hb
        rcases z with ⟨_ | f, v'⟩ <;> cases hb
      | running st =>
        cases n with
        | zero => rw [hb] at hx; cases hx
        | succ n =>
          have hx' := hx
          rw [hb] at hx h
          rw [runS] at hx
          obtain ⟨k, hk, e⟩ := runS_under_finished out [l] _ _ n _ hx
          simp only [SExit.under, runS] at h
          rw [stepS_under] at h
          refine ⟨n - k, by omega, hx', ?_⟩
          have : runS ryu (k + (n - k)) ((stepS ryu st).under out [l]) = .finished x w' := by rw [Nat.add_sub_cancel' hk]; exact h
          rw [runS_add, e] at this
          exact this

theorem seqNext_user (q : W.Q) (w : σ) (a : LHeap W.U W.K) : W.proto.seqNext (LBox.user q : LBox W.Q) (w, a) = ((W.seqNext q w).1, ((W.seqNext q w).2, a)) := rfl
theorem mapNext_user (q : W.M) (w : σ) (a : LHeap W.U W.K) : W.proto.mapNext (LBox.user q : LBox W.M) (w, a) = ((W.mapNext q w).1, ((W.mapNext q w).2, a)) := rfl

/-! ## `Seq` -/

theorem user_rest_text (q : W.Q) : ∀ (n : Nat) (out : Bytes) (w : σ) (a : LHeap W.U W.K) (x : Option Bytes) (w' : σ) (a' : LHeap W.U W.K),
    runS ryu n (advance (P := W.proto) out [.seq (LBox.user q : LBox W.Q)] (w, a)) = .finished x (w', a') →
      ∃ y, ToStrStream W ryu q w y w' ∧ x = y.map fun ss => out ++ commas ss ++ [b(']')] := by
  intro n
  induction n using Nat.strongRecOn with
  | ind n ih =>
    intro out w a x w' a' h
    unfold advance at h
    rw [seqNext_user] at h
    rcases e : W.seqNext q w with ⟨_ | _ | r, w₁⟩
    · simp only [e] at h
      rw [runS_finished] at h
      cases h
      exact ⟨none, .fails e, rfl⟩
    · simp only [e, advance] at h
      rw [runS_finished] at h
      cases h
      exact ⟨some [], .done e, by simp [commas]⟩
    · simp only [e] at h
      rcases element_run _ r _ h with ⟨⟨w₂, a₂⟩, rfl, hw, hT⟩ | ⟨o, ⟨w₂, a₂⟩, m, hm, hT, h'⟩
      · cases hw
        exact ⟨none, .panic e ⟨_, _, _, hT⟩, rfl⟩
      · obtain ⟨y, hy, rfl⟩ := ih m hm _ _ _ _ _ _ h'
        exact ⟨_, .cons e ⟨_, _, _, hT⟩ hy, by cases y <;> simp [commas]⟩

theorem element_fails {l : SLayer W.proto} (out : Bytes) {r : SRef W.U W.K} {w : σ} (a : LHeap W.U W.K) {w₁ : σ} (h : ToStr W ryu r w none w₁) :
    ∃ n a', runS ryu n (beginWith (P := W.proto) out [l] r (w, a)) = .finished none (l.drop (w₁, a')) := by
  obtain ⟨m, a₂, e₂, -⟩ := h.any a
  obtain ⟨k, -, e₃⟩ := runS_under_finished out [l] _ (w₁, a₂) m _ e₂
  have hu := beginWith_under (P := W.proto) out [l] [] [] r (w, a)
  rw [List.append_nil, List.nil_append] at hu
  exact ⟨k, a₂, by rw [hu]; exact e₃⟩

theorem element_text {l : SLayer W.proto} (out : Bytes) {r : SRef W.U W.K} {w : σ} (a : LHeap W.U W.K) {o : Bytes} {w₁ : σ} (h : ToStr W ryu r w (some o) w₁) :
    ∃ a₁, ∀ x w', SerEnds ryu (advance (P := W.proto) (out ++ o) [l] (w₁, a₁)) x w' → SerEnds ryu (beginWith (P := W.proto) out [l] r (w, a)) x w' := by
  obtain ⟨m, a₂, e₂, -⟩ := h.any a
  obtain ⟨k, -, e₃⟩ := runS_under_finished out [l] _ (w₁, a₂) m _ e₂
  have hu := beginWith_under (P := W.proto) out [l] [] [] r (w, a)
  rw [List.append_nil, List.nil_append] at hu
  refine ⟨a₂, fun x w' he => ?_⟩
  rw [hu, ends_run (m := k), e₃]
  exact he

theorem user_rest_ends {q : W.Q} {w : σ} {y : Option (List Bytes)} {w' : σ} (h : ToStrStream W ryu q w y w') (out : Bytes) (a : LHeap W.U W.K) :
    SerEnds ryu (advance (P := W.proto) out [.seq (LBox.user q : LBox W.Q)] (w, a)) (y.map fun ss => out ++ commas ss ++ [b(']')]) w' := by
  induction h generalizing out a with
  | done e =>
    unfold advance
    rw [seqNext_user]
    simp only [e, advance]
    exact ends_finished.2 ⟨by simp [commas], rfl⟩
  | fails e =>
    unfold advance
    rw [seqNext_user]
    simp only [e]
    exact ends_finished.2 ⟨rfl, rfl⟩
  | cons e hr _ ih =>
    rename_i o _ y _ _
    unfold advance
    rw [seqNext_user]
    simp only [e]
    obtain ⟨a₁, hE⟩ := element_text (l := .seq (LBox.user q : LBox W.Q)) (out ++ [b(',')]) a hr
    apply hE
    have := ih (out ++ [b(',')] ++ o) a₁
    refine Eq.mp ?_ this
    cases y <;> simp [commas]
  | panic e hr =>
    unfold advance
    rw [seqNext_user]
    simp only [e]
    obtain ⟨n, a', hE⟩ := element_fails (l := .seq (LBox.user q : LBox W.Q)) (out ++ [b(',')]) a hr
    exact ⟨n, a', hE⟩

/-- The text of a user-defined `Seq`, as the fragment of a value. -/
theorem user_seq_whole (q : W.Q) (w : σ) (a : LHeap W.U W.K) (x : Option Bytes) (w' : σ) :
    SerEnds ryu (.running ⟨[], [], .seq (LBox.user q : LBox W.Q), (w, a)⟩ : SExit W.proto) x w' ↔ ∃ y, ToStrStream W ryu q w y w' ∧ x = y.map arrayText := by
  rw [ends_running]
  unfold stepS
  simp only
  rw [seqNext_user]
  rcases e : W.seqNext q w with ⟨_ | _ | r, w₁⟩
  · simp only
    show SerEnds ryu (.finished none (W.dropSeq q w₁, a)) x w' ↔ _
    rw [ends_finished]
    constructor
    · rintro ⟨rfl, rfl⟩
      exact ⟨none, .fails e, rfl⟩
    · rintro ⟨y, h, rfl⟩
      cases h with
      | fails h => rw [e] at h; cases h; exact ⟨rfl, rfl⟩
      | done h => rw [e] at h; cases h
      | cons h => rw [e] at h; cases h
      | panic h => rw [e] at h; cases h
  · simp only
    show SerEnds ryu (.finished (some _) (W.dropSeq q w₁, a)) x w' ↔ _
    rw [ends_finished]
    constructor
    · rintro ⟨rfl, rfl⟩
      exact ⟨some [], .done e, rfl⟩
    · rintro ⟨y, h, rfl⟩
      cases h with
      | fails h => rw [e] at h; cases h
      | done h => rw [e] at h; cases h; exact ⟨rfl, rfl⟩
      | cons h => rw [e] at h; cases h
      | panic h => rw [e] at h; cases h
  · simp only
    constructor
    · rintro ⟨n, a', h⟩
      rcases element_run _ r _ h with ⟨⟨w₂, a₂⟩, rfl, hw, hT⟩ | ⟨o, ⟨w₂, a₂⟩, m, hm, hT, h'⟩
      · cases hw
        exact ⟨none, .panic e ⟨_, _, _, hT⟩, rfl⟩
      · obtain ⟨y, hy, rfl⟩ := user_rest_text q m _ _ _ _ _ _ h'
        exact ⟨_, .cons e ⟨_, _, _, hT⟩ hy, by cases y <;> simp [arrayText, joined_cons]⟩
    · rintro ⟨y, h, rfl⟩
      cases h with
      | fails h => rw [e] at h; cases h
      | done h => rw [e] at h; cases h
      | cons h hr hs =>
        rw [e] at h
        cases h
        rename_i o _ y
        obtain ⟨a₁, hE⟩ := element_text (l := .seq (LBox.user q : LBox W.Q)) ([] ++ [b('[')]) a hr
        apply hE
        refine Eq.mp ?_ (user_rest_ends hs ([] ++ [b('[')] ++ o) a₁)
        cases y <;> simp [arrayText, joined_cons]
      | panic h hr =>
        rw [e] at h
        cases h
        obtain ⟨n, a', hE⟩ := element_fails (l := .seq (LBox.user q : LBox W.Q)) ([] ++ [b('[')]) a hr
        exact ⟨n, a', hE⟩

/-! ## `Map` -/

theorem user_map_rest_text (hW : W.MapUtf8) (q : W.M) : ∀ (n : Nat) (out : Bytes) (w : σ) (a : LHeap W.U W.K) (x : Option Bytes) (w' : σ) (a' : LHeap W.U W.K),
    runS ryu n (advance (P := W.proto) out [.map (LBox.user q : LBox W.M)] (w, a)) = .finished x (w', a') →
      ∃ y, ToStrMapStream W ryu q w y w' ∧ x = y.map fun ss => out ++ commas (ss.map memberText) ++ [b('}')] := by
  intro n
  induction n using Nat.strongRecOn with
  | ind n ih =>
    intro out w a x w' a' h
    unfold advance at h
    rw [mapNext_user] at h
    rcases e : W.mapNext q w with ⟨_ | _ | ⟨key, r⟩, w₁⟩
    · simp only [e] at h
      rw [runS_finished] at h
      cases h
      exact ⟨none, .fails e, rfl⟩
    · simp only [e, advance] at h
      rw [runS_finished] at h
      cases h
      exact ⟨some [], .done e, by simp [commas]⟩
    · simp only [e, escapeStr_eq (hW _ _ _ _ _ e)] at h
      rcases element_run _ r _ h with ⟨⟨w₂, a₂⟩, rfl, hw, hT⟩ | ⟨o, ⟨w₂, a₂⟩, m, hm, hT, h'⟩
      · cases hw
        exact ⟨none, .panic e ⟨_, _, _, hT⟩, rfl⟩
      · obtain ⟨y, hy, rfl⟩ := ih m hm _ _ _ _ _ _ h'
        exact ⟨_, .cons e ⟨_, _, _, hT⟩ hy, by cases y <;> simp [commas, memberText]⟩

theorem user_map_rest_ends (hW : W.MapUtf8) {q : W.M} {w : σ} {y : Option (List (Bytes × Bytes))} {w' : σ} (h : ToStrMapStream W ryu q w y w') (out : Bytes) (a : LHeap W.U W.K) :
    SerEnds ryu (advance (P := W.proto) out [.map (LBox.user q : LBox W.M)] (w, a)) (y.map fun ss => out ++ commas (ss.map memberText) ++ [b('}')]) w' := by
  induction h generalizing out a with
  | done e =>
    unfold advance
    rw [mapNext_user]
    simp only [e, advance]
    exact ends_finished.2 ⟨by simp [commas], rfl⟩
  | fails e =>
    unfold advance
    rw [mapNext_user]
    simp only [e]
    exact ends_finished.2 ⟨rfl, rfl⟩
  | cons e hr _ ih =>
    rename_i key _ _ o _ y _ _
    unfold advance
    rw [mapNext_user]
    simp only [e, escapeStr_eq (hW _ _ _ _ _ e)]
    obtain ⟨a₁, hE⟩ := element_text (l := .map (LBox.user q : LBox W.M)) (out ++ [b(',')] ++ quoted key ++ [b(':')]) a hr
    apply hE
    have := ih (out ++ [b(',')] ++ quoted key ++ [b(':')] ++ o) a₁
    refine Eq.mp ?_ this
    cases y <;> simp [commas, memberText]
  | panic e hr =>
    rename_i key _ _ _
    unfold advance
    rw [mapNext_user]
    simp only [e, escapeStr_eq (hW _ _ _ _ _ e)]
    obtain ⟨n, a', hE⟩ := element_fails (l := .map (LBox.user q : LBox W.M)) (out ++ [b(',')] ++ quoted key ++ [b(':')]) a hr
    exact ⟨n, a', hE⟩

/-- The text of a user-defined `Map`, as the fragment of a value. -/
theorem user_map_whole (hW : W.MapUtf8) (q : W.M) (w : σ) (a : LHeap W.U W.K) (x : Option Bytes) (w' : σ) :
    SerEnds ryu (.running ⟨[], [], .map (LBox.user q : LBox W.M), (w, a)⟩ : SExit W.proto) x w' ↔ ∃ y, ToStrMapStream W ryu q w y w' ∧ x = y.map objectText := by
  rw [ends_running]
  unfold stepS
  simp only
  rw [mapNext_user]
  rcases e : W.mapNext q w with ⟨_ | _ | ⟨key, r⟩, w₁⟩
  · simp only
    show SerEnds ryu (.finished none (W.dropMap q w₁, a)) x w' ↔ _
    rw [ends_finished]
    constructor
    · rintro ⟨rfl, rfl⟩
      exact ⟨none, .fails e, rfl⟩
    · rintro ⟨y, h, rfl⟩
      cases h with
      | fails h => rw [e] at h; cases h; exact ⟨rfl, rfl⟩
      | done h => rw [e] at h; cases h
      | cons h => rw [e] at h; cases h
      | panic h => rw [e] at h; cases h
  · simp only
    show SerEnds ryu (.finished (some _) (W.dropMap q w₁, a)) x w' ↔ _
    rw [ends_finished]
    constructor
    · rintro ⟨rfl, rfl⟩
      exact ⟨some [], .done e, rfl⟩
    · rintro ⟨y, h, rfl⟩
      cases h with
      | fails h => rw [e] at h; cases h
      | done h => rw [e] at h; cases h; exact ⟨rfl, rfl⟩
      | cons h => rw [e] at h; cases h
      | panic h => rw [e] at h; cases h
  · simp only
    rw [escapeStr_eq (hW _ _ _ _ _ e)]
    simp only
    constructor
    · rintro ⟨n, a', h⟩
      rcases element_run _ r _ h with ⟨⟨w₂, a₂⟩, rfl, hw, hT⟩ | ⟨o, ⟨w₂, a₂⟩, m, hm, hT, h'⟩
      · cases hw
        exact ⟨none, .panic e ⟨_, _, _, hT⟩, rfl⟩
      · obtain ⟨y, hy, rfl⟩ := user_map_rest_text hW q m _ _ _ _ _ _ h'
        exact ⟨_, .cons e ⟨_, _, _, hT⟩ hy, by cases y <;> simp [objectText, joined_cons, memberText]⟩
    · rintro ⟨y, h, rfl⟩
      cases h with
      | fails h => rw [e] at h; cases h
      | done h => rw [e] at h; cases h
      | cons h hr hs =>
        rw [e] at h
        cases h
        rename_i o _ y
        obtain ⟨a₁, hE⟩ := element_text (l := .map (LBox.user q : LBox W.M)) ([] ++ [b('{')] ++ quoted key ++ [b(':')]) a hr
        apply hE
        refine Eq.mp ?_ (user_map_rest_ends hW hs ([] ++ [b('{')] ++ quoted key ++ [b(':')] ++ o) a₁)
        cases y <;> simp [objectText, joined_cons, memberText]
      | panic h hr =>
        rw [e] at h
        cases h
        obtain ⟨n, a', hE⟩ := element_fails (l := .map (LBox.user q : LBox W.M)) ([] ++ [b('{')] ++ quoted key ++ [b(':')]) a hr
        exact ⟨n, a', hE⟩

end Miniserde
