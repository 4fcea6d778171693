import Verif.Spec.SerGeneric
import Verif.Proof.SerSim
import Verif.Proof.Ser
import Verif.Proof.Escape

/-!
# The texts of library containers of user-defined types
-/

namespace Miniserde
variable {σ : Type} {W : UserSer σ} {ryu : F64 → Bytes}

/-- The main loop ends with `o` and the user's state `w`. -/
def SerEnds (ryu : F64 → Bytes) (x : SExit W.proto) (o : Option Bytes) (w : σ) : Prop := ∃ n h, runS ryu n x = .finished o (w, h)

theorem ends_finished {o o' : Option Bytes} {w w' : σ} {h : LHeap W.U W.K} : SerEnds ryu (.finished o (w, h) : SExit W.proto) o' w' ↔ o' = o ∧ w' = w := by
  constructor
  · rintro ⟨n, h', e⟩
    have : (SExit.finished o (w, h) : SExit W.proto) = .finished o' (w', h') := by cases n <;> exact e
    cases this
    exact ⟨rfl, rfl⟩
  · rintro ⟨rfl, rfl⟩
    exact ⟨0, h, rfl⟩

theorem ends_running {st : SSt W.proto} {o : Option Bytes} {w : σ} : SerEnds ryu (.running st) o w ↔ SerEnds ryu (stepS ryu st) o w := by
  constructor
  · rintro ⟨n, h, e⟩
    cases n with
    | zero => cases e
    | succ n => exact ⟨n, h, e⟩
  · rintro ⟨n, h, e⟩
    exact ⟨n + 1, h, e⟩

theorem ends_run {x : SExit W.proto} {m : Nat} {o : Option Bytes} {w : σ} : SerEnds ryu x o w ↔ SerEnds ryu (runS ryu m x) o w := by
  constructor
  · rintro ⟨n, h, e⟩
    refine ⟨n, h, ?_⟩
    rw [← runS_add, Nat.add_comm, runS_add, e]
    cases m <;> rfl
  · rintro ⟨n, h, e⟩
    rw [← runS_add] at e
    exact ⟨_, h, e⟩

theorem ends_unique {x : SExit W.proto} {o o' : Option Bytes} {w w' : σ} (h : SerEnds ryu x o w) (h' : SerEnds ryu x o' w') : o = o' ∧ w = w' := by
  obtain ⟨n, a, e⟩ := h
  rw [ends_run (m := n), e, ends_finished] at h'
  exact ⟨h'.1.symm, h'.2.symm⟩

/-- From any heap, `to_string` ends in the same way and leaves the streams that exist alone. -/
theorem ToStr.any {r : SRef W.U W.K} {w w' : σ} {x : Option Bytes} (h : ToStr W ryu r w x w') (a : LHeap W.U W.K) :
    ∃ n a', toStringN W.proto ryu n r (w, a) = .finished x (w', a') ∧ a.next ≤ a'.next ∧ ∀ i, i < a.next → a'.cell i = a.cell i := by
  obtain ⟨b, n, b', e⟩ := h
  have := toStringN_sim (ryu := ryu) b a n r w
  rw [e] at this
  generalize e' : toStringN W.proto ryu n r (w, a) = y at this
  cases this with
  | finished o H => exact ⟨n, _, e', H.le.2, H.keepR⟩

theorem toStr_iff {r : SRef W.U W.K} {w w' : σ} {x : Option Bytes} (a : LHeap W.U W.K) : ToStr W ryu r w x w' ↔ SerEnds ryu (beginWith (P := W.proto) [] [] r (w, a)) x w' := by
  constructor
  · intro h
    obtain ⟨n, a', e, -⟩ := h.any a
    exact ⟨n, a', e⟩
  · rintro ⟨n, a', e⟩
    exact ⟨a, n, a', e⟩

/-- An empty heap. -/
def LHeap.empty {U K : Type} : LHeap U K := ⟨0, fun _ => none⟩

theorem ToStr.unique {r : SRef W.U W.K} {w w₁ w₂ : σ} {x y : Option Bytes} (h : ToStr W ryu r w x w₁) (h' : ToStr W ryu r w y w₂) : x = y ∧ w₁ = w₂ :=
  ends_unique ((toStr_iff .empty).1 h) ((toStr_iff .empty).1 h')

/-- A layer with a stream of the library's. -/
inductive IsLib : SLayer W.proto → Nat → Prop
  | seq (n : Nat) : IsLib (.seq (LBox.lib n : LBox W.Q)) n
  | map (n : Nat) : IsLib (.map (LBox.lib n : LBox W.M)) n

theorem IsLib.drop {l : SLayer W.proto} {i : Nat} (h : IsLib l i) (w : W.World) : dropLayers [l] w = w := by
  cases h <;> rfl

/-- An element of a library stream is written as `to_string` writes it, or the whole panics as it does. -/
theorem element_ends {l : SLayer W.proto} {i : Nat} (hl : IsLib l i) (out : Bytes) (r : SRef W.U W.K) (w : σ) {a : LHeap W.U W.K} (hi : i < a.next) {x : Option Bytes} {w' : σ}
    (h : SerEnds ryu (beginWith (P := W.proto) out [l] r (w, a)) x w') :
    (x = none ∧ ToStr W ryu r w none w') ∨
    ∃ o w₁ a₁, ToStr W ryu r w (some o) w₁ ∧ a.next ≤ a₁.next ∧ a₁.cell i = a.cell i ∧ SerEnds ryu (advance (P := W.proto) (out ++ o) [l] (w₁, a₁)) x w' := by
  obtain ⟨n, a', e⟩ := h
  have hu := beginWith_under (P := W.proto) out [l] [] [] r (w, a)
  rw [List.append_nil, List.nil_append] at hu
  rw [hu] at e
  cases hx : runS ryu n (beginWith (P := W.proto) [] [] r (w, a)) with
  | running st =>
    rw [runS_under_running out [l] n _ st hx] at e
    cases e
  | finished y v =>
    obtain ⟨w₁, a₁⟩ := v
    have hT : ToStr W ryu r w y w₁ := ⟨a, n, a₁, hx⟩
    obtain ⟨m, a₂, e₂, hle, hk⟩ := hT.any a
    obtain ⟨k, -, e₃⟩ := runS_under_finished out [l] y (w₁, a₂) m _ e₂
    have he : SerEnds ryu ((beginWith (P := W.proto) [] [] r (w, a)).under out [l]) x w' := ⟨n, a', e⟩
    rw [ends_run (m := k), e₃] at he
    cases y with
    | none =>
      simp only [SExit.under] at he
      rw [hl.drop, ends_finished] at he
      obtain ⟨rfl, rfl⟩ := he
      exact Or.inl ⟨rfl, hT⟩
    | some o => exact Or.inr ⟨o, w₁, a₂, hT, hle, hk i hi, he⟩

theorem element_ok {l : SLayer W.proto} {i : Nat} (out : Bytes) {r : SRef W.U W.K} {w : σ} {a : LHeap W.U W.K} (hi : i < a.next) {o : Bytes} {w₁ : σ}
    (h : ToStr W ryu r w (some o) w₁) :
    ∃ a₁, a.next ≤ a₁.next ∧ a₁.cell i = a.cell i ∧
      ∀ x w', SerEnds ryu (advance (P := W.proto) (out ++ o) [l] (w₁, a₁)) x w' → SerEnds ryu (beginWith (P := W.proto) out [l] r (w, a)) x w' := by
  obtain ⟨m, a₂, e₂, hle, hk⟩ := h.any a
  obtain ⟨k, -, e₃⟩ := runS_under_finished out [l] _ (w₁, a₂) m _ e₂
  refine ⟨a₂, hle, hk i hi, fun x w' he => ?_⟩
  have hu := beginWith_under (P := W.proto) out [l] [] [] r (w, a)
  rw [List.append_nil, List.nil_append] at hu
  rw [hu, ends_run (m := k), e₃]
  exact he

theorem element_panic {l : SLayer W.proto} {i : Nat} (hl : IsLib l i) (out : Bytes) {r : SRef W.U W.K} {w : σ} (a : LHeap W.U W.K) {w₁ : σ} (h : ToStr W ryu r w none w₁) :
    SerEnds ryu (beginWith (P := W.proto) out [l] r (w, a)) none w₁ := by
  obtain ⟨m, a₂, e₂, hle, hk⟩ := h.any a
  obtain ⟨k, -, e₃⟩ := runS_under_finished out [l] _ (w₁, a₂) m _ e₂
  have hu := beginWith_under (P := W.proto) out [l] [] [] r (w, a)
  rw [List.append_nil, List.nil_append] at hu
  rw [hu, ends_run (m := k), e₃]
  simp only [SExit.under]
  rw [hl.drop, ends_finished]
  exact ⟨rfl, rfl⟩

/-- The texts, each after a comma. -/
def commas (ss : List Bytes) : Bytes := (ss.map (0x2C :: ·)).flatten

theorem joined_cons (s : Bytes) : ∀ ss, joined (s :: ss) = s ++ commas ss
  | [] => by simp [joined, commas]
  | t :: ss => by
    rw [joined, joined_cons t ss]
    · simp [commas]
    · simp

theorem alloc_next {U K : Type} (a : LHeap U K) (s : LStream U K) : a.next < (a.alloc s).next := Nat.lt_succ_self _
theorem alloc_cell {U K : Type} (a : LHeap U K) (s : LStream U K) : (a.alloc s).cell a.next = some s := if_pos rfl

/-! ## Slices and pairs -/

/-- The items a `Seq` of the library will produce. -/
def seqItems {U K : Type} : LStream U K → Option (List (SRef U K))
  | .slice rs => some rs
  | .pair a b s => some ([a, b].drop s)
  | _ => none

theorem seqNext_nil {i : Nat} {w : σ} {a : LHeap W.U W.K} {s : LStream W.U W.K} (hc : a.cell i = some s) (hs : seqItems s = some []) :
    ∃ a', W.proto.seqNext (LBox.lib i : LBox W.Q) (w, a) = (some none, (w, a')) := by
  show ∃ a', W.libSeqNext i (w, a) = _
  unfold UserSer.libSeqNext
  simp only [hc]
  rcases s with rs | ⟨x, y, n⟩ | ms | ⟨fs, n⟩
  · cases hs; exact ⟨_, rfl⟩
  · rcases n with _ | _ | n
    · simp [seqItems] at hs
    · simp [seqItems] at hs
    · exact ⟨_, rfl⟩
  · cases hs
  · cases hs

theorem seqNext_cons {i : Nat} {w : σ} {a : LHeap W.U W.K} {s : LStream W.U W.K} {r : SRef W.U W.K} {rs : List (SRef W.U W.K)} (hc : a.cell i = some s)
    (hs : seqItems s = some (r :: rs)) :
    ∃ s', seqItems s' = some rs ∧ W.proto.seqNext (LBox.lib i : LBox W.Q) (w, a) = (some (some r), (w, a.set i s')) := by
  show ∃ s', _ ∧ W.libSeqNext i (w, a) = _
  unfold UserSer.libSeqNext
  simp only [hc]
  rcases s with rs' | ⟨x, y, n⟩ | ms | ⟨fs, n⟩
  · cases hs; exact ⟨_, rfl, rfl⟩
  · rcases n with _ | _ | n
    · cases hs; exact ⟨.pair _ _ 1, rfl, rfl⟩
    · cases hs; exact ⟨.pair _ _ 2, rfl, rfl⟩
    · simp [seqItems] at hs
  · cases hs
  · cases hs

theorem seq_rest (i : Nat) : ∀ (rs : List (SRef W.U W.K)) (out : Bytes) (w : σ) (a : LHeap W.U W.K) (s : LStream W.U W.K) (_ : i < a.next) (_ : a.cell i = some s)
    (_ : seqItems s = some rs) (x : Option Bytes) (w' : σ),
    SerEnds ryu (advance (P := W.proto) out [.seq (LBox.lib i : LBox W.Q)] (w, a)) x w' ↔
      ∃ y, ToStrs W ryu rs w y w' ∧ x = y.map fun ss => out ++ commas ss ++ [b(']')]
  | [], out, w, a, s, hi, hc, hs, x, w' => by
    obtain ⟨a', e1⟩ := seqNext_nil (w := w) hc hs
    have e : advance (P := W.proto) out [.seq (LBox.lib i : LBox W.Q)] (w, a) = .finished (some (out ++ [b(']')])) (w, a') := by
      unfold advance
      rw [e1]
      rfl
    rw [e, ends_finished]
    constructor
    · rintro ⟨rfl, rfl⟩
      exact ⟨some [], .nil _, by simp [commas]⟩
    · rintro ⟨y, h, rfl⟩
      cases h
      exact ⟨by simp [commas], rfl⟩
  | r :: rs, out, w, a, s, hi, hc, hs, x, w' => by
    obtain ⟨s', hs', e1⟩ := seqNext_cons (w := w) hc hs
    have e : advance (P := W.proto) out [.seq (LBox.lib i : LBox W.Q)] (w, a) =
        beginWith (P := W.proto) (out ++ [b(',')]) [.seq (LBox.lib i : LBox W.Q)] r (w, a.set i s') := by
      unfold advance
      rw [e1]
    have hi' : i < (a.set i s').next := hi
    have hc' : (a.set i s').cell i = some s' := if_pos rfl
    rw [e]
    constructor
    · intro h
      rcases element_ends (.seq i) _ r w hi' h with ⟨rfl, hT⟩ | ⟨o, w₁, a₁, hT, hn, hk, h'⟩
      · exact ⟨none, .panic hT, rfl⟩
      · rw [seq_rest i rs _ _ _ s' (Nat.lt_of_lt_of_le hi' hn) (hk.trans hc') hs'] at h'
        obtain ⟨y, hy, rfl⟩ := h'
        exact ⟨_, .cons hT hy, by cases y <;> simp [commas]⟩
    · rintro ⟨y, h, rfl⟩
      cases h with
      | cons h hs =>
        obtain ⟨a₁, hn, hk, hE⟩ := element_ok (l := .seq (LBox.lib i : LBox W.Q)) (out ++ [b(',')]) hi' h
        apply hE
        rw [seq_rest i rs _ _ _ s' (Nat.lt_of_lt_of_le hi' hn) (hk.trans hc') hs']
        exact ⟨_, hs, by rename_i y; cases y <;> simp [commas]⟩
      | panic h => exact element_panic (.seq i) _ _ h

/-- The text of a `Seq` of the library, as the fragment of a value. -/
theorem seq_whole {s : LStream W.U W.K} {rs : List (SRef W.U W.K)} (hs : seqItems s = some rs) (w : σ) (a : LHeap W.U W.K) (x : Option Bytes) (w' : σ) :
    SerEnds ryu (.running ⟨[], [], .seq (LBox.lib a.next : LBox W.Q), (w, a.alloc s)⟩ : SExit W.proto) x w' ↔
      ∃ y, ToStrs W ryu rs w y w' ∧ x = y.map arrayText := by
  rw [ends_running]
  cases rs with
  | nil =>
    obtain ⟨a', e1⟩ := seqNext_nil (W := W) (w := w) (alloc_cell a s) hs
    unfold stepS
    simp only
    rw [e1]
    show SerEnds ryu (.finished (some _) (w, _)) x w' ↔ _
    rw [ends_finished]
    constructor
    · rintro ⟨rfl, rfl⟩
      exact ⟨some [], .nil _, rfl⟩
    · rintro ⟨y, h, rfl⟩
      cases h
      exact ⟨rfl, rfl⟩
  | cons r rs =>
    obtain ⟨s', hs', e1⟩ := seqNext_cons (W := W) (w := w) (alloc_cell a s) hs
    have hi' : a.next < ((a.alloc s).set a.next s').next := alloc_next a s
    have hc' : ((a.alloc s).set a.next s').cell a.next = some s' := if_pos rfl
    unfold stepS
    simp only
    rw [e1]
    simp only
    constructor
    · intro h
      rcases element_ends (.seq a.next) _ r w hi' h with ⟨rfl, hT⟩ | ⟨o, w₁, a₁, hT, hn, hk, h'⟩
      · exact ⟨none, .panic hT, rfl⟩
      · rw [seq_rest a.next rs _ _ _ s' (Nat.lt_of_lt_of_le hi' hn) (hk.trans hc') hs'] at h'
        obtain ⟨y, hy, rfl⟩ := h'
        exact ⟨_, .cons hT hy, by cases y <;> simp [arrayText, joined_cons]⟩
    · rintro ⟨y, h, rfl⟩
      cases h with
      | cons h hs =>
        obtain ⟨a₁, hn, hk, hE⟩ := element_ok (l := .seq (LBox.lib a.next : LBox W.Q)) ([] ++ [b('[')]) hi' h
        apply hE
        rw [seq_rest a.next rs _ _ _ s' (Nat.lt_of_lt_of_le hi' hn) (hk.trans hc') hs']
        exact ⟨_, hs, by rename_i y; cases y <;> simp [arrayText, joined_cons]⟩
      | panic h => exact element_panic (.seq a.next) _ _ h

/-! ## Maps and structs -/

/-- The entries a `Map` of the library will produce: how the key is made, and the value. -/
def mapItems (W : UserSer σ) : LStream W.U W.K → Option (List ((σ → Option Bytes × σ) × SRef W.U W.K))
  | .map ms => some (ms.map fun m => (W.toStr m.1, m.2))
  | .strct fs s => some ((fs.drop s).map fun f => (fun w => (some f.1, w), f.2))
  | _ => none

/-- `to_string` of keys and values in turn, up to the first panic. -/
inductive ToItems (W : UserSer σ) (ryu : F64 → Bytes) : List ((σ → Option Bytes × σ) × SRef W.U W.K) → σ → Option (List (Bytes × Bytes)) → σ → Prop
  | nil (w : σ) : ToItems W ryu [] w (some []) w
  | badKey {k r ms w w₁} (h : k w = (none, w₁)) : ToItems W ryu ((k, r) :: ms) w none w₁
  | cons {k r ms w key w₁ o w₂ y w₃} (h : k w = (some key, w₁)) (hr : ToStr W ryu r w₁ (some o) w₂) (hs : ToItems W ryu ms w₂ y w₃) :
      ToItems W ryu ((k, r) :: ms) w (y.map ((key, o) :: ·)) w₃
  | panic {k r ms w key w₁ w₂} (h : k w = (some key, w₁)) (hr : ToStr W ryu r w₁ none w₂) : ToItems W ryu ((k, r) :: ms) w none w₂

theorem toItems_entries (ms : List (W.K × SRef W.U W.K)) (w : σ) (y : Option (List (Bytes × Bytes))) (w' : σ) :
    ToItems W ryu (ms.map fun m => (W.toStr m.1, m.2)) w y w' ↔ ToStrEntries W ryu ms w y w' := by
  constructor
  · intro h
    induction ms generalizing w y with
    | nil => cases h; exact .nil _
    | cons m ms ih =>
      cases h with
      | badKey h => exact .badKey h
      | cons h hr hs => exact .cons h hr (ih _ _ hs)
      | panic h hr => exact .panic h hr
  · intro h
    induction h with
    | nil => exact .nil _
    | badKey h => exact .badKey h
    | cons h hr _ ih => exact .cons h hr ih
    | panic h hr => exact .panic h hr

theorem toItems_fields (fs : List (Bytes × SRef W.U W.K)) (w : σ) (y : Option (List (Bytes × Bytes))) (w' : σ) :
    ToItems W ryu (fs.map fun f => (fun w => (some f.1, w), f.2)) w y w' ↔ ToStrFields W ryu fs w y w' := by
  constructor
  · intro h
    induction fs generalizing w y with
    | nil => cases h; exact .nil _
    | cons m fs ih =>
      obtain ⟨name, r⟩ := m
      cases h with
      | badKey h => cases h
      | cons h hr hs => cases h; exact .cons hr (ih _ _ hs)
      | panic h hr => cases h; exact .panic hr
  · intro h
    induction h with
    | nil => exact .nil _
    | cons hr _ ih => exact .cons rfl hr ih
    | panic hr => exact .panic rfl hr

/-- All keys are made as Rust strings. -/
def GoodKeys (ms : List ((σ → Option Bytes × σ) × SRef W.U W.K)) : Prop := ∀ m, m ∈ ms → ∀ w key w', m.1 w = (some key, w') → ValidUtf8 key

theorem mapNext_nil {i : Nat} {w : σ} {a : LHeap W.U W.K} {s : LStream W.U W.K} (hc : a.cell i = some s) (hs : mapItems W s = some []) :
    ∃ a', W.proto.mapNext (LBox.lib i : LBox W.M) (w, a) = (some none, (w, a')) := by
  show ∃ a', W.libMapNext i (w, a) = _
  unfold UserSer.libMapNext
  simp only [hc]
  rcases s with rs | ⟨x, y, n⟩ | ms | ⟨fs, n⟩
  · cases hs
  · cases hs
  · cases ms with
    | nil => exact ⟨_, rfl⟩
    | cons m ms => cases hs
  · have : fs[n]? = none := by
      simp only [mapItems, Option.some.injEq, List.map_eq_nil_iff, List.drop_eq_nil_iff] at hs
      simpa using hs
    simp only [this]
    exact ⟨_, rfl⟩

theorem mapNext_cons {i : Nat} {w : σ} {a : LHeap W.U W.K} {s : LStream W.U W.K} {k : σ → Option Bytes × σ} {r : SRef W.U W.K} {ms : List ((σ → Option Bytes × σ) × SRef W.U W.K)}
    (hc : a.cell i = some s) (hs : mapItems W s = some ((k, r) :: ms)) :
    ∃ s', mapItems W s' = some ms ∧ ∃ (x : Option (Option (Bytes × SRef W.U W.K))) (w' : σ),
      W.proto.mapNext (LBox.lib i : LBox W.M) (w, a) = (x, (w', a.set i s')) ∧ k w = (x.bind (·.map (·.1)), w') ∧ x = (k w).1.map fun key => some (key, r) := by
  show ∃ s', _ ∧ ∃ x w', W.libMapNext i (w, a) = _ ∧ _
  unfold UserSer.libMapNext
  simp only [hc]
  rcases s with rs | ⟨x, y, n⟩ | ms' | ⟨fs, n⟩
  · cases hs
  · cases hs
  · cases ms' with
    | nil => cases hs
    | cons m ms' =>
      obtain ⟨key, r'⟩ := m
      cases hs
      refine ⟨.map ms', rfl, ?_⟩
      simp only
      rcases e : W.toStr key w with ⟨_ | t, w'⟩
      · exact ⟨_, _, rfl, rfl, rfl⟩
      · exact ⟨_, _, rfl, rfl, rfl⟩
  · simp only [mapItems, Option.some.injEq] at hs
    cases e : fs.drop n with
    | nil => rw [e] at hs; cases hs
    | cons f rest =>
      rw [e] at hs
      cases hs
      have h1 : fs[n]? = some f := by
        have := congrArg (·[0]?) e
        simpa using this
      have h2 : fs.drop (n + 1) = rest := by
        have := congrArg List.tail e
        simpa using this
      refine ⟨.strct fs (n + 1), by simp only [mapItems, h2], ?_⟩
      simp only [h1]
      exact ⟨_, _, rfl, rfl, rfl⟩

theorem map_rest (i : Nat) : ∀ (ms : List ((σ → Option Bytes × σ) × SRef W.U W.K)) (_ : GoodKeys (W := W) ms) (out : Bytes) (w : σ) (a : LHeap W.U W.K) (s : LStream W.U W.K) (_ : i < a.next)
    (_ : a.cell i = some s) (_ : mapItems W s = some ms) (x : Option Bytes) (w' : σ),
    SerEnds ryu (advance (P := W.proto) out [.map (LBox.lib i : LBox W.M)] (w, a)) x w' ↔
      ∃ y, ToItems W ryu ms w y w' ∧ x = y.map fun ss => out ++ commas (ss.map memberText) ++ [b('}')]
  | [], hg, out, w, a, s, hi, hc, hs, x, w' => by
    obtain ⟨a', e1⟩ := mapNext_nil (w := w) hc hs
    have e : advance (P := W.proto) out [.map (LBox.lib i : LBox W.M)] (w, a) = .finished (some (out ++ [b('}')])) (w, a') := by
      unfold advance
      rw [e1]
      rfl
    rw [e, ends_finished]
    constructor
    · rintro ⟨rfl, rfl⟩
      exact ⟨some [], .nil _, by simp [commas]⟩
    · rintro ⟨y, h, rfl⟩
      cases h
      exact ⟨by simp [commas], rfl⟩
  | (k, r) :: ms, hg, out, w, a, s, hi, hc, hs, x, w' => by
    obtain ⟨s', hs', z, v, e1, ek, ez⟩ := mapNext_cons (w := w) hc hs
    have hg' : GoodKeys (W := W) ms := fun m hm => hg m (List.mem_cons_of_mem _ hm)
    have hi' : i < (a.set i s').next := hi
    have hc' : (a.set i s').cell i = some s' := if_pos rfl
    unfold advance
    rw [e1]
    rcases hk : k w with ⟨_ | key, v'⟩
    · rw [hk] at ek ez
      simp only [Option.map_none] at ez
      subst ez
      cases ek
      simp only
      rw [(IsLib.map i).drop, ends_finished]
      constructor
      · rintro ⟨rfl, rfl⟩
        exact ⟨none, .badKey hk, rfl⟩
      · rintro ⟨y, h, rfl⟩
        cases h with
        | badKey h => rw [hk] at h; cases h; exact ⟨rfl, rfl⟩
        | cons h => rw [hk] at h; cases h
        | panic h => rw [hk] at h; cases h
    · rw [hk] at ek ez
      simp only [Option.map_some] at ez
      subst ez
      cases ek
      simp only
      rw [escapeStr_eq (hg _ List.mem_cons_self w key v hk)]
      simp only
      constructor
      · intro h
        rcases element_ends (.map i) _ r v hi' h with ⟨rfl, hT⟩ | ⟨o, w₁, a₁, hT, hn, hk', h'⟩
        · exact ⟨none, .panic hk hT, rfl⟩
        · rw [map_rest i ms hg' _ _ _ s' (Nat.lt_of_lt_of_le hi' hn) (hk'.trans hc') hs'] at h'
          obtain ⟨y, hy, rfl⟩ := h'
          exact ⟨_, .cons hk hT hy, by cases y <;> simp [commas, memberText]⟩
      · rintro ⟨y, h, rfl⟩
        cases h with
        | badKey h => rw [hk] at h; cases h
        | cons h hr hs =>
          rw [hk] at h
          cases h
          obtain ⟨a₁, hn, hk', hE⟩ := element_ok (l := .map (LBox.lib i : LBox W.M)) (out ++ [b(',')] ++ quoted key ++ [b(':')]) hi' hr
          apply hE
          rw [map_rest i ms hg' _ _ _ s' (Nat.lt_of_lt_of_le hi' hn) (hk'.trans hc') hs']
          exact ⟨_, hs, by rename_i y; cases y <;> simp [commas, memberText]⟩
        | panic h hr =>
          rw [hk] at h
          cases h
          exact element_panic (.map i) _ _ hr

/-- The text of a `Map` of the library, as the fragment of a value. -/
theorem map_whole {s : LStream W.U W.K} {ms : List ((σ → Option Bytes × σ) × SRef W.U W.K)} (hs : mapItems W s = some ms) (hg : GoodKeys (W := W) ms) (w : σ) (a : LHeap W.U W.K)
    (x : Option Bytes) (w' : σ) :
    SerEnds ryu (.running ⟨[], [], .map (LBox.lib a.next : LBox W.M), (w, a.alloc s)⟩ : SExit W.proto) x w' ↔
      ∃ y, ToItems W ryu ms w y w' ∧ x = y.map objectText := by
  rw [ends_running]
  unfold stepS
  simp only
  cases ms with
  | nil =>
    obtain ⟨a', e1⟩ := mapNext_nil (W := W) (w := w) (alloc_cell a s) hs
    rw [e1]
    show SerEnds ryu (.finished (some _) (w, _)) x w' ↔ _
    rw [ends_finished]
    constructor
    · rintro ⟨rfl, rfl⟩
      exact ⟨some [], .nil _, rfl⟩
    · rintro ⟨y, h, rfl⟩
      cases h
      exact ⟨rfl, rfl⟩
  | cons m ms =>
    obtain ⟨k, r⟩ := m
    obtain ⟨s', hs', z, v, e1, ek, ez⟩ := mapNext_cons (W := W) (w := w) (alloc_cell a s) hs
    have hg' : GoodKeys (W := W) ms := fun m hm => hg m (List.mem_cons_of_mem _ hm)
    have hi' : a.next < ((a.alloc s).set a.next s').next := alloc_next a s
    have hc' : ((a.alloc s).set a.next s').cell a.next = some s' := if_pos rfl
    rw [e1]
    rcases hk : k w with ⟨_ | key, v'⟩
    · rw [hk] at ek ez
      simp only [Option.map_none] at ez
      subst ez
      cases ek
      simp only
      show SerEnds ryu (.finished none (v, _)) x w' ↔ _
      rw [ends_finished]
      constructor
      · rintro ⟨rfl, rfl⟩
        exact ⟨none, .badKey hk, rfl⟩
      · rintro ⟨y, h, rfl⟩
        cases h with
        | badKey h => rw [hk] at h; cases h; exact ⟨rfl, rfl⟩
        | cons h => rw [hk] at h; cases h
        | panic h => rw [hk] at h; cases h
    · rw [hk] at ek ez
      simp only [Option.map_some] at ez
      subst ez
      cases ek
      simp only
      rw [escapeStr_eq (hg _ List.mem_cons_self w key v hk)]
      simp only
      constructor
      · intro h
        rcases element_ends (.map a.next) _ r v hi' h with ⟨rfl, hT⟩ | ⟨o, w₁, a₁, hT, hn, hk', h'⟩
        · exact ⟨none, .panic hk hT, rfl⟩
        · rw [map_rest a.next ms hg' _ _ _ s' (Nat.lt_of_lt_of_le hi' hn) (hk'.trans hc') hs'] at h'
          obtain ⟨y, hy, rfl⟩ := h'
          exact ⟨_, .cons hk hT hy, by cases y <;> simp [objectText, joined_cons, memberText]⟩
      · rintro ⟨y, h, rfl⟩
        cases h with
        | badKey h => rw [hk] at h; cases h
        | cons h hr hs =>
          rw [hk] at h
          cases h
          obtain ⟨a₁, hn, hk', hE⟩ := element_ok (l := .map (LBox.lib a.next : LBox W.M)) ([] ++ [b('{')] ++ quoted key ++ [b(':')]) hi' hr
          apply hE
          rw [map_rest a.next ms hg' _ _ _ s' (Nat.lt_of_lt_of_le hi' hn) (hk'.trans hc') hs']
          exact ⟨_, hs, by rename_i y; cases y <;> simp [objectText, joined_cons, memberText]⟩
        | panic h hr =>
          rw [hk] at h
          cases h
          exact element_panic (.map a.next) _ _ hr

end Miniserde
