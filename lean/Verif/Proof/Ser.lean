import Verif.Proof.Escape

/-!
# The serializer emits the compact text of the streamed tree
-/

namespace Miniserde
section
variable {σ : Type} {P : SProto σ} {ryu : F64 → Bytes} {lit : F64 → NumLit}

theorem runS_add (a b : Nat) : ∀ x : SExit P, runS ryu (a + b) x = runS ryu b (runS ryu a x) := by
  induction a with
  | zero => intro x; rw [Nat.zero_add]; rfl
  | succ a ih =>
    intro x
    rw [Nat.succ_add]
    cases x with
    | running st => exact ih _
    | finished o w =>
      show SExit.finished o w = runS ryu b (SExit.finished o w)
      cases b <;> rfl

/-- The text of elements after the first one. -/
def tailElems : List Json → Bytes
  | [] => []
  | x :: xs => 0x2C :: (compact x ++ tailElems xs)

/-- The text of members after the first one. -/
def tailMembers : List (Bytes × Json) → Bytes
  | [] => []
  | (k, x) :: ms => 0x2C :: (quoted k ++ 0x3A :: (compact x ++ tailMembers ms))

theorem compactElems_cons (x : Json) (xs : List Json) : compactElems (x :: xs) = compact x ++ tailElems xs := by
  induction xs generalizing x with
  | nil => simp [compactElems, tailElems]
  | cons y ys ih => rw [compactElems, ih, tailElems]; simp

theorem compactMembers_cons (k : Bytes) (x : Json) (ms : List (Bytes × Json)) :
    compactMembers ((k, x) :: ms) = quoted k ++ 0x3A :: (compact x ++ tailMembers ms) := by
  induction ms generalizing k x with
  | nil => simp [compactMembers, tailMembers]
  | cons y ys ih => obtain ⟨k', y⟩ := y; rw [compactMembers, ih, tailMembers]; simp

theorem decimalInt_text (z : Int) : decimalInt z = (NumLit.mk (decide (z < 0)) (decimal z.natAbs) none none).text := by
  unfold decimalInt NumLit.text
  by_cases h : z < 0 <;> simp [h]

theorem decimal_text (n : Nat) : decimal n = (NumLit.mk false (decimal n) none none).text := by simp [NumLit.text]

/-- A leaf takes one iteration. -/
theorem leaf_step (hr : RyuSyntax ryu lit) {out : Bytes} {stack : List (SLayer P)} {f : Frag P.Q P.M} {t : FTree} {w : σ} (hl : LeafFrag f t)
    (hv : t.AllStr ValidUtf8) : stepS ryu ⟨out, stack, f, w⟩ = advance (out ++ compact (t.json lit)) stack w := by
  cases hl with
  | null => rfl
  | bool b => cases b <;> rfl
  | str s => simp only [stepS]; rw [escapeStr_eq hv]; rfl
  | u64 n => simp only [stepS, FTree.json, compact]; rw [← decimal_text]
  | i64 z => simp only [stepS, FTree.json, compact]; rw [← decimalInt_text]
  | f64 x =>
    simp only [stepS, FTree.json]
    cases h : x.isFinite with
    | true => simp only [if_true, compact]; rw [hr.text x h]
    | false => rfl

theorem leaf_nodes {f : Frag P.Q P.M} {t : FTree} (hl : LeafFrag f t) : t.nodes = 1 := by cases hl <;> rfl

theorem runS_begin {s : P.S} {w w₁ : σ} {f : Frag P.Q P.M} (h : P.begin s w = (some f, w₁)) (out : Bytes) (stack : List (SLayer P)) :
    runS ryu 1 (beginWith out stack s w) = stepS ryu ⟨out, stack, f, w₁⟩ := by
  rw [beginWith, h]; simp only [runS]

mutual

/-- After as many iterations as the tree has nodes, its text has been written. -/
theorem Streams.run (hr : RyuSyntax ryu lit) : ∀ {s : P.S} {w : σ} {t : FTree} {w' : σ}, Streams P s w t w' → t.AllStr ValidUtf8 →
    ∀ (out : Bytes) (stack : List (SLayer P)),
      runS ryu t.nodes (beginWith out stack s w) = advance (out ++ compact (t.json lit)) stack w'
  | s, w, t, w', .leaf (f := f) h hl, hv, out, stack => by
    rw [leaf_nodes hl, runS_begin h]
    exact leaf_step hr hl hv
  | s, w, _, _, .seq (q := q) h (.nil h2), hv, out, stack => by
    rw [show FTree.nodes (.seq []) = 1 by simp [FTree.nodes, FTree.nodesL], runS_begin h]
    simp only [stepS, h2, FTree.json, FTree.jsons, compact, compactElems]
    rfl
  | s, w, _, _, .seq (q := q) h (.cons (t := t) (ts := ts) h2 ht hs), hv, out, stack => by
    rw [FTree.nodes, FTree.nodesL]
    rw [show t.nodes + FTree.nodesL ts + 1 = 1 + (t.nodes + FTree.nodesL ts) by omega, runS_add, runS_begin h]
    simp only [stepS, h2]
    rw [runS_add, Streams.run hr ht hv.1, StreamsSeq.run hr hs hv.2]
    rw [FTree.json, FTree.jsons, compact, compactElems_cons]
    simp
  | s, w, _, _, .map (m := m) h (.nil h2), hv, out, stack => by
    rw [show FTree.nodes (.map []) = 1 by simp [FTree.nodes, FTree.nodesM], runS_begin h]
    simp only [stepS, h2, FTree.json, FTree.jsonMembers, compact, compactMembers]
    rfl
  | s, w, _, _, .map (m := m) h (.cons (k := k) (t := t) (ts := ts) h2 ht hs), hv, out, stack => by
    rw [FTree.nodes, FTree.nodesM]
    rw [show t.nodes + FTree.nodesM ts + 1 = 1 + (t.nodes + FTree.nodesM ts) by omega, runS_add, runS_begin h]
    simp only [stepS, h2]
    rw [escapeStr_eq hv.1]
    simp only
    rw [runS_add, Streams.run hr ht hv.2.1, StreamsMap.run hr hs hv.2.2]
    rw [FTree.json, FTree.jsonMembers, compact, compactMembers_cons]
    simp

theorem StreamsSeq.run (hr : RyuSyntax ryu lit) : ∀ {q : P.Q} {w : σ} {ts : List FTree} {w' : σ}, StreamsSeq P q w ts w' →
    FTree.AllStrs ValidUtf8 ts → ∀ (out : Bytes) (stack : List (SLayer P)),
      runS ryu (FTree.nodesL ts) (advance out (.seq q :: stack) w) =
        advance (out ++ (tailElems (FTree.jsons lit ts) ++ [0x5D])) stack (P.dropSeq q w')
  | q, w, _, _, .nil h, hv, out, stack => by
    rw [advance, h]; rfl
  | q, w, _, _, .cons (t := t) (ts := ts) h ht hs, hv, out, stack => by
    rw [advance, h, FTree.nodesL, runS_add]
    simp only
    rw [Streams.run hr ht hv.1, StreamsSeq.run hr hs hv.2, FTree.jsons, tailElems]
    simp

theorem StreamsMap.run (hr : RyuSyntax ryu lit) : ∀ {q : P.M} {w : σ} {ts : List (Bytes × FTree)} {w' : σ}, StreamsMap P q w ts w' →
    FTree.AllStrMembers ValidUtf8 ts → ∀ (out : Bytes) (stack : List (SLayer P)),
      runS ryu (FTree.nodesM ts) (advance out (.map q :: stack) w) =
        advance (out ++ (tailMembers (FTree.jsonMembers lit ts) ++ [0x7D])) stack (P.dropMap q w')
  | q, w, _, _, .nil h, hv, out, stack => by
    rw [advance, h]; rfl
  | q, w, _, _, .cons (k := k) (t := t) (ts := ts) h ht hs, hv, out, stack => by
    rw [advance, h, FTree.nodesM, runS_add]
    simp only
    rw [escapeStr_eq hv.1]
    simp only
    rw [Streams.run hr ht hv.2.1, StreamsMap.run hr hs hv.2.2, FTree.jsonMembers, tailMembers]
    simp

end

/-- The whole run. -/
theorem toStringN_streams (hr : RyuSyntax ryu lit) {s : P.S} {w : σ} {t : FTree} {w' : σ} (h : Streams P s w t w')
    (hv : t.AllStr ValidUtf8) {n : Nat} (hn : t.nodes ≤ n) : toStringN P ryu n s w = .finished (some (compact (t.json lit))) w' := by
  obtain ⟨k, rfl⟩ := Nat.exists_eq_add_of_le hn
  rw [toStringN, runS_add, h.run hr hv]
  show runS ryu k (.finished _ _) = _
  cases k <;> simp [runS]

/-! ## Converse: whatever is written was streamed -/

theorem conv (o : Bytes) (w' : σ) : ∀ n : Nat,
    (∀ out stack s w, runS ryu n (beginWith (P := P) out stack s w) = .finished (some o) w' →
      ∃ t w₁ n' out', n' < n ∧ Streams P s w t w₁ ∧ runS ryu n' (advance out' stack w₁) = .finished (some o) w') ∧
    (∀ out stack q w, runS ryu n (advance (P := P) out (.seq q :: stack) w) = .finished (some o) w' →
      ∃ ts w₁ n' out', n' ≤ n ∧ StreamsSeq P q w ts w₁ ∧ runS ryu n' (advance out' stack (P.dropSeq q w₁)) = .finished (some o) w') ∧
    (∀ out stack m w, runS ryu n (advance (P := P) out (.map m :: stack) w) = .finished (some o) w' →
      ∃ ts w₁ n' out', n' ≤ n ∧ StreamsMap P m w ts w₁ ∧ runS ryu n' (advance out' stack (P.dropMap m w₁)) = .finished (some o) w') := by
  have fin : ∀ n w, runS ryu n (SExit.finished (P := P) none w) = .finished (some o) w' → False := by
    intro n w h; cases n <;> cases h
  intro n
  induction n using Nat.strongRecOn with
  | ind n ih =>
  have hval : ∀ out stack s w, runS ryu n (beginWith (P := P) out stack s w) = .finished (some o) w' →
      ∃ t w₁ n' out', n' < n ∧ Streams P s w t w₁ ∧ runS ryu n' (advance out' stack w₁) = .finished (some o) w' := by
    intro out stack s w h
    rcases hb : P.begin s w with ⟨f, w1⟩
    rw [beginWith, hb] at h
    cases f with
    | none => exact (fin _ _ h).elim
    | some f =>
      simp only at h
      match n, h, ih with
      | n + 1, h, ih =>
        simp only [runS] at h
        cases f with
        | null => exact ⟨_, _, n, _, by omega, .leaf hb .null, h⟩
        | bool b => exact ⟨_, _, n, _, by omega, .leaf hb (.bool b), h⟩
        | u64 k => exact ⟨_, _, n, _, by omega, .leaf hb (.u64 k), h⟩
        | i64 k => exact ⟨_, _, n, _, by omega, .leaf hb (.i64 k), h⟩
        | f64 k => exact ⟨_, _, n, _, by omega, .leaf hb (.f64 k), h⟩
        | str x =>
          simp only [stepS] at h
          cases he : escapeStr x out with
          | none => rw [he] at h; exact (fin _ _ h).elim
          | some out' => rw [he] at h; exact ⟨_, _, n, out', by omega, .leaf hb (.str x), h⟩
        | seq q =>
          simp only [stepS] at h
          rcases hq : P.seqNext q w1 with ⟨r, w2⟩
          rw [hq] at h
          match r, hq, h with
          | none, hq, h => exact (fin _ _ h).elim
          | some none, hq, h => exact ⟨_, _, n, _, by omega, .seq hb (.nil hq), h⟩
          | some (some first), hq, h =>
            obtain ⟨t, w3, n', out', hn, ht, h'⟩ := (ih n (by omega)).1 _ _ _ _ h
            obtain ⟨ts, w4, n'', out'', hn', hts, h''⟩ := (ih n' (by omega)).2.1 _ _ _ _ h'
            exact ⟨_, _, n'', out'', by omega, .seq hb (.cons hq ht hts), h''⟩
        | map q =>
          simp only [stepS] at h
          rcases hq : P.mapNext q w1 with ⟨r, w2⟩
          rw [hq] at h
          match r, hq, h with
          | none, hq, h => exact (fin _ _ h).elim
          | some none, hq, h => exact ⟨_, _, n, _, by omega, .map hb (.nil hq), h⟩
          | some (some (k, first)), hq, h =>
            simp only at h
            cases he : escapeStr k (out ++ [b('{')]) with
            | none => rw [he] at h; exact (fin _ _ h).elim
            | some out' =>
              rw [he] at h
              obtain ⟨t, w3, n', out', hn, ht, h'⟩ := (ih n (by omega)).1 _ _ _ _ h
              obtain ⟨ts, w4, n'', out'', hn', hts, h''⟩ := (ih n' (by omega)).2.2 _ _ _ _ h'
              exact ⟨_, _, n'', out'', by omega, .map hb (.cons hq ht hts), h''⟩
  refine ⟨hval, ?_, ?_⟩
  · intro out stack q w h
    rw [advance] at h
    rcases hq : P.seqNext q w with ⟨r, w2⟩
    rw [hq] at h
    match r, hq, h with
    | none, hq, h => exact (fin _ _ h).elim
    | some none, hq, h => exact ⟨_, _, n, _, Nat.le_refl _, .nil hq, h⟩
    | some (some next), hq, h =>
      obtain ⟨t, w3, n', out', hn, ht, h'⟩ := hval _ _ _ _ h
      obtain ⟨ts, w4, n'', out'', hn', hts, h''⟩ := (ih n' hn).2.1 _ _ _ _ h'
      exact ⟨_, _, n'', out'', by omega, .cons hq ht hts, h''⟩
  · intro out stack q w h
    rw [advance] at h
    rcases hq : P.mapNext q w with ⟨r, w2⟩
    rw [hq] at h
    match r, hq, h with
    | none, hq, h => exact (fin _ _ h).elim
    | some none, hq, h => exact ⟨_, _, n, _, Nat.le_refl _, .nil hq, h⟩
    | some (some (k, next)), hq, h =>
      simp only at h
      cases he : escapeStr k (out ++ [b(',')]) with
      | none => rw [he] at h; exact (fin _ _ h).elim
      | some out' =>
        rw [he] at h
        obtain ⟨t, w3, n', out', hn, ht, h'⟩ := hval _ _ _ _ h
        obtain ⟨ts, w4, n'', out'', hn', hts, h''⟩ := (ih n' hn).2.2 _ _ _ _ h'
        exact ⟨_, _, n'', out'', by omega, .cons hq ht hts, h''⟩

/-- If `to_string` returns, the value streamed some finite tree. -/
theorem streams_of_toStringN {n : Nat} {s : P.S} {w : σ} {o : Bytes} {w' : σ} (h : toStringN P ryu n s w = .finished (some o) w') :
    ∃ t, Streams P s w t w' := by
  obtain ⟨t, w1, n', out', -, ht, h'⟩ := (conv o w' n).1 _ _ _ _ h
  simp only [advance] at h'
  have : w1 = w' := by cases n' <;> simp [runS] at h' <;> exact h'.2
  exact ⟨t, this ▸ ht⟩

theorem leaf_utf8 (hP : P.Utf8) {s : P.S} {w w' : σ} {f : Frag P.Q P.M} {t : FTree} (h : P.begin s w = (some f, w')) (hl : LeafFrag f t) :
    t.AllStr ValidUtf8 := by
  cases hl <;> first | trivial | exact hP.str _ _ _ _ h

mutual

theorem Streams.utf8 (hP : P.Utf8) : ∀ {s : P.S} {w : σ} {t : FTree} {w' : σ}, Streams P s w t w' → t.AllStr ValidUtf8
  | _, _, _, _, .leaf h hl => leaf_utf8 hP h hl
  | _, _, _, _, .seq _ hs => StreamsSeq.utf8 hP hs
  | _, _, _, _, .map _ hs => StreamsMap.utf8 hP hs

theorem StreamsSeq.utf8 (hP : P.Utf8) : ∀ {q : P.Q} {w : σ} {ts : List FTree} {w' : σ}, StreamsSeq P q w ts w' → FTree.AllStrs ValidUtf8 ts
  | _, _, _, _, .nil _ => trivial
  | _, _, _, _, .cons _ ht hs => ⟨Streams.utf8 hP ht, StreamsSeq.utf8 hP hs⟩

theorem StreamsMap.utf8 (hP : P.Utf8) : ∀ {q : P.M} {w : σ} {ts : List (Bytes × FTree)} {w' : σ}, StreamsMap P q w ts w' →
    FTree.AllStrMembers ValidUtf8 ts
  | _, _, _, _, .nil _ => trivial
  | _, _, _, _, .cons h ht hs => ⟨hP.key _ _ _ _ _ h, Streams.utf8 hP ht, StreamsMap.utf8 hP hs⟩

end

theorem runS_mono {n m : Nat} (h : n ≤ m) {x : SExit P} {o : Option Bytes} {w : σ} (hx : runS ryu n x = .finished o w) :
    runS ryu m x = .finished o w := by
  obtain ⟨k, rfl⟩ := Nat.exists_eq_add_of_le h
  rw [runS_add, hx]; cases k <;> rfl

/-- What is returned is the text of the streamed tree. -/
theorem toStringN_spec (hr : RyuSyntax ryu lit) (hP : P.Utf8) {n : Nat} {s : P.S} {w : σ} {o : Bytes} {w' : σ}
    (h : toStringN P ryu n s w = .finished (some o) w') : ∃ t, Streams P s w t w' ∧ o = compact (t.json lit) := by
  obtain ⟨t, ht⟩ := streams_of_toStringN h
  refine ⟨t, ht, ?_⟩
  have h1 := runS_mono (Nat.le_max_left n t.nodes) h
  have h2 := toStringN_streams hr ht (ht.utf8 hP) (Nat.le_max_right n t.nodes)
  rw [toStringN] at h2
  rw [h2] at h1
  injection h1 with h1 _
  exact (Option.some.inj h1).symm

/-! ## No panic of its own -/

/-- Not a panic. -/
def SExit.fine : SExit P → Prop
  | .finished none _ => False
  | .finished (some _) _ => True
  | .running _ => True

/-- The fragment under way, if it is a string, is well-formed. -/
def SExit.goodFrag : SExit P → Prop
  | .running st => ∀ x, st.frag = .str x → ValidUtf8 x
  | _ => True

theorem beginWith_fine (hP : P.Utf8) (hn : P.NoPanic) (out : Bytes) (stack : List (SLayer P)) (s : P.S) (w : σ) :
    (beginWith out stack s w).fine ∧ (beginWith out stack s w).goodFrag := by
  rcases hb : P.begin s w with ⟨f, w1⟩
  rw [beginWith, hb]
  cases f with
  | none => exact (hn.begin s w (by rw [hb])).elim
  | some f => exact ⟨trivial, fun x hx => hP.str s w x w1 (by rw [hb]; simp only at hx; rw [hx])⟩

theorem advance_fine (hP : P.Utf8) (hn : P.NoPanic) : ∀ (stack : List (SLayer P)) (out : Bytes) (w : σ),
    (advance out stack w).fine ∧ (advance out stack w).goodFrag
  | [], out, w => by rw [advance]; exact ⟨trivial, trivial⟩
  | .seq q :: stack, out, w => by
    rw [advance]
    rcases hq : P.seqNext q w with ⟨r, w2⟩
    match r, hq with
    | none, hq => exact (hn.seqNext q w (by rw [hq])).elim
    | some none, hq => exact advance_fine hP hn stack _ _
    | some (some s), hq => exact beginWith_fine hP hn _ _ _ _
  | .map q :: stack, out, w => by
    rw [advance]
    rcases hq : P.mapNext q w with ⟨r, w2⟩
    match r, hq with
    | none, hq => exact (hn.mapNext q w (by rw [hq])).elim
    | some none, hq => exact advance_fine hP hn stack _ _
    | some (some (k, s)), hq =>
      simp only
      rw [escapeStr_eq (hP.key _ _ _ _ _ hq)]
      exact beginWith_fine hP hn _ _ _ _

theorem stepS_fine (hP : P.Utf8) (hn : P.NoPanic) (st : SSt P) (h : (SExit.running st).goodFrag) :
    (stepS ryu st).fine ∧ (stepS ryu st).goodFrag := by
  obtain ⟨out, stack, f, w⟩ := st
  cases f with
  | null => exact advance_fine hP hn _ _ _
  | bool b => exact advance_fine hP hn _ _ _
  | u64 k => exact advance_fine hP hn _ _ _
  | i64 k => exact advance_fine hP hn _ _ _
  | f64 k => exact advance_fine hP hn _ _ _
  | str x =>
    simp only [stepS]
    rw [escapeStr_eq (h x rfl)]
    exact advance_fine hP hn _ _ _
  | seq q =>
    simp only [stepS]
    rcases hq : P.seqNext q w with ⟨r, w2⟩
    match r, hq with
    | none, hq => exact (hn.seqNext q w (by rw [hq])).elim
    | some none, hq => exact advance_fine hP hn _ _ _
    | some (some s), hq => exact beginWith_fine hP hn _ _ _ _
  | map q =>
    simp only [stepS]
    rcases hq : P.mapNext q w with ⟨r, w2⟩
    match r, hq with
    | none, hq => exact (hn.mapNext q w (by rw [hq])).elim
    | some none, hq => exact advance_fine hP hn _ _ _
    | some (some (k, s)), hq =>
      simp only
      rw [escapeStr_eq (hP.key _ _ _ _ _ hq)]
      exact beginWith_fine hP hn _ _ _ _

theorem runS_fine (hP : P.Utf8) (hn : P.NoPanic) : ∀ (n : Nat) (x : SExit P), x.fine → x.goodFrag → (runS ryu n x).fine
  | 0, _, h, _ => h
  | n + 1, .running st, _, h => runS_fine hP hn n _ (stepS_fine hP hn st h).1 (stepS_fine hP hn st h).2
  | _ + 1, .finished _ _, h, _ => h

theorem toStringN_no_panic (hP : P.Utf8) (hn : P.NoPanic) (n : Nat) (s : P.S) (w w' : σ) :
    toStringN P ryu n s w ≠ .finished none w' := by
  intro h
  have := runS_fine (ryu := ryu) hP hn n _ (beginWith_fine hP hn [] [] s w).1 (beginWith_fine hP hn [] [] s w).2
  rw [toStringN] at h
  rw [h] at this
  exact this

end
end Miniserde
