import Verif.Model.SerTime
import Verif.Spec.SerTime
import Verif.Proof.SerCost

/-!
# The work of the serializer is linear in its output
-/

namespace Miniserde

/-! ## Erasing the counter -/

theorem escapeLoopC_fst (value : Bytes) : ∀ (rest : Bytes) (i start : Nat) (out : Bytes) (k : Work),
    (escapeLoopC value i start out rest k).1 = escapeLoop value i start out rest
  | [], _, _, _, _ => rfl
  | byte :: rest, i, start, out, k => by
    rw [escapeLoopC, escapeLoop]
    cases SER_ESCAPE[byte.toNat]? with
    | none => rfl
    | some e =>
      simp only
      split
      · exact escapeLoopC_fst value rest _ _ _ _
      · generalize (if start < i then (sliceStr value start i).map (out ++ ·) else some out) = o
        cases o with
        | none => rfl
        | some out =>
          simp only
          cases pushEscape e byte with
          | none => rfl
          | some e => exact escapeLoopC_fst value rest _ _ _ _

theorem escapeStrC_fst (value out : Bytes) (k : Work) : (escapeStrC value out k).1 = escapeStr value out := by
  unfold escapeStrC escapeStr
  rw [← escapeLoopC_fst value value 0 0 _ (k.push 1)]
  rcases escapeLoopC value 0 0 (out ++ [b('"')]) value (k.push 1) with ⟨_ | ⟨start, out⟩, k'⟩
  · rfl
  · simp only
    generalize (if start ≠ value.length then (sliceStr value start value.length).map (out ++ ·) else some out) = o
    cases o <;> rfl

section
variable {σ : Type} {P : SProto σ}

theorem beginWithC_fst (out : Bytes) (stack : List (SLayer P)) (s : P.S) (w : σ) (k : Work) : (beginWithC out stack s w k).1 = beginWith out stack s w := by
  unfold beginWithC beginWith
  rcases P.begin s w with ⟨_ | f, w'⟩ <;> rfl

theorem advanceC_fst : ∀ (stack : List (SLayer P)) (out : Bytes) (w : σ) (k : Work), (advanceC out stack w k).1 = advance out stack w
  | [], _, _, _ => rfl
  | .seq q :: stack, out, w, k => by
    rw [advanceC, advance]
    rcases P.seqNext q w with ⟨_ | _ | s, w'⟩
    · rfl
    · exact advanceC_fst stack _ _ _
    · exact beginWithC_fst ..
  | .map m :: stack, out, w, k => by
    rw [advanceC, advance]
    rcases P.mapNext m w with ⟨_ | _ | ⟨key, s⟩, w'⟩
    · rfl
    · exact advanceC_fst stack _ _ _
    · simp only
      rw [← escapeStrC_fst key (out ++ [b(',')]) ((k.tick 2).push 1)]
      rcases escapeStrC key (out ++ [b(',')]) ((k.tick 2).push 1) with ⟨_ | o, k'⟩
      · rfl
      · exact beginWithC_fst ..

theorem stepSC_fst (ryu : F64 → Bytes) (st : SSt P) (k : Work) : (stepSC ryu st k).1 = stepS ryu st := by
  obtain ⟨out, stack, frag, w⟩ := st
  unfold stepSC stepS
  cases frag with
  | null => exact advanceC_fst ..
  | bool b => exact advanceC_fst ..
  | str s =>
    simp only
    rw [← escapeStrC_fst s out k]
    rcases escapeStrC s out k with ⟨_ | o, k'⟩
    · rfl
    · exact advanceC_fst ..
  | u64 n => exact advanceC_fst ..
  | i64 n => exact advanceC_fst ..
  | f64 n => exact advanceC_fst ..
  | seq q =>
    simp only
    rcases P.seqNext q w with ⟨_ | _ | s, w'⟩
    · rfl
    · exact advanceC_fst ..
    · exact beginWithC_fst ..
  | map m =>
    simp only
    rcases P.mapNext m w with ⟨_ | _ | ⟨key, s⟩, w'⟩
    · rfl
    · exact advanceC_fst ..
    · simp only
      rw [← escapeStrC_fst key (out ++ [b('{')]) ((k.push 1).tick 1)]
      rcases escapeStrC key (out ++ [b('{')]) ((k.push 1).tick 1) with ⟨_ | o, k'⟩
      · rfl
      · exact beginWithC_fst ..

theorem runSC_fst (ryu : F64 → Bytes) : ∀ (n : Nat) (x : SExit P) (k : Work), (runSC ryu n (x, k)).1 = runS ryu n x
  | 0, _, _ => rfl
  | n + 1, .running st, k => by
    rw [runSC, runS, ← stepSC_fst ryu st k]
    exact runSC_fst ryu n _ _
  | _ + 1, .finished _ _, _ => rfl

theorem toStringC_fst (ryu : F64 → Bytes) (n : Nat) (s : P.S) (w : σ) : (toStringC P ryu n s w).1 = toStringN P ryu n s w := by
  unfold toStringC toStringN
  rw [← beginWithC_fst [] [] s w {}]
  exact runSC_fst ryu n _ _

end

/-! ## Strings -/

theorem sliceStr_length {s x : Bytes} {a z : Nat} (h : sliceStr s a z = some x) : x.length = z - a := by
  unfold sliceStr at h
  split at h
  · cases h; simp; omega
  · cases h

theorem escapeLoopC_work (value : Bytes) : ∀ (rest : Bytes) (i start : Nat) (out : Bytes) (k : Work) {start' : Nat} {out' : Bytes} {k' : Work},
    escapeLoopC value i start out rest k = (some (start', out'), k') →
    out.length ≤ out'.length ∧ k'.written = k.written + (out'.length - out.length) ∧ k'.steps = k.steps + rest.length + (out'.length - out.length)
  | [], _, _, _, _, _, _, _, h => by cases h; simp
  | byte :: rest, i, start, out, k, start', out', k', h => by
    rw [escapeLoopC] at h
    cases hs : SER_ESCAPE[byte.toNat]? with
    | none => rw [hs] at h; cases h
    | some e =>
      rw [hs] at h
      simp only at h
      split at h
      · have := escapeLoopC_work value rest _ _ _ _ h
        simp only [Work.tick] at this
        simp only [List.length_cons]
        omega
      · have hl : ∀ o, (if start < i then (sliceStr value start i).map (out ++ ·) else some out) = some o → o.length = out.length + (i - start) := by
          intro o ho
          split at ho
          · cases hx : sliceStr value start i with
            | none => rw [hx] at ho; cases ho
            | some x =>
              rw [hx] at ho
              cases ho
              rw [List.length_append, sliceStr_length hx]
          · cases ho; omega
        generalize (if start < i then (sliceStr value start i).map (out ++ ·) else some out) = o at h hl
        cases o with
        | none => cases h
        | some out1 =>
          have hl := hl out1 rfl
          simp only at h
          cases hp : pushEscape e byte with
          | none => rw [hp] at h; cases h
          | some x =>
            rw [hp] at h
            have := escapeLoopC_work value rest _ _ _ _ h
            simp only [Work.tick, Work.push, List.length_append] at this
            simp only [List.length_cons]
            omega

theorem quoted_longer (s : Bytes) : s.length + 2 ≤ (quoted s).length := by
  have : s.length ≤ (s.flatMap escapedByte).length := by
    induction s with
    | nil => simp
    | cons c s ih =>
      have : 1 ≤ (escapedByte c).length := by
        unfold escapedByte
        repeat' split
        all_goals simp
      simp only [List.flatMap_cons, List.length_append, List.length_cons]
      omega
  simp only [quoted, List.length_cons, List.length_append, List.length_nil]
  omega

/-- A string: one step for each of its bytes and one for each byte written. -/
theorem escapeStrC_work {s : Bytes} (hs : ValidUtf8 s) (out : Bytes) (k : Work) : ∃ k', escapeStrC s out k = (some (out ++ quoted s), k') ∧
    k'.written = k.written + (quoted s).length ∧ k'.steps = k.steps + s.length + (quoted s).length := by
  have e := escapeStrC_fst s out k
  rw [escapeStr_eq hs] at e
  rcases hh : escapeStrC s out k with ⟨o, k'⟩
  rw [hh] at e
  cases e
  refine ⟨k', rfl, ?_⟩
  unfold escapeStrC at hh
  rcases hl : escapeLoopC s 0 0 (out ++ [b('"')]) s (k.push 1) with ⟨_ | ⟨start, out1⟩, k1⟩
  · rw [hl] at hh; cases hh
  · rw [hl] at hh
    have hw := escapeLoopC_work s s 0 0 _ _ hl
    simp only at hh
    have hx : ∀ o, (if start ≠ s.length then (sliceStr s start s.length).map (out1 ++ ·) else some out1) = some o → o.length = out1.length + (s.length - start) := by
      intro o ho
      split at ho
      · cases hx : sliceStr s start s.length with
        | none => rw [hx] at ho; cases ho
        | some x =>
          rw [hx] at ho
          cases ho
          rw [List.length_append, sliceStr_length hx]
      · rename_i hne
        cases ho
        have := Decidable.not_not.1 hne
        omega
    generalize (if start ≠ s.length then (sliceStr s start s.length).map (out1 ++ ·) else some out1) = o at hh hx
    cases o with
    | none => cases hh
    | some out2 =>
      have hx := hx out2 rfl
      simp only [Prod.mk.injEq, Option.some.injEq] at hh
      have hlen := congrArg List.length hh.1
      rw [← hh.2]
      simp only [Work.push, List.length_append, List.length_cons, List.length_nil] at hw hlen ⊢
      omega

/-! ## The main loop -/

section
variable {σ : Type} {P : SProto σ} {μ : σ → Nat}

/-- The account of the work is in order: the bytes written are those of the output, the steps are at most six per byte written (two are put aside for every layer on the stack), and at least one
per byte written and per call. -/
def Accounts (μ : σ → Nat) (m : Nat) : SExit P × Work → Prop
  | (.running st, k) => k.written = st.out.length ∧ k.steps + 2 * st.stack.length ≤ 6 * k.written + 1 ∧ k.written + μ st.w ≤ m + k.steps ∧ ∀ x, st.frag = .str x → ValidUtf8 x
  | (.finished (some o) w, k) => k.written = o.length ∧ k.steps ≤ 6 * k.written + 1 ∧ k.written + μ w ≤ m + k.steps
  | (.finished none w, k) => k.steps ≤ 6 * k.written + 1 ∧ k.written + μ w ≤ m + k.steps

variable (C : P.Counts μ)
include C

theorem layer_drop_calls (l : SLayer P) (w : σ) : μ (l.drop w) ≤ μ w + 1 := by
  cases l with
  | seq q => exact C.dropSeq q w
  | map m => exact C.dropMap m w

theorem dropLayers_calls (st : List (SLayer P)) (w : σ) : μ (dropLayers st w) ≤ μ w + st.length := by
  induction st generalizing w with
  | nil => exact Nat.le_refl _
  | cons f st ih =>
    have h1 := ih (f.drop w)
    have h2 := layer_drop_calls C f w
    simp only [dropLayers, List.length_cons]
    omega

theorem beginWithC_accounts (hP : P.Utf8) {m : Nat} {out : Bytes} {stack : List (SLayer P)} {w : σ} {k : Work} (s : P.S)
    (h1 : k.written = out.length) (h2 : k.steps + 2 * stack.length ≤ 6 * k.written) (h3 : k.written + μ w ≤ m + k.steps) :
    Accounts μ m (beginWithC out stack s w k) := by
  unfold beginWithC
  have hb := C.begin s w
  rcases hh : P.begin s w with ⟨_ | f, w'⟩ <;> rw [hh] at hb <;> simp only at hb ⊢
  · have := dropLayers_calls C stack w'
    simp only [Accounts, Work.tick]
    omega
  · refine ⟨h1, ?_, ?_, ?_⟩
    · simp only [Work.tick]; omega
    · simp only [Work.tick]; omega
    · rintro x rfl
      exact hP.str _ _ _ _ hh

theorem advanceC_accounts (hP : P.Utf8) {m : Nat} : ∀ (stack : List (SLayer P)) {out : Bytes} {w : σ} {k : Work},
    k.written = out.length → k.steps + 2 * stack.length + 1 ≤ 6 * k.written → k.written + μ w ≤ m + k.steps → Accounts μ m (advanceC out stack w k)
  | [], out, w, k, h1, h2, h3 => by
    simp only [advanceC, Accounts, Work.tick, List.length_nil] at *
    omega
  | .seq q :: stack, out, w, k, h1, h2, h3 => by
    rw [advanceC]
    have hn := C.seqNext q w
    simp only [List.length_cons] at h2
    rcases hh : P.seqNext q w with ⟨_ | _ | s, w'⟩ <;> rw [hh] at hn <;> simp only at hn ⊢
    · have := dropLayers_calls C (.seq q :: stack) w'
      simp only [Accounts, Work.tick, List.length_cons] at *
      omega
    · have hd := C.dropSeq q w'
      apply advanceC_accounts hP stack <;> simp only [Work.tick, Work.push, List.length_append, List.length_cons, List.length_nil] <;> omega
    · apply beginWithC_accounts C hP <;> simp only [Work.tick, Work.push, List.length_append, List.length_cons, List.length_nil] <;> omega
  | .map q :: stack, out, w, k, h1, h2, h3 => by
    rw [advanceC]
    have hn := C.mapNext q w
    simp only [List.length_cons] at h2
    rcases hh : P.mapNext q w with ⟨_ | _ | ⟨key, s⟩, w'⟩ <;> rw [hh] at hn <;> simp only at hn ⊢
    · have := dropLayers_calls C (.map q :: stack) w'
      simp only [Accounts, Work.tick, List.length_cons] at *
      omega
    · have hd := C.dropMap q w'
      apply advanceC_accounts hP stack <;> simp only [Work.tick, Work.push, List.length_append, List.length_cons, List.length_nil] <;> omega
    · obtain ⟨k', he, hw, hs⟩ := escapeStrC_work (hP.key _ _ _ _ _ hh) (out ++ [b(',')]) ((k.tick 2).push 1)
      have hq := quoted_longer key
      simp only [he]
      simp only [Work.tick, Work.push] at hw hs
      apply beginWithC_accounts C hP <;> simp only [Work.push, List.length_append, List.length_cons, List.length_nil] <;> omega

omit C in
theorem decimal_length_pos (n : Nat) : 0 < (decimal n).length := by
  unfold decimal
  split <;> simp

omit C in
theorem decimalInt_length_pos (z : Int) : 0 < (decimalInt z).length := by
  unfold decimalInt
  split
  · simp
  · exact decimal_length_pos _

theorem stepSC_accounts {ryu : F64 → Bytes} {lit : F64 → NumLit} (hr : RyuSyntax ryu lit) (hP : P.Utf8) {m : Nat} {st : SSt P} {k : Work}
    (h : Accounts μ m (.running st, k)) : Accounts μ m (stepSC ryu st k) := by
  obtain ⟨out, stack, frag, w⟩ := st
  obtain ⟨h1, h2, h3, h4⟩ := h
  simp only at h1 h2 h3 h4
  unfold stepSC
  cases frag with
  | null => apply advanceC_accounts C hP <;> simp [Work.push] <;> omega
  | bool b => cases b <;> apply advanceC_accounts C hP <;> simp [Work.push] <;> omega
  | str s =>
    obtain ⟨k', he, hw, hs⟩ := escapeStrC_work (h4 s rfl) out k
    have hq := quoted_longer s
    simp only [he]
    apply advanceC_accounts C hP <;> (try simp only [List.length_append]) <;> omega
  | u64 n =>
    have := decimal_length_pos n
    apply advanceC_accounts C hP <;> simp only [Work.push, List.length_append] <;> omega
  | i64 n =>
    have := decimalInt_length_pos n
    apply advanceC_accounts C hP <;> simp only [Work.push, List.length_append] <;> omega
  | f64 x =>
    simp only
    split
    · rename_i hx
      have : 0 < (ryu x).length := by rw [hr.text x hx]; exact numlit_pos (hr.wf x hx)
      apply advanceC_accounts C hP <;> simp only [Work.push, List.length_append] <;> omega
    · apply advanceC_accounts C hP <;> simp [Work.push] <;> omega
  | seq q =>
    simp only
    have hn := C.seqNext q w
    rcases hh : P.seqNext q w with ⟨_ | _ | s, w'⟩ <;> rw [hh] at hn <;> simp only at hn ⊢
    · have hd := C.dropSeq q w'
      have := dropLayers_calls C stack (P.dropSeq q w')
      simp only [Accounts, Work.tick, Work.push] at *
      omega
    · have hd := C.dropSeq q w'
      apply advanceC_accounts C hP <;> simp only [Work.tick, Work.push, List.length_append, List.length_cons, List.length_nil] <;> omega
    · apply beginWithC_accounts C hP <;> simp only [Work.tick, Work.push, List.length_append, List.length_cons, List.length_nil] <;> omega
  | map q =>
    simp only
    have hn := C.mapNext q w
    rcases hh : P.mapNext q w with ⟨_ | _ | ⟨key, s⟩, w'⟩ <;> rw [hh] at hn <;> simp only at hn ⊢
    · have hd := C.dropMap q w'
      have := dropLayers_calls C stack (P.dropMap q w')
      simp only [Accounts, Work.tick, Work.push] at *
      omega
    · have hd := C.dropMap q w'
      apply advanceC_accounts C hP <;> simp only [Work.tick, Work.push, List.length_append, List.length_cons, List.length_nil] <;> omega
    · obtain ⟨k', he, hw, hs⟩ := escapeStrC_work (hP.key _ _ _ _ _ hh) (out ++ [b('{')]) ((k.push 1).tick 1)
      have hq := quoted_longer key
      simp only [he]
      simp only [Work.tick, Work.push] at hw hs
      apply beginWithC_accounts C hP <;> simp only [Work.push, Work.tick, List.length_append, List.length_cons, List.length_nil] <;> omega

theorem runSC_accounts {ryu : F64 → Bytes} {lit : F64 → NumLit} (hr : RyuSyntax ryu lit) (hP : P.Utf8) {m : Nat} :
    ∀ (n : Nat) (x : SExit P × Work), Accounts μ m x → Accounts μ m (runSC ryu n x)
  | 0, _, h => h
  | n + 1, (.running _, _), h => runSC_accounts hr hP n _ (stepSC_accounts C hr hP h)
  | _ + 1, (.finished _ _, _), h => h

theorem toStringC_accounts {ryu : F64 → Bytes} {lit : F64 → NumLit} (hr : RyuSyntax ryu lit) (hP : P.Utf8) (n : Nat) (s : P.S) (w : σ) :
    Accounts μ (μ w) (toStringC P ryu n s w) :=
  runSC_accounts C hr hP n _ (beginWithC_accounts C hP s rfl (Nat.le_refl _) (by simp))

end

/-! ## The exact count -/

section
variable {σ : Type} {P : SProto σ} {ryu : F64 → Bytes} {lit : F64 → NumLit}

theorem runSC_add (a b : Nat) : ∀ x : SExit P × Work, runSC ryu (a + b) x = runSC ryu b (runSC ryu a x) := by
  induction a with
  | zero => intro x; rw [Nat.zero_add]; rfl
  | succ a ih =>
    intro x
    rw [Nat.succ_add]
    obtain ⟨x, k⟩ := x
    cases x with
    | running st => exact ih _
    | finished o w =>
      show (SExit.finished o w, k) = runSC ryu b (SExit.finished o w, k)
      cases b <;> rfl

theorem runSC_begin {s : P.S} {w w₁ : σ} {f : Frag P.Q P.M} (h : P.begin s w = (some f, w₁)) (out : Bytes) (stack : List (SLayer P)) (k : Work) :
    runSC ryu 1 (beginWithC out stack s w k) = stepSC ryu ⟨out, stack, f, w₁⟩ (k.tick 1) := by
  rw [beginWithC, h]; simp only [runSC]

/-- The steps beyond those for the bytes: three per node, two per stream, two per non-empty stream. -/
def FTree.extra (t : FTree) : Nat := t.strBytes + 3 * t.nodes + 2 * t.containers + 2 * t.nonEmpty
def FTree.extraL (ts : List FTree) : Nat := FTree.strBytesL ts + 3 * FTree.nodesL ts + 2 * FTree.containersL ts + 2 * FTree.nonEmptyL ts
def FTree.extraM (ts : List (Bytes × FTree)) : Nat := FTree.strBytesM ts + 3 * FTree.nodesM ts + 2 * FTree.containersM ts + 2 * FTree.nonEmptyM ts

theorem Work.ext' {a b : Work} (h : a.steps = b.steps) (h' : a.written = b.written) : a = b := by
  cases a; cases b; simp only at h h'; rw [h, h']

/-- A leaf. -/
theorem leaf_stepC (hr : RyuSyntax ryu lit) {out : Bytes} {stack : List (SLayer P)} {f : Frag P.Q P.M} {t : FTree} {w : σ} (hl : LeafFrag f t)
    (hv : t.AllStr ValidUtf8) (k : Work) :
    stepSC ryu ⟨out, stack, f, w⟩ k = advanceC (out ++ compact (t.json lit)) stack w ((k.push (compact (t.json lit)).length).tick t.strBytes) := by
  cases hl with
  | null => rfl
  | bool b => cases b <;> rfl
  | str s =>
    obtain ⟨k', he, h1, h2⟩ := escapeStrC_work hv out k
    simp only [stepSC, he, FTree.json, compact, FTree.strBytes]
    congr 1
    apply Work.ext' <;> simp only [Work.push, Work.tick] <;> omega
  | u64 n => simp only [stepSC, FTree.json, compact]; rw [← decimal_text]; rfl
  | i64 z => simp only [stepSC, FTree.json, compact]; rw [← decimalInt_text]; rfl
  | f64 x =>
    simp only [stepSC, FTree.json]
    cases h : x.isFinite with
    | true => simp only [if_true, compact]; rw [hr.text x h]; rfl
    | false => rfl

theorem leaf_extra {f : Frag P.Q P.M} {t : FTree} (hl : LeafFrag f t) : t.extra = t.strBytes + 3 := by cases hl <;> rfl

mutual

theorem Streams.runC (hr : RyuSyntax ryu lit) : ∀ {s : P.S} {w : σ} {t : FTree} {w' : σ}, Streams P s w t w' → t.AllStr ValidUtf8 →
    ∀ (out : Bytes) (stack : List (SLayer P)) (k : Work), ∃ k', k'.written = k.written + (compact (t.json lit)).length ∧
      k'.steps + 2 = k.steps + (compact (t.json lit)).length + t.extra ∧
      runSC ryu t.nodes (beginWithC out stack s w k) = advanceC (out ++ compact (t.json lit)) stack w' k'
  | s, w, t, w', .leaf (f := f) h hl, hv, out, stack, k => by
    rw [leaf_nodes hl, runSC_begin h, leaf_extra hl, leaf_stepC hr hl hv]
    refine ⟨_, ?_, ?_, rfl⟩ <;> simp only [Work.push, Work.tick] <;> omega
  | s, w, _, _, .seq (q := q) h (.nil h2), hv, out, stack, k => by
    rw [show FTree.nodes (.seq []) = 1 by simp [FTree.nodes, FTree.nodesL], runSC_begin h]
    simp only [stepSC, h2, FTree.json, FTree.jsons, compact, compactElems]
    refine ⟨_, ?_, ?_, rfl⟩ <;> simp [Work.push, Work.tick, FTree.extra, FTree.nodes, FTree.strBytes, FTree.containers, FTree.nonEmpty, FTree.nodesL, FTree.strBytesL, FTree.containersL, FTree.nonEmptyL]
  | s, w, _, _, .seq (q := q) h (.cons (t := t) (ts := ts) h2 ht hs), hv, out, stack, k => by
    rw [FTree.nodes, FTree.nodesL]
    rw [show t.nodes + FTree.nodesL ts + 1 = 1 + (t.nodes + FTree.nodesL ts) by omega, runSC_add, runSC_begin h]
    simp only [stepSC, h2]
    obtain ⟨k1, w1, s1, e1⟩ := Streams.runC hr ht hv.1 (out ++ [b('[')]) (.seq q :: stack) ((((k.tick 1).push 1).tick 1).tick 1)
    obtain ⟨k2, w2, s2, e2⟩ := StreamsSeq.runC hr hs hv.2 (out ++ [b('[')] ++ compact (t.json lit)) stack k1
    refine ⟨k2, ?_, ?_, ?_⟩
    · rw [FTree.json, FTree.jsons, compact, compactElems_cons]
      simp [Work.tick, Work.push] at w1 w2 ⊢
      omega
    · rw [FTree.json, FTree.jsons, compact, compactElems_cons]
      simp [Work.tick, Work.push, FTree.extra, FTree.extraL, FTree.nodes, FTree.strBytes, FTree.containers, FTree.nonEmpty, FTree.nodesL, FTree.strBytesL, FTree.containersL, FTree.nonEmptyL] at s1 s2 ⊢
      omega
    · rw [runSC_add, e1, e2]
      rw [FTree.json, FTree.jsons, compact, compactElems_cons]
      simp
  | s, w, _, _, .map (m := m) h (.nil h2), hv, out, stack, k => by
    rw [show FTree.nodes (.map []) = 1 by simp [FTree.nodes, FTree.nodesM], runSC_begin h]
    simp only [stepSC, h2, FTree.json, FTree.jsonMembers, compact, compactMembers]
    refine ⟨_, ?_, ?_, rfl⟩ <;> simp [Work.push, Work.tick, FTree.extra, FTree.nodes, FTree.strBytes, FTree.containers, FTree.nonEmpty, FTree.nodesM, FTree.strBytesM, FTree.containersM, FTree.nonEmptyM]
  | s, w, _, _, .map (m := m) h (.cons (k := key) (t := t) (ts := ts) h2 ht hs), hv, out, stack, k => by
    rw [FTree.nodes, FTree.nodesM]
    rw [show t.nodes + FTree.nodesM ts + 1 = 1 + (t.nodes + FTree.nodesM ts) by omega, runSC_add, runSC_begin h]
    simp only [stepSC, h2]
    obtain ⟨k0, he, w0, s0⟩ := escapeStrC_work hv.1 (out ++ [b('{')]) (((k.tick 1).push 1).tick 1)
    rw [he]
    simp only
    obtain ⟨k1, w1, s1, e1⟩ := Streams.runC hr ht hv.2.1 (out ++ [b('{')] ++ quoted key ++ [b(':')]) (.map m :: stack) ((k0.push 1).tick 1)
    obtain ⟨k2, w2, s2, e2⟩ := StreamsMap.runC hr hs hv.2.2 (out ++ [b('{')] ++ quoted key ++ [b(':')] ++ compact (t.json lit)) stack k1
    refine ⟨k2, ?_, ?_, ?_⟩
    · rw [FTree.json, FTree.jsonMembers, compact, compactMembers_cons]
      simp [Work.tick, Work.push] at w0 w1 w2 ⊢
      omega
    · rw [FTree.json, FTree.jsonMembers, compact, compactMembers_cons]
      simp [Work.tick, Work.push, FTree.extra, FTree.extraM, FTree.nodes, FTree.strBytes, FTree.containers, FTree.nonEmpty, FTree.nodesM, FTree.strBytesM, FTree.containersM, FTree.nonEmptyM] at s0 s1 s2 ⊢
      omega
    · rw [runSC_add, e1, e2]
      rw [FTree.json, FTree.jsonMembers, compact, compactMembers_cons]
      simp

theorem StreamsSeq.runC (hr : RyuSyntax ryu lit) : ∀ {q : P.Q} {w : σ} {ts : List FTree} {w' : σ}, StreamsSeq P q w ts w' →
    FTree.AllStrs ValidUtf8 ts → ∀ (out : Bytes) (stack : List (SLayer P)) (k : Work),
      ∃ k', k'.written = k.written + (tailElems (FTree.jsons lit ts)).length + 1 ∧
      k'.steps = k.steps + (tailElems (FTree.jsons lit ts)).length + FTree.extraL ts + 5 ∧
      runSC ryu (FTree.nodesL ts) (advanceC out (.seq q :: stack) w k) =
        advanceC (out ++ (tailElems (FTree.jsons lit ts) ++ [0x5D])) stack (P.dropSeq q w') k'
  | q, w, _, _, .nil h, hv, out, stack, k => by
    rw [advanceC, h]
    refine ⟨_, ?_, ?_, rfl⟩ <;> simp [Work.push, Work.tick, FTree.extraL, FTree.nodesL, FTree.strBytesL, FTree.containersL, FTree.nonEmptyL, FTree.jsons, tailElems]
  | q, w, _, _, .cons (t := t) (ts := ts) h ht hs, hv, out, stack, k => by
    rw [advanceC, h, FTree.nodesL]
    simp only
    obtain ⟨k1, w1, s1, e1⟩ := Streams.runC hr ht hv.1 (out ++ [b(',')]) (.seq q :: stack) ((k.tick 2).push 1)
    obtain ⟨k2, w2, s2, e2⟩ := StreamsSeq.runC hr hs hv.2 (out ++ [b(',')] ++ compact (t.json lit)) stack k1
    refine ⟨k2, ?_, ?_, ?_⟩
    · rw [FTree.jsons, tailElems]
      simp [Work.tick, Work.push] at w1 w2 ⊢
      omega
    · rw [FTree.jsons, tailElems]
      simp [Work.tick, Work.push, FTree.extra, FTree.extraL, FTree.nodesL, FTree.strBytesL, FTree.containersL, FTree.nonEmptyL] at s1 s2 ⊢
      omega
    · rw [runSC_add, e1, e2, FTree.jsons, tailElems]
      simp

theorem StreamsMap.runC (hr : RyuSyntax ryu lit) : ∀ {q : P.M} {w : σ} {ts : List (Bytes × FTree)} {w' : σ}, StreamsMap P q w ts w' →
    FTree.AllStrMembers ValidUtf8 ts → ∀ (out : Bytes) (stack : List (SLayer P)) (k : Work),
      ∃ k', k'.written = k.written + (tailMembers (FTree.jsonMembers lit ts)).length + 1 ∧
      k'.steps = k.steps + (tailMembers (FTree.jsonMembers lit ts)).length + FTree.extraM ts + 5 ∧
      runSC ryu (FTree.nodesM ts) (advanceC out (.map q :: stack) w k) =
        advanceC (out ++ (tailMembers (FTree.jsonMembers lit ts) ++ [0x7D])) stack (P.dropMap q w') k'
  | q, w, _, _, .nil h, hv, out, stack, k => by
    rw [advanceC, h]
    refine ⟨_, ?_, ?_, rfl⟩ <;> simp [Work.push, Work.tick, FTree.extraM, FTree.nodesM, FTree.strBytesM, FTree.containersM, FTree.nonEmptyM, FTree.jsonMembers, tailMembers]
  | q, w, _, _, .cons (k := key) (t := t) (ts := ts) h ht hs, hv, out, stack, k => by
    rw [advanceC, h, FTree.nodesM]
    simp only
    obtain ⟨k0, he, w0, s0⟩ := escapeStrC_work hv.1 (out ++ [b(',')]) ((k.tick 2).push 1)
    rw [he]
    simp only
    obtain ⟨k1, w1, s1, e1⟩ := Streams.runC hr ht hv.2.1 (out ++ [b(',')] ++ quoted key ++ [b(':')]) (.map q :: stack) (k0.push 1)
    obtain ⟨k2, w2, s2, e2⟩ := StreamsMap.runC hr hs hv.2.2 (out ++ [b(',')] ++ quoted key ++ [b(':')] ++ compact (t.json lit)) stack k1
    refine ⟨k2, ?_, ?_, ?_⟩
    · rw [FTree.jsonMembers, tailMembers]
      simp [Work.tick, Work.push] at w0 w1 w2 ⊢
      omega
    · rw [FTree.jsonMembers, tailMembers]
      simp [Work.tick, Work.push, FTree.extra, FTree.extraM, FTree.nodesM, FTree.strBytesM, FTree.containersM, FTree.nonEmptyM] at s0 s1 s2 ⊢
      omega
    · rw [runSC_add, e1, e2, FTree.jsonMembers, tailMembers]
      simp

end

/-- The whole run. -/
theorem toStringC_streams (hr : RyuSyntax ryu lit) {s : P.S} {w : σ} {t : FTree} {w' : σ} (h : Streams P s w t w')
    (hv : t.AllStr ValidUtf8) : ∃ k, toStringC P ryu t.nodes s w = (.finished (some (compact (t.json lit))) w', k) ∧ k.written = (compact (t.json lit)).length ∧
      k.steps + 1 = (compact (t.json lit)).length + t.strBytes + 3 * t.nodes + 2 * t.containers + 2 * t.nonEmpty := by
  obtain ⟨k', h1, h2, h3⟩ := h.runC hr hv [] [] {}
  refine ⟨k'.tick 1, ?_, ?_, ?_⟩
  · rw [toStringC, h3, advanceC, List.nil_append]
  · simpa [Work.tick] using h1
  · simp only [Work.tick, FTree.extra] at *
    omega

end

end Miniserde
