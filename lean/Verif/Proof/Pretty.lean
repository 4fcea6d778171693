import Verif.Model.Pretty
import Verif.Spec.Pretty

/-!
# Nested `PadAdapter`s indent every line
-/

namespace Miniserde

/-- What `n` nested adapters do to the text, byte by byte: `p` is whether a line starts here, and the output. -/
def emit (n : Nat) (p : Bool × Bytes) : Bytes → Bool × Bytes
  | [] => p
  | c :: x => emit n (c == 0x0A, p.2 ++ (if p.1 then indent n else []) ++ [c]) x

theorem emit_append (n : Nat) : ∀ (x y : Bytes) (p : Bool × Bytes), emit n p (x ++ y) = emit n (emit n p x) y
  | [], _, _ => rfl
  | c :: x, y, p => by
    rw [List.cons_append, emit, emit]
    exact emit_append n x y _

/-- A text within a line. -/
theorem emit_inner (n : Nat) : ∀ (x : Bytes) (o : Bytes), (0x0A : UInt8) ∉ x → emit n (false, o) x = (false, o ++ x)
  | [], o, _ => by rw [emit, List.append_nil]
  | c :: x, o, h => by
    have hc : (c == 0x0A) = false := by
      rw [beq_eq_false_iff_ne]; rintro rfl; exact h List.mem_cons_self
    rw [emit, hc, emit_inner n x _ fun hm => h (List.mem_cons_of_mem _ hm)]
    simp

theorem emit_line (n : Nat) (x : Bytes) (b : Bool) (o : Bytes) (hx : x ≠ []) (h : (0x0A : UInt8) ∉ x) :
    emit n (b, o) x = (false, o ++ (if b then indent n else []) ++ x) := by
  cases x with
  | nil => exact absurd rfl hx
  | cons c x =>
    have hc : (c == 0x0A) = false := by
      rw [beq_eq_false_iff_ne]; rintro rfl; exact h List.mem_cons_self
    rw [emit, hc, emit_inner n x _ fun hm => h (List.mem_cons_of_mem _ hm)]
    simp

/-- A writer that indents by `n` levels: `V s b o` says that in state `s` the output is `o` and `b` is whether a line starts. -/
structure Indents {σ : Type} (n : Nat) (w : σ → Bytes → σ) (V : σ → Bool → Bytes → Prop) : Prop where
  write : ∀ s b o x, V s b o → V (w s x) (emit n (b, o) x).1 (emit n (b, o) x).2

theorem Indents.eq {σ : Type} {n : Nat} {w : σ → Bytes → σ} {V : σ → Bool → Bytes → Prop} (h : Indents n w V) {s b o x b' o'} (hv : V s b o)
    (e : emit n (b, o) x = (b', o')) : V (w s x) b' o' := by
  have := h.write s b o x hv
  rw [e] at this
  exact this

/-- Writing to a string does not indent. -/
theorem indents_string : Indents 0 (fun (s x : Bytes) => s ++ x) (fun s _ o => s = o) where
  write s b o x h := by
    subst h
    have : ∀ (x : Bytes) (p : Bool × Bytes), (emit 0 p x).2 = p.2 ++ x := by
      intro x
      induction x with
      | nil => intro p; simp [emit]
      | cons c x ih => intro p; rw [emit, ih]; cases p.1 <;> simp [indent]
    rw [this]

theorem splitNl_cons (c : UInt8) (s : Bytes) : splitNl (c :: s) = if c = 0x0A then [c] :: splitNl s
    else match splitNl s with
      | [] => [[c]]
      | p :: ps => (c :: p) :: ps := by rw [splitNl]; cases splitNl s <;> rfl

/-- The pieces: no newline but at the end. -/
theorem splitNl_spec : ∀ s : Bytes, (splitNl s).flatten = s ∧
    ∀ p ∈ splitNl s, (∃ q, (0x0A : UInt8) ∉ q ∧ p = q ++ [0x0A]) ∨ (p ≠ [] ∧ (0x0A : UInt8) ∉ p)
  | [] => by simp [splitNl]
  | c :: s => by
    obtain ⟨h1, h2⟩ := splitNl_spec s
    rw [splitNl_cons]
    split
    · rename_i hc
      subst hc
      refine ⟨by simp [h1], ?_⟩
      intro p hp
      rcases List.mem_cons.1 hp with rfl | hp
      · exact .inl ⟨[], by simp, rfl⟩
      · exact h2 p hp
    · rename_i hc
      have hc' : (0x0A : UInt8) ≠ c := fun e => hc e.symm
      rcases hs : splitNl s with _ | ⟨p, ps⟩
      · rw [hs] at h1
        simp only [List.flatten_nil] at h1
        subst h1
        refine ⟨by simp, ?_⟩
        intro p hp
        cases List.mem_singleton.1 hp
        exact .inr ⟨by simp, by simpa using hc'⟩
      · rw [hs] at h1 h2
        simp only
        refine ⟨by simpa using h1, ?_⟩
        intro q hq
        rcases List.mem_cons.1 hq with rfl | hq
        · rcases h2 p List.mem_cons_self with ⟨q, h3, rfl⟩ | ⟨h3, h4⟩
          · exact .inl ⟨c :: q, by simp [hc', h3], rfl⟩
          · exact .inr ⟨by simp, by simp [hc', h4]⟩
        · exact h2 q (List.mem_cons_of_mem _ hq)

theorem indent_spaces (n : Nat) : (0x0A : UInt8) ∉ indent n := by
  intro h
  have := List.eq_of_mem_replicate h
  cases this

theorem indent_succ (n : Nat) : indent (n + 1) = indent n ++ str! "    " := by
  unfold indent
  rw [Nat.mul_add, ← List.replicate_append_replicate]
  rfl

theorem emit_nl (n : Nat) (q : Bytes) (b : Bool) (o : Bytes) (h : (0x0A : UInt8) ∉ q) :
    emit n (b, o) (q ++ [0x0A]) = (true, o ++ (if b then indent n else []) ++ q ++ [0x0A]) := by
  rw [emit_append]
  cases q with
  | nil => cases b <;> simp [emit]
  | cons c q =>
    rw [emit_line n (c :: q) b o (by simp) h]
    simp [emit]

/-- One more level. -/
theorem Indents.pad {σ : Type} {n : Nat} {w : σ → Bytes → σ} {V : σ → Bool → Bytes → Prop} (h : Indents n w V) :
    Indents (n + 1) (padWrite w) (fun st b o => st.1 = b ∧ V st.2 b o) where
  write st b o x hv := by
    obtain ⟨e1, e2⟩ := splitNl_spec x
    rw [padWrite]
    generalize splitNl x = ps at e1 e2 ⊢
    subst e1
    induction ps generalizing st b o with
    | nil => simpa [emit] using hv
    | cons p ps ih =>
      rw [List.foldl_cons, List.flatten_cons, emit_append]
      have key : (padPiece w st p).1 = (emit (n + 1) (b, o) p).1 ∧ V (padPiece w st p).2 (emit (n + 1) (b, o) p).1 (emit (n + 1) (b, o) p).2 := by
        obtain ⟨rfl, hv⟩ := hv
        have hind : V (if st.1 then w st.2 (str! "    ") else st.2) false (o ++ if st.1 then indent (n + 1) else []) := by
          cases hb : st.1 with
          | true =>
            rw [hb] at hv
            refine h.eq (s := st.2) hv ?_
            rw [emit_line n _ _ _ (by simp) (by decide)]
            simp [indent_succ]
          | false =>
            rw [hb] at hv
            simpa using hv
        rcases e2 p List.mem_cons_self with ⟨q, h3, rfl⟩ | ⟨h3, h4⟩
        · rw [emit_nl _ _ _ _ h3]
          refine ⟨by simp [padPiece], ?_⟩
          refine h.eq hind ?_
          rw [emit_nl _ _ _ _ h3]
          simp
        · rw [emit_line _ _ _ _ h3 h4]
          refine ⟨?_, ?_⟩
          · simp only [padPiece, beq_eq_false_iff_ne]
            intro e
            exact h4 (List.mem_of_getLast? e)
          · refine h.eq hind ?_
            rw [emit_line _ _ _ _ h3 h4]
            simp
      have := ih (padPiece w st p) _ _ key fun q hq => e2 q (List.mem_cons_of_mem _ hq)
      simpa using this

/-- Several writes. -/
theorem Indents.writes {σ : Type} {n : Nat} {w : σ → Bytes → σ} {V : σ → Bool → Bytes → Prop} (h : Indents n w V) : ∀ (xs : List Bytes) (s b o),
    V s b o → V (xs.foldl w s) (emit n (b, o) xs.flatten).1 (emit n (b, o) xs.flatten).2
  | [], s, b, o, hv => by simpa [emit] using hv
  | x :: xs, s, b, o, hv => by
    rw [List.foldl_cons, List.flatten_cons, emit_append]
    exact h.writes xs _ _ _ (h.write s b o x hv)

/-! ## The text -/

section
variable (ryu : F64 → Bytes) (d : Bytes → Bytes)

mutual

/-- The text of a value at level `n`. -/
def prettyValue : Nat → Val → Bytes
  | n, .seq (v :: vs) => str! "Array [\n" ++ prettyItems (n + 1) (v :: vs) ++ indent n ++ str! "]"
  | n, .map (m :: ms) => str! "Object {\n" ++ prettyMembers (n + 1) (m :: ms) ++ indent n ++ str! "}"
  | _, v => debugValue ryu d v

/-- The lines of an array. -/
def prettyItems : Nat → List Val → Bytes
  | _, [] => []
  | n, v :: vs => indent n ++ prettyValue n v ++ str! ",\n" ++ prettyItems n vs

/-- The lines of an object. -/
def prettyMembers : Nat → List (Bytes × Val) → Bytes
  | _, [] => []
  | n, (k, v) :: ms => indent n ++ d k ++ str! ": " ++ prettyValue n v ++ str! ",\n" ++ prettyMembers n ms

end
end

section
variable {ryu : F64 → Bytes} {strWrites : Bytes → List Bytes}

mutual

/-- `v` is made of the six kinds of `Value` and its numbers are written on one line. -/
inductive Lines (ryu : F64 → Bytes) : Val → Prop
  | null : Lines ryu .null
  | bool (b) : Lines ryu (.bool b)
  | numU {n} (h : (0x0A : UInt8) ∉ displayNumber ryu (.numU n)) : Lines ryu (.numU n)
  | numI {n} (h : (0x0A : UInt8) ∉ displayNumber ryu (.numI n)) : Lines ryu (.numI n)
  | numF {n} (h : (0x0A : UInt8) ∉ displayNumber ryu (.numF n)) : Lines ryu (.numF n)
  | str (s) : Lines ryu (.str s)
  | seq {vs} (h : LinesL ryu vs) : Lines ryu (.seq vs)
  | map {ms} (h : LinesM ryu ms) : Lines ryu (.map ms)

/-- All elements. -/
inductive LinesL (ryu : F64 → Bytes) : List Val → Prop
  | nil : LinesL ryu []
  | cons {v vs} (h : Lines ryu v) (hs : LinesL ryu vs) : LinesL ryu (v :: vs)

/-- All members. -/
inductive LinesM (ryu : F64 → Bytes) : List (Bytes × Val) → Prop
  | nil : LinesM ryu []
  | cons {k v ms} (h : Lines ryu v) (hs : LinesM ryu ms) : LinesM ryu ((k, v) :: ms)

end

/-- A wrapped scalar. -/
theorem Indents.wrap {σ : Type} {n : Nat} {w : σ → Bytes → σ} {V : σ → Bool → Bytes → Prop} (h : Indents n w V) {a x : Bytes} (xs : List Bytes)
    (hx : xs.flatten = x) (ha : a ≠ []) (ha' : (0x0A : UInt8) ∉ a) (hx' : (0x0A : UInt8) ∉ x) {s b o} (hv : V s b o) :
    V (w (xs.foldl w (w s a)) (str! ")")) false (o ++ (if b then indent n else []) ++ (a ++ x ++ str! ")")) := by
  have h1 := h.eq hv (emit_line n a b o ha ha')
  have h2 := h.writes xs _ _ _ h1
  rw [hx, emit_inner n _ _ hx'] at h2
  have h3 := h.eq h2 (emit_inner n (str! ")") _ (by decide))
  simpa using h3

mutual

theorem fmtValue_pretty (hq : ∀ s, (0x0A : UInt8) ∉ (strWrites s).flatten) (hn : ∀ s, (strWrites s).flatten ≠ []) :
    ∀ (v : Val) {σ : Type} {n : Nat} {w : σ → Bytes → σ} {V : σ → Bool → Bytes → Prop},
    Indents n w V → ∀ (s : σ) (b : Bool) (o : Bytes), Lines ryu v → V s b o →
    V (fmtValue ryu strWrites true v w s) false (o ++ (if b then indent n else []) ++ prettyValue ryu (fun s => (strWrites s).flatten) n v)
  | .null, σ, n, w, V, h, s, b, o, _, hv => by
    simp only [fmtValue, prettyValue, debugValue]
    exact h.eq hv (emit_line n _ b o (by simp) (by decide))
  | .bool x, σ, n, w, V, h, s, b, o, _, hv => by
    simp only [fmtValue, prettyValue, debugValue]
    exact h.wrap [if x then str! "true" else str! "false"] (by simp) (by simp) (by decide) (by cases x <;> decide) hv
  | .numU x, σ, n, w, V, h, s, b, o, hl, hv => by
    simp only [fmtValue, prettyValue, debugValue]
    cases hl with
    | numU hl => exact h.wrap [displayNumber ryu (.numU x)] (by simp) (by simp) (by decide) hl hv
  | .numI x, σ, n, w, V, h, s, b, o, hl, hv => by
    simp only [fmtValue, prettyValue, debugValue]
    cases hl with
    | numI hl => exact h.wrap [displayNumber ryu (.numI x)] (by simp) (by simp) (by decide) hl hv
  | .numF x, σ, n, w, V, h, s, b, o, hl, hv => by
    simp only [fmtValue, prettyValue, debugValue]
    cases hl with
    | numF hl => exact h.wrap [displayNumber ryu (.numF x)] (by simp) (by simp) (by decide) hl hv
  | .str x, σ, n, w, V, h, s, b, o, _, hv => by
    simp only [fmtValue, prettyValue, debugValue]
    exact h.wrap (strWrites x) rfl (by simp) (by decide) (hq x) hv
  | .seq vs, σ, n, w, V, h, s, b, o, hl, hv => by
    rw [fmtValue]
    have h1 := h.eq hv (emit_line n (str! "Array ") b o (by simp) (by decide))
    have h2 := h.eq h1 (emit_inner n (str! "[") _ (by decide))
    cases hl with
    | seq hl =>
    cases hl with
    | nil =>
      rw [fmtEntries]
      have h3 := h.eq h2 (emit_inner n (str! "]") _ (by decide))
      simpa [prettyValue, debugValue, debugList] using h3
    | @cons v vs hl hls =>
      have h3 := fmtEntries_pretty hq hn (v :: vs) h false _ _ (.cons hl hls) (by simp) h2
      have h4 := h.eq h3 (emit_line n (str! "]") true _ (by simp) (by decide))
      simpa [prettyValue] using h4
  | .map ms, σ, n, w, V, h, s, b, o, hl, hv => by
    rw [fmtValue]
    have h1 := h.eq hv (emit_line n (str! "Object ") b o (by simp) (by decide))
    have h2 := h.eq h1 (emit_inner n (str! "{") _ (by decide))
    cases hl with
    | map hl =>
    cases hl with
    | nil =>
      rw [fmtMembers]
      have h3 := h.eq h2 (emit_inner n (str! "}") _ (by decide))
      simpa [prettyValue, debugValue, debugMap] using h3
    | @cons k v ms hl hls =>
      have h3 := fmtMembers_pretty hq hn ((k, v) :: ms) h false _ _ (.cons hl hls) (by simp) h2
      have h4 := h.eq h3 (emit_line n (str! "}") true _ (by simp) (by decide))
      simpa [prettyValue] using h4
  | .int _, _, _, _, _, _, _, _, _, h, _ => nomatch h
  | .f32 _, _, _, _, _, _, _, _, _, h, _ => nomatch h
  | .f64 _, _, _, _, _, _, _, _, _, h, _ => nomatch h
  | .optNone, _, _, _, _, _, _, _, _, h, _ => nomatch h
  | .optSome _, _, _, _, _, _, _, _, _, h, _ => nomatch h
  | .box _, _, _, _, _, _, _, _, _, h, _ => nomatch h
  | .strct _, _, _, _, _, _, _, _, _, h, _ => nomatch h
  | .enm _, _, _, _, _, _, _, _, _, h, _ => nomatch h

theorem fmtEntries_pretty (hq : ∀ s, (0x0A : UInt8) ∉ (strWrites s).flatten) (hn : ∀ s, (strWrites s).flatten ≠ []) :
    ∀ (vs : List Val) {σ : Type} {n : Nat} {w : σ → Bytes → σ} {V : σ → Bool → Bytes → Prop},
    Indents n w V → ∀ (has : Bool) (s : σ) (o : Bytes), LinesL ryu vs → (vs = [] → has = true) → V s has o →
    V (fmtEntries ryu strWrites true vs has w s) true ((if has then o else o ++ str! "\n") ++
      prettyItems ryu (fun s => (strWrites s).flatten) (n + 1) vs)
  | [], σ, n, w, V, h, has, s, o, _, he, hv => by
    rw [he rfl] at hv ⊢
    simpa [fmtEntries, prettyItems] using hv
  | v :: vs, σ, n, w, V, h, has, s, o, hl, _, hv => by
    cases hl with
    | cons hl hls =>
    rw [fmtEntries]
    simp only [if_true]
    have h1 : V (if has then s else w s (str! "\n")) true (if has then o else o ++ str! "\n") := by
      cases has with
      | true => exact hv
      | false => exact h.eq hv (by simp [emit])
    generalize (if has then s else w s (str! "\n")) = s1 at h1 ⊢
    have h2 := fmtValue_pretty hq hn v h.pad (true, _) true _ hl ⟨rfl, h1⟩
    have h3 := h.pad.eq h2 (emit_nl (n + 1) (str! ",") false _ (by decide))
    have h4 := fmtEntries_pretty hq hn vs h true _ _ hls (fun _ => rfl) h3.2
    rw [prettyItems]
    simpa using h4

theorem fmtMembers_pretty (hq : ∀ s, (0x0A : UInt8) ∉ (strWrites s).flatten) (hn : ∀ s, (strWrites s).flatten ≠ []) :
    ∀ (ms : List (Bytes × Val)) {σ : Type} {n : Nat} {w : σ → Bytes → σ} {V : σ → Bool → Bytes → Prop},
    Indents n w V → ∀ (has : Bool) (s : σ) (o : Bytes), LinesM ryu ms → (ms = [] → has = true) → V s has o →
    V (fmtMembers ryu strWrites true ms has w s) true ((if has then o else o ++ str! "\n") ++
      prettyMembers ryu (fun s => (strWrites s).flatten) (n + 1) ms)
  | [], σ, n, w, V, h, has, s, o, _, he, hv => by
    rw [he rfl] at hv ⊢
    simpa [fmtMembers, prettyMembers] using hv
  | (k, v) :: ms, σ, n, w, V, h, has, s, o, hl, _, hv => by
    cases hl with
    | cons hl hls =>
    rw [fmtMembers]
    simp only [if_true]
    have h1 : V (if has then s else w s (str! "\n")) true (if has then o else o ++ str! "\n") := by
      cases has with
      | true => exact hv
      | false => exact h.eq hv (by simp [emit])
    generalize (if has then s else w s (str! "\n")) = s1 at h1 ⊢
    have h2 := h.pad.writes (strWrites k) (true, _) true _ ⟨rfl, h1⟩
    rw [emit_line (n + 1) _ true _ (hn k) (hq k)] at h2
    have h2' := h.pad.eq h2 (emit_inner (n + 1) (str! ": ") _ (by decide))
    have h2'' := fmtValue_pretty hq hn v h.pad _ false _ hl h2'
    have h3 := h.pad.eq h2'' (emit_nl (n + 1) (str! ",") false _ (by decide))
    have h4 := fmtMembers_pretty hq hn ms h true _ _ hls (fun _ => rfl) h3.2
    rw [prettyMembers]
    simpa using h4

end

/-- `{:#?}` is the indented text. -/
theorem formatDebug_pretty (hq : ∀ s, (0x0A : UInt8) ∉ (strWrites s).flatten) (hn : ∀ s, (strWrites s).flatten ≠ []) {v : Val} (h : Lines ryu v) :
    formatDebug ryu strWrites true v = prettyValue ryu (fun s => (strWrites s).flatten) 0 v := by
  have := fmtValue_pretty (ryu := ryu) hq hn v indents_string [] false [] h rfl
  simpa [formatDebug] using this

/-! ## `{:?}` -/

theorem foldl_append (xs : List Bytes) : ∀ s : Bytes, xs.foldl (fun s x => s ++ x) s = s ++ xs.flatten := by
  induction xs with
  | nil => simp
  | cons x xs ih => intro s; simp [ih]

mutual

theorem fmtValue_plain : ∀ (v : Val) (s : Bytes),
    fmtValue ryu strWrites false v (fun s x => s ++ x) s = s ++ debugValue ryu (fun s => (strWrites s).flatten) v
  | .null, s => by simp [fmtValue, debugValue]
  | .bool x, s => by simp [fmtValue, debugValue]
  | .numU x, s => by simp [fmtValue, debugValue]
  | .numI x, s => by simp [fmtValue, debugValue]
  | .numF x, s => by simp [fmtValue, debugValue]
  | .str x, s => by simp [fmtValue, debugValue, foldl_append]
  | .seq vs, s => by rw [fmtValue, fmtEntries_plain vs false, debugValue]; simp
  | .map ms, s => by rw [fmtValue, fmtMembers_plain ms false, debugValue]; simp
  | .int _, s | .f32 _, s | .f64 _, s | .optNone, s | .optSome _, s | .box _, s | .strct _, s | .enm _, s => by simp [fmtValue, debugValue]

theorem fmtEntries_plain : ∀ (vs : List Val) (has : Bool) (s : Bytes),
    fmtEntries ryu strWrites false vs has (fun s x => s ++ x) s = s ++ debugList ryu (fun s => (strWrites s).flatten) (!has) vs
  | [], has, s => by simp [fmtEntries, debugList]
  | v :: vs, has, s => by
    rw [fmtEntries]
    simp only [Bool.false_eq_true, if_false]
    rw [fmtValue_plain v, fmtEntries_plain vs true, debugList]
    cases has <;> simp

theorem fmtMembers_plain : ∀ (ms : List (Bytes × Val)) (has : Bool) (s : Bytes),
    fmtMembers ryu strWrites false ms has (fun s x => s ++ x) s = s ++ debugMap ryu (fun s => (strWrites s).flatten) (!has) ms
  | [], has, s => by simp [fmtMembers, debugMap]
  | (k, v) :: ms, has, s => by
    rw [fmtMembers]
    simp only [Bool.false_eq_true, if_false]
    rw [foldl_append, fmtValue_plain v, fmtMembers_plain ms true, debugMap]
    cases has <;> simp

end

theorem formatDebug_plain (v : Val) : formatDebug ryu strWrites false v = debugValue ryu (fun s => (strWrites s).flatten) v := by
  simp [formatDebug, fmtValue_plain]

end

end Miniserde
