import Verif.Proof.Pretty
import Verif.Props.Fmt

/-!
# `{:#?}` of values
-/

namespace Miniserde

/-- What is assumed of the `Debug` of `str`: as for `StrDebug`, and all on one line (a newline is written `\n`). -/
structure StrWrites (ws : Bytes → List Bytes) : Prop where
  debug : StrDebug fun s => (ws s).flatten
  line : ∀ s, (0x0A : UInt8) ∉ (ws s).flatten

section
variable {ryu : F64 → Bytes} {lit : F64 → NumLit} {ws : Bytes → List Bytes}

theorem StrWrites.ne (h : StrWrites ws) (s : Bytes) : (ws s).flatten ≠ [] := by
  obtain ⟨r, hr⟩ := h.debug.quote s
  intro e
  rw [e] at hr
  cases hr

theorem digits_no_nl {ds : Bytes} (h : ∀ c ∈ ds, IsDigit c) : (0x0A : UInt8) ∉ ds := fun hm => absurd (h _ hm) (by decide)

theorem text_no_nl {l : NumLit} (h : l.WF) : (0x0A : UInt8) ∉ l.text := by
  obtain ⟨mn, int, fo, xo⟩ := l
  obtain ⟨h1, -, h3, h4⟩ := h
  have e1 := digits_no_nl h1.2
  simp only at e1
  unfold NumLit.text
  simp only [List.mem_append, not_or]
  refine ⟨⟨⟨?_, e1⟩, ?_⟩, ?_⟩
  · cases mn <;> simp
  · cases fo with
    | none => simp
    | some fs =>
      have e2 := digits_no_nl (h3 fs rfl).2
      simpa using e2
  · cases xo with
    | none => simp
    | some x =>
      obtain ⟨u, sg, ds⟩ := x
      have e2 := digits_no_nl (h4 _ rfl).2
      simp only at e2
      cases u <;> rcases sg with _ | _ | _ <;> simpa [ExpPart.text] using e2

theorem display_no_nl (hr : RyuSyntax ryu lit) {E : Env} {a : Val} (ha : HasTy E .number a) : (0x0A : UInt8) ∉ displayNumber ryu a := by
  rcases display_cases hr ha with ⟨n, h1, h2⟩ | ⟨n, h0, h1, h2⟩ | ⟨x, hx, hvx, rfl, h2⟩ | ⟨x, hx, rfl⟩
  · rw [h2]; exact text_no_nl (decimal_wf _ _)
  · rw [h2]; exact text_no_nl (decimal_wf _ _)
  · rw [h2]; exact text_no_nl (hr.wf x hx)
  · cases x with
    | fin => cases hx
    | nan => simp [displayNumber, ryuFormat]
    | inf s => cases s <;> simp [displayNumber, ryuFormat]

mutual

theorem lines_of (hr : RyuSyntax ryu lit) {E : Env} : ∀ v : Val, HasTy E .value v → Lines ryu v
  | .null, _ => .null
  | .bool b, _ => .bool b
  | .str s, _ => .str s
  | .numU n, h => .numU (display_no_nl (E := E) hr (by cases h; exact .numU (.inl rfl) ‹_›))
  | .numI n, h => .numI (display_no_nl (E := E) hr (by cases h; exact .numI (.inl rfl) ‹_›))
  | .numF n, h => .numF (display_no_nl (E := E) hr (by cases h; exact .numF (.inl rfl) ‹_›))
  | .seq vs, h => .seq (linesL_of hr vs (by cases h; assumption))
  | .map ms, h => .map (linesM_of hr ms (by cases h; assumption))

theorem linesL_of (hr : RyuSyntax ryu lit) {E : Env} : ∀ vs : List Val, (∀ v ∈ vs, HasTy E .value v) → LinesL ryu vs
  | [], _ => .nil
  | v :: vs, h => .cons (lines_of hr v (h v List.mem_cons_self)) (linesL_of hr vs fun u hu => h u (List.mem_cons_of_mem _ hu))

theorem linesM_of (hr : RyuSyntax ryu lit) {E : Env} : ∀ ms : List (Bytes × Val), (∀ m ∈ ms, HasTy E .value m.2) → LinesM ryu ms
  | [], _ => .nil
  | (k, v) :: ms, h => .cons (lines_of hr v (h (k, v) List.mem_cons_self)) (linesM_of hr ms fun u hu => h u (List.mem_cons_of_mem _ hu))

end

theorem format_pretty (hw : StrWrites ws) (hr : RyuSyntax ryu lit) {E : Env} {v : Val} (h : HasTy E .value v) :
    formatDebug ryu ws true v = prettyValue ryu (fun s => (ws s).flatten) 0 v :=
  formatDebug_pretty hw.line hw.ne (lines_of hr v h)

/-! ## The text -/

mutual

theorem pretty_text {E : Env} (ryu : F64 → Bytes) (d : Bytes → Bytes) : ∀ (v : Val) (n : Nat), HasTy E .value v →
    PrettyOf (displayNumber ryu) d n v (prettyValue ryu d n v)
  | .seq [], n, h => by simp only [prettyValue]; exact .leaf (debug_text ryu d _ h) (by simp) (by simp)
  | .map [], n, h => by simp only [prettyValue]; exact .leaf (debug_text ryu d _ h) (by simp) (by simp)
  | .seq (v :: vs), n, h => by
    obtain ⟨ts, h1, h2⟩ := pretty_items ryu d (v :: vs) (n + 1) (by cases h; assumption)
    rw [prettyValue, h2]
    exact .arr (by simp) h1
  | .map (m :: ms), n, h => by
    obtain ⟨ts, h1, h2⟩ := pretty_members ryu d (m :: ms) (n + 1) (by cases h; assumption)
    rw [prettyValue, h2]
    exact .obj (by simp) h1
  | .null, n, h | .bool _, n, h | .numU _, n, h | .numI _, n, h | .numF _, n, h | .str _, n, h => by
    simp only [prettyValue]
    exact .leaf (debug_text ryu d _ h) (by simp) (by simp)

theorem pretty_items {E : Env} (ryu : F64 → Bytes) (d : Bytes → Bytes) : ∀ (vs : List Val) (n : Nat), (∀ v ∈ vs, HasTy E .value v) →
    ∃ ts, PrettyItems (displayNumber ryu) d n vs ts ∧ prettyItems ryu d n vs = onLines n ts
  | [], n, _ => ⟨[], .nil, by rw [prettyItems]; rfl⟩
  | v :: vs, n, h => by
    obtain ⟨ts, h1, h2⟩ := pretty_items ryu d vs n fun u hu => h u (List.mem_cons_of_mem _ hu)
    refine ⟨_, .cons (pretty_text ryu d v n (h v List.mem_cons_self)) h1, ?_⟩
    rw [prettyItems, h2]
    simp [onLines]

theorem pretty_members {E : Env} (ryu : F64 → Bytes) (d : Bytes → Bytes) : ∀ (ms : List (Bytes × Val)) (n : Nat), (∀ m ∈ ms, HasTy E .value m.2) →
    ∃ ts, PrettyMembers (displayNumber ryu) d n ms ts ∧ prettyMembers ryu d n ms = onLines n ts
  | [], n, _ => ⟨[], .nil, by rw [prettyMembers]; rfl⟩
  | (k, v) :: ms, n, h => by
    obtain ⟨ts, h1, h2⟩ := pretty_members ryu d ms n fun u hu => h u (List.mem_cons_of_mem _ hu)
    refine ⟨_, .cons (pretty_text ryu d v n (h (k, v) List.mem_cons_self)) h1, ?_⟩
    rw [prettyMembers, h2]
    simp [onLines]

end

/-- **C75.** `format!("{:#?}", v)` puts each entry of a container on a line of its own, indented by four spaces per level, with a comma after it. -/
theorem C75_pretty (hw : StrWrites ws) (hr : RyuSyntax ryu lit) {E : Env} {v : Val} (h : HasTy E .value v) :
    PrettyOf (displayNumber ryu) (fun s => (ws s).flatten) 0 v (formatDebug ryu ws true v) := by
  rw [format_pretty hw hr h]
  exact pretty_text ryu _ v 0 h

/-- **C75.** `format!("{:?}", v)` puts everything on one line. -/
theorem C75_plain {E : Env} {v : Val} (h : HasTy E .value v) :
    DebugOf (displayNumber ryu) (fun s => (ws s).flatten) v (formatDebug ryu ws false v) := by
  rw [formatDebug_plain]
  exact debug_text ryu _ v h

/-! ## The text determines the value -/

/-- Is the value no container, or an empty one? -/
def Val.isLeaf : Val → Bool
  | .seq (_ :: _) | .map (_ :: _) => false
  | _ => true

theorem pretty_leaf {d : Bytes → Bytes} {n : Nat} : ∀ {v : Val}, v.isLeaf = true → prettyValue ryu d n v = debugValue ryu d v
  | .seq [], _ | .map [], _ => by simp only [prettyValue]
  | .null, _ | .bool _, _ | .numU _, _ | .numI _, _ | .numF _, _ | .str _, _ => by simp only [prettyValue]
  | .int _, _ | .f32 _, _ | .f64 _, _ | .optNone, _ | .optSome _, _ | .box _, _ | .strct _, _ | .enm _, _ => by simp only [prettyValue]

theorem leaf_not_array {d : Bytes → Bytes} {E : Env} {v : Val} (h : HasTy E .value v) (hl : v.isLeaf = true) (r r' : Bytes) :
    debugValue ryu d v ++ r ≠ (str! "Array [\n") ++ r' := by
  intro e
  rcases value_cases (ryu := ryu) h with rfl | ⟨b, rfl⟩ | ⟨s, rfl, -⟩ | ⟨-, hd⟩ | ⟨vs, rfl, -⟩ | ⟨ms, rfl, -⟩
  · simp [debugValue] at e
  · simp [debugValue] at e
  · simp [debugValue] at e
  · rw [hd] at e; simp at e
  · cases vs with
    | nil => simp [debugValue, debugList] at e
    | cons => cases hl
  · simp [debugValue] at e

theorem leaf_not_object {d : Bytes → Bytes} {E : Env} {v : Val} (h : HasTy E .value v) (hl : v.isLeaf = true) (r r' : Bytes) :
    debugValue ryu d v ++ r ≠ (str! "Object {\n") ++ r' := by
  intro e
  rcases value_cases (ryu := ryu) h with rfl | ⟨b, rfl⟩ | ⟨s, rfl, -⟩ | ⟨-, hd⟩ | ⟨vs, rfl, -⟩ | ⟨ms, rfl, -⟩
  · simp [debugValue] at e
  · simp [debugValue] at e
  · simp [debugValue] at e
  · rw [hd] at e; simp at e
  · simp [debugValue] at e
  · cases ms with
    | nil => simp [debugValue, debugMap] at e
    | cons => cases hl

/-- A leaf is not mistaken for anything else. -/
theorem pretty_leaf_delimited {d : Bytes → Bytes} {E : Env} (hd : StrDebug d) (hr : RyuSyntax ryu lit) (hl : RyuRounds lit) {n : Nat} :
    ∀ {v v' : Val} {r r' : Bytes}, HasTy E .value v → HasTy E .value v' → v.isLeaf = true →
    prettyValue ryu d n v ++ r = prettyValue ryu d n v' ++ r' → v.canon = v'.canon ∧ r = r' := by
  intro v v' r r' h h' hv e
  rw [pretty_leaf hv] at e
  cases hv' : v'.isLeaf with
  | true =>
    rw [pretty_leaf hv'] at e
    exact debug_delimited hd hr hl v v' r r' h h' e
  | false =>
    match v', hv' with
    | .seq (w :: ws), _ =>
      rw [prettyValue] at e
      exact absurd (e.trans (by simp only [List.append_assoc]; rfl)) (leaf_not_array h hv r _)
    | .map (w :: ws), _ =>
      rw [prettyValue] at e
      exact absurd (e.trans (by simp only [List.append_assoc]; rfl)) (leaf_not_object h hv r _)

theorem hasTy_seq {E : Env} {vs : List Val} (h : HasTy E .value (.seq vs)) : ∀ v ∈ vs, HasTy E .value v := by
  cases h; assumption

theorem hasTy_map {E : Env} {ms : List (Bytes × Val)} (h : HasTy E .value (.map ms)) : ∀ m ∈ ms, ValidUtf8 m.1 ∧ HasTy E .value m.2 := by
  rcases value_cases (ryu := fun _ => []) h with h | ⟨b, h⟩ | ⟨s, h, -⟩ | ⟨h, -⟩ | ⟨vs', h, -⟩ | ⟨ms, h, g⟩ <;> cases h
  · exact fun v hv => by rename_i ht _ _ _; rcases ht with e | e <;> cases e
  · exact g

mutual

theorem pretty_delimited {d : Bytes → Bytes} {E : Env} (hd : StrDebug d) (hr : RyuSyntax ryu lit) (hl : RyuRounds lit) :
    ∀ (v v' : Val) (n : Nat) (r r' : Bytes), HasTy E .value v → HasTy E .value v' →
    prettyValue ryu d n v ++ r = prettyValue ryu d n v' ++ r' → v.canon = v'.canon ∧ r = r'
  | .seq (v :: vs), v', n, r, r', h, h', e => by
    cases hv' : v'.isLeaf with
    | true =>
      obtain ⟨h1, h2⟩ := pretty_leaf_delimited hd hr hl h' h hv' e.symm
      exact ⟨h1.symm, h2.symm⟩
    | false =>
      match v', hv', e, h' with
      | .seq (w :: ws), _, e, h' =>
        simp only [prettyValue, List.append_assoc, List.cons_append, List.nil_append, List.cons.injEq, true_and] at e
        obtain ⟨h1, h2⟩ := prettyItems_delimited hd hr hl (v :: vs) (w :: ws) n r r' (hasTy_seq h) (hasTy_seq h') e
        exact ⟨by simp only [Val.canon, h1], h2⟩
      | .map (w :: ws), _, e, _ => simp [prettyValue] at e
  | .map (m :: ms), v', n, r, r', h, h', e => by
    cases hv' : v'.isLeaf with
    | true =>
      obtain ⟨h1, h2⟩ := pretty_leaf_delimited hd hr hl h' h hv' e.symm
      exact ⟨h1.symm, h2.symm⟩
    | false =>
      match v', hv', e, h' with
      | .map (w :: ws), _, e, h' =>
        simp only [prettyValue, List.append_assoc, List.cons_append, List.nil_append, List.cons.injEq, true_and] at e
        obtain ⟨h1, h2⟩ := prettyMembers_delimited hd hr hl (m :: ms) (w :: ws) n r r' (hasTy_map h) (hasTy_map h') e
        exact ⟨by simp only [Val.canon, h1], h2⟩
      | .seq (w :: ws), _, e, _ => simp [prettyValue] at e
  | .seq [], v', n, r, r', h, h', e => pretty_leaf_delimited hd hr hl h h' rfl e
  | .map [], v', n, r, r', h, h', e => pretty_leaf_delimited hd hr hl h h' rfl e
  | .null, v', n, r, r', h, h', e => pretty_leaf_delimited hd hr hl h h' rfl e
  | .bool _, v', n, r, r', h, h', e => pretty_leaf_delimited hd hr hl h h' rfl e
  | .numU _, v', n, r, r', h, h', e => pretty_leaf_delimited hd hr hl h h' rfl e
  | .numI _, v', n, r, r', h, h', e => pretty_leaf_delimited hd hr hl h h' rfl e
  | .numF _, v', n, r, r', h, h', e => pretty_leaf_delimited hd hr hl h h' rfl e
  | .str _, v', n, r, r', h, h', e => pretty_leaf_delimited hd hr hl h h' rfl e

theorem prettyItems_delimited {d : Bytes → Bytes} {E : Env} (hd : StrDebug d) (hr : RyuSyntax ryu lit) (hl : RyuRounds lit) :
    ∀ (vs vs' : List Val) (n : Nat) (r r' : Bytes), (∀ v ∈ vs, HasTy E .value v) → (∀ v ∈ vs', HasTy E .value v) →
    prettyItems ryu d (n + 1) vs ++ (indent n ++ 0x5D :: r) = prettyItems ryu d (n + 1) vs' ++ (indent n ++ 0x5D :: r') →
    canons vs = canons vs' ∧ r = r'
  | [], [], n, r, r', _, _, e => by
    simp only [prettyItems, List.nil_append, List.append_cancel_left_eq, List.cons.injEq, true_and] at e
    exact ⟨rfl, e⟩
  | [], v' :: vs', n, r, r', _, h', e => by
    simp [prettyItems, indent_succ] at e
  | v :: vs, [], n, r, r', _, h', e => by
    simp [prettyItems, indent_succ] at e
  | v :: vs, v' :: vs', n, r, r', h, h', e => by
    simp only [prettyItems, List.append_assoc, List.append_cancel_left_eq] at e
    obtain ⟨h1, h2⟩ := pretty_delimited hd hr hl v v' (n + 1) _ _ (h v List.mem_cons_self) (h' v' List.mem_cons_self) e
    simp only [List.cons_append, List.nil_append, List.cons.injEq, true_and] at h2
    obtain ⟨h3, h4⟩ := prettyItems_delimited hd hr hl vs vs' n r r' (fun v hv => h v (List.mem_cons_of_mem _ hv))
      (fun v hv => h' v (List.mem_cons_of_mem _ hv)) h2
    exact ⟨by simp only [canons, h1, h3], h4⟩

theorem prettyMembers_delimited {d : Bytes → Bytes} {E : Env} (hd : StrDebug d) (hr : RyuSyntax ryu lit) (hl : RyuRounds lit) :
    ∀ (ms ms' : List (Bytes × Val)) (n : Nat) (r r' : Bytes), (∀ m ∈ ms, ValidUtf8 m.1 ∧ HasTy E .value m.2) →
    (∀ m ∈ ms', ValidUtf8 m.1 ∧ HasTy E .value m.2) →
    prettyMembers ryu d (n + 1) ms ++ (indent n ++ 0x7D :: r) = prettyMembers ryu d (n + 1) ms' ++ (indent n ++ 0x7D :: r') →
    canonMembers ms = canonMembers ms' ∧ r = r'
  | [], [], n, r, r', _, _, e => by
    simp only [prettyMembers, List.nil_append, List.append_cancel_left_eq, List.cons.injEq, true_and] at e
    exact ⟨rfl, e⟩
  | [], (k', v') :: ms', n, r, r', _, h', e => by
    simp [prettyMembers, indent_succ] at e
  | (k, v) :: ms, [], n, r, r', _, h', e => by
    simp [prettyMembers, indent_succ] at e
  | (k, v) :: ms, (k', v') :: ms', n, r, r', h, h', e => by
    simp only [prettyMembers, List.append_assoc, List.append_cancel_left_eq] at e
    obtain ⟨rfl, e1⟩ := hd.delimited _ _ _ _ (h _ List.mem_cons_self).1 (h' _ List.mem_cons_self).1 e
    simp only [List.cons_append, List.nil_append, List.cons.injEq, true_and] at e1
    obtain ⟨h1, h2⟩ := pretty_delimited hd hr hl v v' (n + 1) _ _ (h _ List.mem_cons_self).2 (h' _ List.mem_cons_self).2 e1
    simp only [List.cons.injEq, true_and] at h2
    obtain ⟨h3, h4⟩ := prettyMembers_delimited hd hr hl ms ms' n r r' (fun v hv => h v (List.mem_cons_of_mem _ hv))
      (fun v hv => h' v (List.mem_cons_of_mem _ hv)) h2
    exact ⟨by simp only [canonMembers, h1, h3], h4⟩

end

mutual

theorem pretty_canon {d : Bytes → Bytes} : ∀ (v : Val) (n : Nat), prettyValue ryu d n v.canon = prettyValue ryu d n v
  | .numI z, n => by
    have h1 : (Val.numI z).canon.isLeaf = true := by rw [Val.canon]; split <;> rfl
    rw [pretty_leaf h1, pretty_leaf (v := .numI z) rfl, debug_canon]
  | .seq [], n => by simp [Val.canon, canons]
  | .map [], n => by simp [Val.canon, canonMembers]
  | .seq (v :: vs), n => by
    have := prettyItems_canon (d := d) (v :: vs) (n + 1)
    rw [Val.canon]
    rw [canons] at this ⊢
    rw [prettyValue, prettyValue, this]
  | .map ((k, v) :: ms), n => by
    have := prettyMembers_canon (d := d) ((k, v) :: ms) (n + 1)
    rw [Val.canon]
    rw [canonMembers] at this ⊢
    rw [prettyValue, prettyValue, this]
  | .null, _ | .bool _, _ | .str _, _ | .numU _, _ | .numF _, _ | .int _, _ | .f32 _, _ | .f64 _, _ | .optNone, _ | .optSome _, _ | .box _, _
  | .strct _, _ | .enm _, _ => by
    simp [Val.canon]

theorem prettyItems_canon {d : Bytes → Bytes} : ∀ (vs : List Val) (n : Nat), prettyItems ryu d n (canons vs) = prettyItems ryu d n vs
  | [], n => by rw [canons]
  | v :: vs, n => by rw [canons, prettyItems, prettyItems, pretty_canon v, prettyItems_canon vs]

theorem prettyMembers_canon {d : Bytes → Bytes} : ∀ (ms : List (Bytes × Val)) (n : Nat),
    prettyMembers ryu d n (canonMembers ms) = prettyMembers ryu d n ms
  | [], n => by rw [canonMembers]
  | (k, v) :: ms, n => by rw [canonMembers, prettyMembers, prettyMembers, pretty_canon v, prettyMembers_canon ms]

end

/-- **C75.** Two `Value`s have the same `{:#?}` text exactly if they are the same up to the representation of integers. -/
theorem C75_same (hw : StrWrites ws) (hr : RyuSyntax ryu lit) (hl : RyuRounds lit) {E : Env} {v v' : Val} (h : HasTy E .value v)
    (h' : HasTy E .value v') : formatDebug ryu ws true v = formatDebug ryu ws true v' ↔ v.canon = v'.canon := by
  rw [format_pretty hw hr h, format_pretty hw hr h']
  constructor
  · intro e
    exact (pretty_delimited hw.debug hr hl v v' 0 [] [] h h' (by rw [e])).1
  · intro e
    rw [← pretty_canon v, e, pretty_canon]

end

/-- **C75.** The derived `Debug` of a `Number` names the representation: `U64(5)`, and with `{:#?}` the number on a line of its own. -/
theorem C75_number (numDebug : Val → Bytes) (v : Val) (h : v.IsNum = true) (hn : numDebug v ≠ []) (hl : (0x0A : UInt8) ∉ numDebug v) :
    formatNumberDebug false numDebug v =
      (match v with | .numU _ => str! "U64(" | .numI _ => str! "I64(" | _ => str! "F64(") ++ numDebug v ++ str! ")" ∧
    formatNumberDebug true numDebug v =
      (match v with | .numU _ => str! "U64(\n    " | .numI _ => str! "I64(\n    " | _ => str! "F64(\n    ") ++ numDebug v ++ str! ",\n)" := by
  have key : ∀ name : Bytes, formatNumberDebug.tuple true numDebug name v = name ++ (str! "(\n    ") ++ numDebug v ++ str! ",\n)" := by
    intro name
    have h1 := indents_string.pad.eq (s := (true, name ++ str! "(\n")) (b := true) ⟨rfl, rfl⟩ (emit_line 1 (numDebug v) true _ hn hl)
    have h2 := indents_string.pad.eq h1 (emit_nl 1 (str! ",") false _ (by decide))
    have h3 := h2.2
    have e : (str! ",") ++ [0x0A] = str! ",\n" := rfl
    rw [e] at h3
    simp only [formatNumberDebug.tuple, if_true]
    rw [h3]
    simp [indent]
  cases v <;> simp [Val.IsNum] at h
  all_goals
    refine ⟨?_, ?_⟩
    · simp [formatNumberDebug, formatNumberDebug.tuple]
    · simp [formatNumberDebug, key]

/-! ## Examples -/

/-- A `Debug` of strings that escapes quotes, backslashes and newlines, and writes byte by byte. -/
def exWrites (s : Bytes) : List Bytes :=
  [0x22] :: (s.map fun c => if c = 0x0A then str! "\\n" else if c = 0x22 ∨ c = 0x5C then [0x5C, c] else [c]) ++ [[0x22]]

theorem exWrites_body : ∀ s s' r r' : Bytes,
    (s.map fun c => if c = 0x0A then str! "\\n" else if c = 0x22 ∨ c = 0x5C then [0x5C, c] else [c]).flatten ++ 0x22 :: r =
    (s'.map fun c => if c = 0x0A then str! "\\n" else if c = 0x22 ∨ c = 0x5C then [0x5C, c] else [c]).flatten ++ 0x22 :: r' → s = s' ∧ r = r'
  | [], [], r, r', e => by simpa using e
  | [], c :: s', r, r', e => by
    by_cases h1 : c = 0x0A <;> by_cases h2 : c = 0x22 <;> by_cases h3 : c = 0x5C <;> simp_all
  | c :: s, [], r, r', e => by
    by_cases h1 : c = 0x0A <;> by_cases h2 : c = 0x22 <;> by_cases h3 : c = 0x5C <;> simp_all
  | c :: s, c' :: s', r, r', e => by
    have ih := exWrites_body s s' r r'
    by_cases h1 : c = 0x0A <;> by_cases h2 : c = 0x22 <;> by_cases h3 : c = 0x5C <;>
    by_cases g1 : c' = 0x0A <;> by_cases g2 : c' = 0x22 <;> by_cases g3 : c' = 0x5C <;> simp_all

theorem exWrites_ok : StrWrites exWrites where
  debug :=
    { quote := fun s => ⟨_, rfl⟩
      delimited := fun s s' r r' _ _ e => by
        simp only [exWrites, List.cons_append, List.flatten_cons, List.flatten_append, List.flatten_nil, List.append_nil, List.append_assoc,
          List.nil_append, List.cons.injEq, true_and] at e
        exact exWrites_body s s' r r' e }
  line s := by
    simp only [exWrites, List.cons_append, List.flatten_cons, List.flatten_append, List.flatten_nil, List.append_nil, List.mem_append,
      List.nil_append, List.mem_cons, List.mem_flatten, List.mem_map, List.not_mem_nil]
    rintro (h | ⟨l, ⟨c, -, rfl⟩, hm⟩ | h)
    · simp at h
    · split at hm
      · simp at hm
      · split at hm <;> simp_all
    · simp at h

/-- The test of the repository (`tests/test_value.rs:22-58`). -/
example : formatDebug (fun x => (exLit x).text) exWrites true
    (.map [(str! "Array", .seq [.bool true]), (str! "Bool", .bool true), (str! "EmptyArray", .seq []), (str! "EmptyObject", .map []),
      (str! "Null", .null), (str! "Number", .numU 1), (str! "String", .str (str! "..."))]) =
    str! "Object {\n    \"Array\": Array [\n        Bool(true),\n    ],\n    \"Bool\": Bool(true),\n    \"EmptyArray\": Array [],\n    \"EmptyObject\": Object {},\n    \"Null\": Null,\n    \"Number\": Number(1),\n    \"String\": String(\"...\"),\n}" := by
  decide +kernel

/-- That text determines the value: `[[]]` and `[{}]` are told apart. -/
example : formatDebug (fun x => (exLit x).text) exWrites true (.seq [.seq []]) ≠ formatDebug (fun x => (exLit x).text) exWrites true (.seq [.map []]) := by
  intro e
  have := (C75_same (E := exEnv) exWrites_ok exRyu exRyuRounds
    (.array (.inr rfl) fun v hv => by cases List.mem_singleton.1 hv; exact .array (.inr rfl) (fun _ h => nomatch h))
    (.array (.inr rfl) fun v hv => by
      cases List.mem_singleton.1 hv
      exact .object (.inr rfl) (fun _ h => nomatch h) .nil (fun _ h => nomatch h))).1 e
  simp [Val.canon, canons] at this

/-- Strings with newlines stay on one line. -/
example : formatDebug (fun x => (exLit x).text) exWrites true (.seq [.str (str! "a\nb"), .seq [.numI (-1), .null]]) =
    str! "Array [\n    String(\"a\\nb\"),\n    Array [\n        Number(-1),\n        Null,\n    ],\n]" := by
  decide +kernel

example : formatNumberDebug true (displayNumber fun x => (exLit x).text) (.numI (-7)) = str! "I64(\n    -7,\n)" :=
  (C75_number _ (.numI (-7)) rfl (by decide +kernel) (by decide +kernel)).2.trans (by decide +kernel)

end Miniserde
