import Verif.Proof.Ser

/-!
# The compact text of a tree is a JSON text, valid UTF-8 and free of whitespace outside strings
-/

namespace Miniserde

theorem ws_nil : Ws [] := by intro c h; cases h

/-! ## Decimal numbers -/

theorem digit_ofNat {n : Nat} (h : n < 10) : IsDigit (UInt8.ofNat (48 + n)) := by
  unfold IsDigit
  rw [UInt8.le_iff_toNat_le, UInt8.le_iff_toNat_le]
  simp; omega

theorem decimal_digits (n : Nat) : Digits (decimal n) := by
  induction n using Nat.strongRecOn with
  | ind n ih =>
  rw [decimal]
  split
  · rename_i h
    exact ⟨by simp, fun c hc => by rw [List.mem_singleton] at hc; rw [hc]; exact digit_ofNat h⟩
  · rename_i h
    obtain ⟨-, h2⟩ := ih (n / 10) (by omega)
    refine ⟨by simp, fun c hc => ?_⟩
    simp only [List.mem_append, List.mem_singleton] at hc
    rcases hc with hc | rfl
    · exact h2 c hc
    · exact digit_ofNat (Nat.mod_lt _ (by omega))

theorem decimal_head_zero (n : Nat) (h : (decimal n).head? = some 0x30) : n = 0 := by
  induction n using Nat.strongRecOn with
  | ind n ih =>
  rw [decimal] at h
  split at h
  · rename_i hn
    simp only [List.head?_cons, Option.some.injEq] at h
    have := congrArg UInt8.toNat h
    simp at this; omega
  · rename_i hn
    have hne := (decimal_digits (n / 10)).1
    rw [List.head?_append, Option.or_of_isSome (by simpa using hne)] at h
    have := ih (n / 10) (by omega) h
    omega

theorem decimal_zero : decimal 0 = [0x30] := by rw [decimal]; rfl

theorem decimal_wf (neg : Bool) (n : Nat) : (NumLit.mk neg (decimal n) none none).WF where
  int_digits := decimal_digits n
  int_zero h := by have := decimal_head_zero n h; simp only; rw [this, decimal_zero]
  frac_digits _ h := by cases h
  exp_digits _ h := by cases h

theorem digitsVal_append (a : Bytes) (c : UInt8) : digitsVal (a ++ [c]) = digitsVal a * 10 + (c.toNat - 48) := by
  simp [digitsVal, List.foldl_append]

/-- The digits denote the number. -/
theorem decimal_val (n : Nat) : digitsVal (decimal n) = n := by
  induction n using Nat.strongRecOn with
  | ind n ih =>
  rw [decimal]
  split
  · rename_i h; simp [digitsVal]; omega
  · rename_i h
    rw [digitsVal_append, ih (n / 10) (by omega)]
    simp; omega

/-! ## The text -/

variable {ryu : F64 → Bytes} {lit : F64 → NumLit}

mutual

/-- All literals of a tree are well-formed. -/
def Json.LitsWF : Json → Prop
  | .num l => l.WF
  | .arr xs => Json.LitsWFs xs
  | .obj ms => Json.LitsWFMembers ms
  | _ => True

def Json.LitsWFs : List Json → Prop
  | [] => True
  | x :: xs => x.LitsWF ∧ Json.LitsWFs xs

def Json.LitsWFMembers : List (Bytes × Json) → Prop
  | [] => True
  | (_, x) :: ms => x.LitsWF ∧ Json.LitsWFMembers ms

end

mutual

theorem FTree.litsWF (hr : RyuSyntax ryu lit) : ∀ t : FTree, (t.json lit).LitsWF
  | .null | .bool _ | .str _ => by simp [FTree.json, Json.LitsWF]
  | .u64 n => by simp only [FTree.json, Json.LitsWF]; exact decimal_wf _ _
  | .i64 n => by simp only [FTree.json, Json.LitsWF]; exact decimal_wf _ _
  | .f64 x => by
    simp only [FTree.json]
    split
    · rename_i h; simp only [Json.LitsWF]; exact hr.wf x h
    · trivial
  | .seq ts => by simp only [FTree.json, Json.LitsWF]; exact FTree.litsWFs hr ts
  | .map ms => by simp only [FTree.json, Json.LitsWF]; exact FTree.litsWFMembers hr ms

theorem FTree.litsWFs (hr : RyuSyntax ryu lit) : ∀ ts : List FTree, Json.LitsWFs (FTree.jsons lit ts)
  | [] => by simp [FTree.jsons, Json.LitsWFs]
  | t :: ts => by rw [FTree.jsons, Json.LitsWFs]; exact ⟨FTree.litsWF hr t, FTree.litsWFs hr ts⟩

theorem FTree.litsWFMembers (hr : RyuSyntax ryu lit) : ∀ ts : List (Bytes × FTree), Json.LitsWFMembers (FTree.jsonMembers lit ts)
  | [] => by simp [FTree.jsonMembers, Json.LitsWFMembers]
  | (_, t) :: ts => by rw [FTree.jsonMembers, Json.LitsWFMembers]; exact ⟨FTree.litsWF hr t, FTree.litsWFMembers hr ts⟩

end

mutual

theorem compact_value : ∀ j : Json, j.LitsWF → JValue (compact j) j
  | .null, _ => by rw [compact]; exact .null
  | .bool true, _ => by rw [compact]; exact .true
  | .bool false, _ => by rw [compact]; exact .false
  | .num l, h => by rw [compact]; exact .num l h
  | .str s, _ => by rw [compact]; exact .str (quoted_string s)
  | .arr [], _ => by rw [compact, compactElems]; exact .arrEmpty ws_nil
  | .arr (x :: xs), h => by rw [compact]; exact .arr (compact_elems (x :: xs) (by simp) h)
  | .obj [], _ => by rw [compact, compactMembers]; exact .objEmpty ws_nil
  | .obj ((k, x) :: ms), h => by rw [compact]; exact .obj (compact_members ((k, x) :: ms) (by simp) h)

theorem compact_elems : ∀ (xs : List Json), xs ≠ [] → Json.LitsWFs xs → JElements (compactElems xs) xs
  | [], h, _ => absurd rfl h
  | [x], _, h => by
    rw [compactElems]
    simpa using JElements.one ws_nil (compact_value x h.1) ws_nil
  | x :: y :: ys, _, h => by
    rw [compactElems]
    · simpa using JElements.cons ws_nil (compact_value x h.1) ws_nil (compact_elems (y :: ys) (by simp) h.2)
    · simp

theorem compact_members : ∀ (ms : List (Bytes × Json)), ms ≠ [] → Json.LitsWFMembers ms → JMembers (compactMembers ms) ms
  | [], h, _ => absurd rfl h
  | [(k, x)], _, h => by
    rw [compactMembers]
    simpa using JMembers.one ws_nil (quoted_string k) ws_nil ws_nil (compact_value x h.1) ws_nil
  | (k, x) :: (k', y) :: ys, _, h => by
    rw [compactMembers]
    · simpa using JMembers.cons ws_nil (quoted_string k) ws_nil ws_nil (compact_value x h.1) ws_nil
        (compact_members ((k', y) :: ys) (by simp) h.2)
    · simp

end

theorem compact_text {j : Json} (h : j.LitsWF) : JText (compact j) j :=
  ⟨[], compact j, [], by simp, ws_nil, compact_value j h, ws_nil⟩

/-! ## UTF-8 -/

theorem escapedByte_ascii {c : UInt8} (h : c < 0x80) : ∀ x ∈ escapedByte c, x < 0x80 := by
  have key : ∀ n : Fin 128, ∀ x ∈ escapedByte (UInt8.ofNat n.1), x < 0x80 := by decide +kernel
  have hn : c.toNat < 128 := by rw [UInt8.lt_iff_toNat_lt] at h; simpa using h
  have := key ⟨c.toNat, hn⟩
  simpa using this

theorem escapedByte_high {c : UInt8} (h : 0x80 ≤ c) : escapedByte c = [c] := by
  rcases escape_byte c with ⟨-, h1⟩ | ⟨e, -, -, -, h1⟩
  · exact h1
  · rw [UInt8.lt_iff_toNat_lt] at h1; rw [UInt8.le_iff_toNat_le] at h; omega

theorem escaped_valid {s : Bytes} (h : ValidUtf8 s) : ValidUtf8 (s.flatMap escapedByte) := by
  obtain ⟨cs, rfl⟩ := h
  induction cs with
  | nil => exact valid_nil
  | cons c cs ih =>
    rw [utf8s, List.flatMap_cons, List.flatMap_append]
    refine valid_append ?_ ih
    rcases utf8Of_cases c with ⟨x, hx, ha⟩ | ⟨-, hh⟩
    · rw [hx]
      exact valid_ascii (by simpa using escapedByte_ascii ha)
    · rw [flatMap_plain fun x hx => escapedByte_high (hh x hx)]
      exact valid_char c

theorem quoted_valid {s : Bytes} (h : ValidUtf8 s) : ValidUtf8 (quoted s) := by
  have q : ValidUtf8 [0x22] := valid_ascii (by simp)
  exact valid_append (a := [0x22]) q (valid_append (escaped_valid h) q)

mutual

/-- All strings of a tree satisfy `p`. -/
def Json.AllStr (p : Bytes → Prop) : Json → Prop
  | .str s => p s
  | .arr xs => Json.AllStrs p xs
  | .obj ms => Json.AllStrMembers p ms
  | _ => True

def Json.AllStrs (p : Bytes → Prop) : List Json → Prop
  | [] => True
  | x :: xs => x.AllStr p ∧ Json.AllStrs p xs

def Json.AllStrMembers (p : Bytes → Prop) : List (Bytes × Json) → Prop
  | [] => True
  | (k, x) :: ms => p k ∧ x.AllStr p ∧ Json.AllStrMembers p ms

end

mutual

theorem FTree.json_allStr {p : Bytes → Prop} : ∀ t : FTree, t.AllStr p → (t.json lit).AllStr p
  | .null, _ | .bool _, _ => by simp [FTree.json, Json.AllStr]
  | .u64 _, _ | .i64 _, _ => by simp [FTree.json, Json.AllStr]
  | .f64 x, _ => by simp only [FTree.json]; split <;> trivial
  | .str s, h => by rw [FTree.json]; exact h
  | .seq ts, h => by rw [FTree.json]; exact FTree.jsons_allStr ts h
  | .map ms, h => by rw [FTree.json]; exact FTree.jsonMembers_allStr ms h

theorem FTree.jsons_allStr {p : Bytes → Prop} : ∀ ts : List FTree, FTree.AllStrs p ts → Json.AllStrs p (FTree.jsons lit ts)
  | [], _ => trivial
  | t :: ts, h => ⟨FTree.json_allStr t h.1, FTree.jsons_allStr ts h.2⟩

theorem FTree.jsonMembers_allStr {p : Bytes → Prop} : ∀ ts : List (Bytes × FTree), FTree.AllStrMembers p ts →
    Json.AllStrMembers p (FTree.jsonMembers lit ts)
  | [], _ => trivial
  | (_, t) :: ts, h => ⟨h.1, FTree.json_allStr t h.2.1, FTree.jsonMembers_allStr ts h.2.2⟩

end

theorem valid_cons {c : UInt8} {r : Bytes} (hc : c < 0x80) (h : ValidUtf8 r) : ValidUtf8 (c :: r) :=
  valid_append (a := [c]) (valid_ascii (by simpa using hc)) h

mutual

theorem compact_valid : ∀ j : Json, j.LitsWF → j.AllStr ValidUtf8 → ValidUtf8 (compact j)
  | .null, _, _ => by rw [compact]; exact valid_ascii (by decide)
  | .bool true, _, _ => by rw [compact]; exact valid_ascii (by decide)
  | .bool false, _, _ => by rw [compact]; exact valid_ascii (by decide)
  | .num l, h, _ => by rw [compact]; exact valid_ascii (num_ascii h)
  | .str s, _, hs => by rw [compact]; exact quoted_valid hs
  | .arr xs, h, hs => by
    rw [compact]; exact valid_cons (by decide) (valid_append (compactElems_valid xs h hs) (valid_ascii (by decide)))
  | .obj ms, h, hs => by
    rw [compact]; exact valid_cons (by decide) (valid_append (compactMembers_valid ms h hs) (valid_ascii (by decide)))

theorem compactElems_valid : ∀ xs : List Json, Json.LitsWFs xs → Json.AllStrs ValidUtf8 xs → ValidUtf8 (compactElems xs)
  | [], _, _ => by rw [compactElems]; exact valid_nil
  | [x], h, hs => by rw [compactElems]; exact compact_valid x h.1 hs.1
  | x :: y :: ys, h, hs => by
    rw [compactElems]
    · exact valid_append (compact_valid x h.1 hs.1) (valid_cons (by decide) (compactElems_valid (y :: ys) h.2 hs.2))
    · simp

theorem compactMembers_valid : ∀ ms : List (Bytes × Json), Json.LitsWFMembers ms → Json.AllStrMembers ValidUtf8 ms →
    ValidUtf8 (compactMembers ms)
  | [], _, _ => by rw [compactMembers]; exact valid_nil
  | [(k, x)], h, hs => by
    rw [compactMembers]; exact valid_append (quoted_valid hs.1) (valid_cons (by decide) (compact_valid x h.1 hs.2.1))
  | (k, x) :: (k', y) :: ys, h, hs => by
    rw [compactMembers]
    · exact valid_append (quoted_valid hs.1) (valid_cons (by decide) (valid_append (compact_valid x h.1 hs.2.1)
        (valid_cons (by decide) (compactMembers_valid ((k', y) :: ys) h.2 hs.2.2))))
    · simp

end

/-! ## No whitespace outside strings -/

/-- Neither whitespace nor a quote. -/
def Dense (bs : Bytes) : Prop := ∀ c ∈ bs, c ≠ 0x22 ∧ c ≠ 0x20 ∧ c ≠ 0x09 ∧ c ≠ 0x0A ∧ c ≠ 0x0D

/-- Not whitespace. -/
def NoWs (bs : Bytes) : Prop := ∀ c ∈ bs, c ≠ 0x20 ∧ c ≠ 0x09 ∧ c ≠ 0x0A ∧ c ≠ 0x0D

theorem outside_dense {a r : Bytes} (h : Dense a) : outsideStrings .outside (a ++ r) = a ++ outsideStrings .outside r := by
  induction a with
  | nil => rfl
  | cons c a ih =>
    rw [List.cons_append, outsideStrings, if_neg (h c (by simp)).1, ih fun x hx => h x (by simp [hx])]
    rfl

theorem inside_escaped (c : UInt8) (r : Bytes) : outsideStrings .inside (escapedByte c ++ r) = outsideStrings .inside r := by
  rcases escape_byte c with ⟨h1, h2⟩ | ⟨e, -, -, -, h1⟩
  · rw [h2]
    have key : ∀ n : Fin 256, SER_ESCAPE[(UInt8.ofNat n.1).toNat]? = some 0 → UInt8.ofNat n.1 ≠ 0x22 ∧ UInt8.ofNat n.1 ≠ 0x5C := by
      decide +kernel
    have := key ⟨c.toNat, c.toNat_lt⟩ (by simpa using h1)
    simp only [UInt8.ofNat_toNat] at this
    rw [List.cons_append, outsideStrings, if_neg this.1, if_neg this.2]; rfl
  · by_cases hc : escapedByte c = [c]
    · rw [hc]
      have key : ∀ n : Fin 256, escapedByte (UInt8.ofNat n.1) = [UInt8.ofNat n.1] → UInt8.ofNat n.1 ≠ 0x22 ∧ UInt8.ofNat n.1 ≠ 0x5C := by
        decide +kernel
      have := key ⟨c.toNat, c.toNat_lt⟩ (by simpa using hc)
      simp only [UInt8.ofNat_toNat] at this
      rw [List.cons_append, outsideStrings, if_neg this.1, if_neg this.2]; rfl
    · have key : ∀ n : Fin 256, escapedByte (UInt8.ofNat n.1) ≠ [UInt8.ofNat n.1] →
          ∃ x y, escapedByte (UInt8.ofNat n.1) = 0x5C :: x :: y ∧ ∀ z ∈ y, z ≠ 0x22 ∧ z ≠ 0x5C := by
        intro n hn
        have h2 : ∀ n : Fin 256, escapedByte (UInt8.ofNat n.1) = [UInt8.ofNat n.1] ∨
            ((escapedByte (UInt8.ofNat n.1)).head? = some 0x5C ∧ 2 ≤ (escapedByte (UInt8.ofNat n.1)).length ∧
              ∀ z ∈ (escapedByte (UInt8.ofNat n.1)).drop 2, z ≠ 0x22 ∧ z ≠ 0x5C) := by decide +kernel
        rcases h2 n with h | ⟨ha, hb, hd⟩
        · exact absurd h hn
        · match hh : escapedByte (UInt8.ofNat n.1), ha, hb, hd with
          | [], _, hb, _ => simp at hb
          | [_], _, hb, _ => simp at hb
          | a :: b :: y, ha, _, hd =>
            simp only [List.head?_cons, Option.some.injEq] at ha
            exact ⟨b, y, by rw [ha], by simpa using hd⟩
      obtain ⟨x, y, e, hy⟩ := key ⟨c.toNat, c.toNat_lt⟩ (by simpa using hc)
      simp only [UInt8.ofNat_toNat] at e
      rw [e, List.cons_append, List.cons_append, outsideStrings, if_neg (by decide), if_pos rfl, outsideStrings]
      clear e
      induction y with
      | nil => rfl
      | cons z y ih =>
        rw [List.cons_append, outsideStrings, if_neg (hy z (by simp)).1, if_neg (hy z (by simp)).2]
        exact ih fun z hz => hy z (by simp [hz])

theorem outside_quoted (s r : Bytes) : outsideStrings .outside (quoted s ++ r) = outsideStrings .outside r := by
  unfold quoted
  rw [List.cons_append, outsideStrings, if_pos rfl]
  induction s with
  | nil => rfl
  | cons c s ih =>
    rw [List.flatMap_cons, List.append_assoc, List.append_assoc, inside_escaped, ← List.append_assoc]
    exact ih

theorem digit_dense {c : UInt8} (h : IsDigit c) : c ≠ 0x22 ∧ c ≠ 0x20 ∧ c ≠ 0x09 ∧ c ≠ 0x0A ∧ c ≠ 0x0D := by
  refine ⟨?_, ?_, ?_, ?_, ?_⟩ <;> (rintro rfl; exact absurd h (by decide))

theorem digits_dense {ds : Bytes} (h : Digits ds) : Dense ds := fun c hc => digit_dense (h.2 c hc)

theorem Dense.append {a b : Bytes} (ha : Dense a) (hb : Dense b) : Dense (a ++ b) := by
  intro c hc; rcases List.mem_append.1 hc with h | h
  · exact ha c h
  · exact hb c h

theorem num_dense {l : NumLit} (h : l.WF) : Dense l.text := by
  obtain ⟨minus, int, frac, exp⟩ := l
  refine ((Dense.append ?_ (digits_dense h.int_digits)).append ?_).append ?_
  · cases minus <;> simp [Dense]
  · cases frac with
    | none => simp [Dense]
    | some ds => exact Dense.append (a := [0x2E]) (by simp [Dense]) (digits_dense (h.frac_digits ds rfl))
  · cases exp with
    | none => simp [Dense]
    | some e =>
      obtain ⟨u, sg, ds⟩ := e
      have hd := digits_dense (h.exp_digits _ rfl)
      refine Dense.append (a := [if u then 0x45 else 0x65]) (by cases u <;> simp [Dense]) ?_
      refine Dense.append ?_ hd
      rcases sg with _ | _ | _ <;> simp [Dense]

theorem NoWs.append {a b : Bytes} (ha : NoWs a) (hb : NoWs b) : NoWs (a ++ b) := by
  intro c hc; rcases List.mem_append.1 hc with h | h
  · exact ha c h
  · exact hb c h

theorem NoWs.dense {a r : Bytes} (ha : Dense a) (hr : NoWs (outsideStrings .outside r)) : NoWs (outsideStrings .outside (a ++ r)) := by
  rw [outside_dense ha]
  exact NoWs.append (fun c hc => (ha c hc).2) hr

mutual

theorem compact_noWs : ∀ j : Json, j.LitsWF → ∀ r, NoWs (outsideStrings .outside r) → NoWs (outsideStrings .outside (compact j ++ r))
  | .null, _, r, hr => by rw [compact]; exact NoWs.dense (by simp [Dense]) hr
  | .bool true, _, r, hr => by rw [compact]; exact NoWs.dense (by simp [Dense]) hr
  | .bool false, _, r, hr => by rw [compact]; exact NoWs.dense (by simp [Dense]) hr
  | .num l, h, r, hr => by rw [compact]; exact NoWs.dense (num_dense h) hr
  | .str s, _, r, hr => by rw [compact, outside_quoted]; exact hr
  | .arr xs, h, r, hr => by
    rw [compact, List.cons_append, List.append_assoc]
    exact NoWs.dense (a := [0x5B]) (by simp [Dense]) (compactElems_noWs xs h _ (NoWs.dense (a := [0x5D]) (by simp [Dense]) hr))
  | .obj xs, h, r, hr => by
    rw [compact, List.cons_append, List.append_assoc]
    exact NoWs.dense (a := [0x7B]) (by simp [Dense]) (compactMembers_noWs xs h _ (NoWs.dense (a := [0x7D]) (by simp [Dense]) hr))

theorem compactElems_noWs : ∀ xs : List Json, Json.LitsWFs xs → ∀ r, NoWs (outsideStrings .outside r) →
    NoWs (outsideStrings .outside (compactElems xs ++ r))
  | [], _, r, hr => by rw [compactElems]; exact hr
  | [x], h, r, hr => by rw [compactElems]; exact compact_noWs x h.1 r hr
  | x :: y :: ys, h, r, hr => by
    rw [compactElems, List.append_assoc]
    · exact compact_noWs x h.1 _ (NoWs.dense (a := [0x2C]) (by simp [Dense]) (compactElems_noWs (y :: ys) h.2 r hr))
    · simp

theorem compactMembers_noWs : ∀ ms : List (Bytes × Json), Json.LitsWFMembers ms → ∀ r, NoWs (outsideStrings .outside r) →
    NoWs (outsideStrings .outside (compactMembers ms ++ r))
  | [], _, r, hr => by rw [compactMembers]; exact hr
  | [(k, x)], h, r, hr => by
    rw [compactMembers, List.append_assoc, outside_quoted]
    exact NoWs.dense (a := [0x3A]) (by simp [Dense]) (compact_noWs x h.1 r hr)
  | (k, x) :: (k', y) :: ys, h, r, hr => by
    rw [compactMembers, List.append_assoc, outside_quoted]
    · refine NoWs.dense (a := [0x3A]) (by simp [Dense]) ?_
      show NoWs (outsideStrings .outside ((compact x ++ 0x2C :: compactMembers ((k', y) :: ys)) ++ r))
      rw [List.append_assoc]
      exact compact_noWs x h.1 _ (NoWs.dense (a := [0x2C]) (by simp [Dense]) (compactMembers_noWs ((k', y) :: ys) h.2 r hr))
    · simp

end

end Miniserde
