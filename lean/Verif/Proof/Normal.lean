import Verif.Spec.Normal
import Verif.Proof.Reparse
import Verif.Proof.FloatFinite
import Verif.Props.Ser
import Verif.Props.Range

/-!
# `to_string` of a parsed `Value` writes the normal form
-/

namespace Miniserde

/-- Decimal digits without leading zeros are those of their value. -/
theorem decimal_of_digits : ∀ (n : Nat) (ds : Bytes), ds.length = n → Digits ds → (ds.head? = some 0x30 → ds = [0x30]) → decimal (digitsVal ds) = ds := by
  intro n
  induction n with
  | zero => intro ds hl h; exact absurd (List.eq_nil_of_length_eq_zero hl) h.1
  | succ n ih =>
    intro ds hl h hz
    have hne := h.1
    obtain ⟨a, c, rfl⟩ : ∃ a c, ds = a ++ [c] := ⟨_, _, (List.dropLast_append_getLast hne).symm⟩
    have hc : IsDigit c := h.2 c (by simp)
    have hc' : 48 ≤ c.toNat ∧ c.toNat ≤ 57 := by
      obtain ⟨h1, h2⟩ := hc
      rw [UInt8.le_iff_toNat_le] at h1 h2
      exact ⟨h1, h2⟩
    have hcc : UInt8.ofNat (48 + (c.toNat - 48)) = c := by
      rw [show 48 + (c.toNat - 48) = c.toNat by omega, UInt8.ofNat_toNat]
    rw [digitsVal_append]
    cases ha : a with
    | nil =>
      rw [show digitsVal [] = 0 from rfl, Nat.zero_mul, Nat.zero_add, decimal, dif_pos (by omega), hcc]
      rfl
    | cons x xs =>
      rw [← ha]
      have hh : (a ++ [c]).head? = a.head? := by rw [ha]; rfl
      have hx : a.head? ≠ some 0x30 := by
        intro e
        have := hz (hh.trans e)
        rw [ha] at this
        simp at this
      have h1 := ih a (by simpa using hl) ⟨by rw [ha]; simp, fun d hd => h.2 d (by simp [hd])⟩ fun e => absurd e hx
      have h2 : digitsVal a ≠ 0 := by
        intro e
        rw [e, decimal_zero] at h1
        rw [← h1] at hx
        exact hx rfl
      rw [decimal, dif_neg (by omega), show (digitsVal a * 10 + (c.toNat - 48)) / 10 = digitsVal a by omega,
        show (digitsVal a * 10 + (c.toNat - 48)) % 10 = c.toNat - 48 by omega, h1, hcc]

mutual

/-- The fragments of a `Value`. -/
def encV : Val → FTree
  | .null => .null
  | .bool b => .bool b
  | .str s => .str s
  | .numU n => .u64 n
  | .numI z => .i64 z
  | .numF x => .f64 x
  | .seq vs => .seq (encVs vs)
  | .map ms => .map (encMs ms)
  | _ => .null

def encVs : List Val → List FTree
  | [] => []
  | v :: vs => encV v :: encVs vs

def encMs : List (Bytes × Val) → List (Bytes × FTree)
  | [] => []
  | (k, v) :: ms => (k, encV v) :: encMs ms

end

mutual

theorem encodes_encV {E : Env} : ∀ {v : Val} {x : FTree}, Encodes E .value v x → x = encV v
  | _, _, .numU _ n _ => by simp [encV]
  | _, _, .numI _ z _ => by simp [encV]
  | _, _, .numF _ x _ => by simp [encV]
  | _, _, .vNull => by simp [encV]
  | _, _, .vBool b => by simp [encV]
  | _, _, .vStr s => by simp [encV]
  | _, _, .array _ h => by rw [encV, encodes_encVs h]
  | _, _, .object _ h => by rw [encV, encodes_encMs h]

theorem encodes_encVs {E : Env} : ∀ {vs : List Val} {xs : List FTree}, EncodesAll E .value vs xs → xs = encVs vs
  | _, _, .nil _ => by rw [encVs]
  | _, _, .cons h hs => by rw [encVs, encodes_encV h, encodes_encVs hs]

theorem encodes_encMs {E : Env} : ∀ {ms : List (Bytes × Val)} {xs : List (Bytes × FTree)}, EncodesEntries E (fun k => k) .value ms xs → xs = encMs ms
  | _, _, .nil _ _ => by rw [encMs]
  | _, _, .cons h hs => by rw [encMs, encodes_encV h, encodes_encMs hs]

end

section
variable {lit : F64 → NumLit}

theorem jsonMembers_encMs (ms : List (Bytes × Val)) : FTree.jsonMembers lit (encMs ms) = ms.map fun m => (m.1, (encV m.2).json lit) := by
  induction ms with
  | nil => simp [encMs, FTree.jsonMembers]
  | cons m ms ih => obtain ⟨k, v⟩ := m; simp [encMs, FTree.jsonMembers, ih]

theorem lookup_mapSnd {α β : Type} (f : α → β) (k : Bytes) : ∀ ms : List (Bytes × α), (ms.map fun m => (m.1, f m.2)).lookup k = (ms.lookup k).map f
  | [] => rfl
  | (a, u) :: ms => by
    simp only [List.map_cons, lookup_cons', lookup_mapSnd f k ms]
    split <;> simp

theorem lastOcc_mapSnd {α β : Type} (f : α → β) (k : Bytes) (ms : List (Bytes × α)) :
    lastOcc k (ms.map fun m => (m.1, f m.2)) = (lastOcc k ms).map f := by
  rw [lastOcc, lastOcc, ← List.map_reverse, lookup_mapSnd]

theorem sorted_mapSnd {α β : Type} (f : α → β) {ms : List (Bytes × α)} (h : SortedKeys strLt ms) :
    SortedKeys strLt (ms.map fun m => (m.1, f m.2)) := by
  unfold SortedKeys at h ⊢
  rw [List.pairwise_map]
  exact h

theorem numNormal_of {l : NumLit} (hl : l.WF) {ev : Event} {v : Val} (h : numEvent l = .ok ev) (hv : IsNumber ev v) :
    ∃ l', (encV v).json lit = .num l' ∧ NumNormal lit l l' := by
  by_cases hi : l.isInt
  · have hd := decimal_of_digits _ l.int rfl hl.int_digits hl.int_zero
    obtain ⟨h1, hf, he⟩ := hi
    have hle := h1
    unfold u64Max at hle
    rw [numEvent_int hf he, if_pos h1] at h
    obtain ⟨mn, int, fo, xo⟩ := l
    simp only at *
    subst hf he
    split at h
    · rename_i hm
      subst hm
      split at h
      · rename_i h2
        cases h
        cases hv
        by_cases h0 : digitsVal int = 0
        · refine ⟨_, ?_, .minusZero rfl rfl rfl h0⟩
          simp [encV, FTree.json, h0, decimal_zero]
        · refine ⟨_, ?_, .int rfl rfl ?_⟩
          · simp only [encV, FTree.json]
            rw [show (-(digitsVal int : Int)).natAbs = digitsVal int by omega, hd, decide_eq_true (by omega)]
          · simp only [if_true]; omega
      · rename_i h2
        have he := numEvent_int (l := ⟨true, int, none, none⟩) rfl rfl
        simp only [if_pos h1, if_neg h2, if_true] at he
        cases h
        cases hv
        refine ⟨_, ?_, .float he⟩
        obtain ⟨m, e, h3, -⟩ := ofNat_neg_fin h1
        rw [h3]
        simp [encV, FTree.json, Flt.isFinite]
    · rename_i hm
      cases mn with
      | true => exact absurd rfl hm
      | false =>
        cases h
        cases hv
        refine ⟨_, ?_, .int rfl rfl ?_⟩
        · simp only [encV, FTree.json, hd]
        · simp only [Bool.false_eq_true, if_false]; omega
  · have hfl : ∃ m e, ev = .float (.fin l.minus m e) := by
      rcases numEvent_float hi with h1 | h1
      · rcases numEvent_range h with ⟨n, rfl, -⟩ | ⟨z, rfl, -⟩ | ⟨m, e, rfl, -⟩
        · rw [h] at h1
          cases hx : expValue (!l.minus) (sigExp l).1 (sigExp l).2 l.exp <;> rw [hx] at h1 <;> cases h1
        · rw [h] at h1
          cases hx : expValue (!l.minus) (sigExp l).1 (sigExp l).2 l.exp <;> rw [hx] at h1 <;> cases h1
        · exact ⟨m, e, rfl⟩
      · rw [h] at h1; cases h1
    obtain ⟨m, e, rfl⟩ := hfl
    cases hv
    exact ⟨_, by simp [encV, FTree.json, Flt.isFinite], .float h⟩

mutual

theorem isValue_normalOf : ∀ {j : Json} {v : Val}, IsValue j v → (∀ l ∈ j.nums, l.WF) → NormalOf lit j ((encV v).json lit)
  | _, _, .null, _ => by simp only [encV, FTree.json]; exact .null
  | _, _, .bool b, _ => by simp only [encV, FTree.json]; exact .bool b
  | _, _, .str s, _ => by simp only [encV, FTree.json]; exact .str s
  | _, _, .num (l := l) h hv, hj => by
    obtain ⟨l', h1, h2⟩ := numNormal_of (lit := lit) (hj l (by simp [Json.nums])) h hv
    rw [h1]
    exact .num h2
  | _, _, .arr hs, hj => by
    simp only [encV, FTree.json]
    exact .arr (areValues_normalsOf hs hj)
  | _, _, .obj (kvs := kvs) (m := m) hs hso hm, hj => by
    simp only [encV, FTree.json]
    rw [jsonMembers_encMs]
    refine .obj (areMembers_normalMembers hs hj) (sorted_mapSnd (fun v => (encV v).json lit) hso) fun k => ?_
    rw [lookup_mapSnd (fun v => (encV v).json lit), lastOcc_mapSnd (fun v => (encV v).json lit), hm]

theorem areValues_normalsOf : ∀ {js : List Json} {vs : List Val}, AreValues js vs → (∀ l ∈ Json.numsL js, l.WF) →
    NormalsOf lit js (FTree.jsons lit (encVs vs))
  | _, _, .nil, _ => by simp only [encVs, FTree.jsons]; exact .nil
  | _, _, .cons h hs, hj => by
    simp only [encVs, FTree.jsons]
    exact .cons (isValue_normalOf h fun l hl => hj l (by simp [Json.numsL, hl])) (areValues_normalsOf hs fun l hl => hj l (by simp [Json.numsL, hl]))

theorem areMembers_normalMembers : ∀ {ms : List (Bytes × Json)} {kvs : List (Bytes × Val)}, AreMembers ms kvs → (∀ l ∈ Json.numsM ms, l.WF) →
    NormalMembers lit ms (kvs.map fun m => (m.1, (encV m.2).json lit))
  | _, _, .nil, _ => .nil
  | _, _, .cons h hs, hj =>
    .cons (isValue_normalOf h fun l hl => hj l (by simp [Json.numsM, hl])) (areMembers_normalMembers hs fun l hl => hj l (by simp [Json.numsM, hl]))

end

theorem numNormal_unique {l a b : NumLit} (ha : NumNormal lit l a) (hb : NumNormal lit l b) : a = b := by
  have key : ∀ (hf : l.frac = none) (he : l.exp = none) (x : F64), numEvent l = .ok (.float x) →
      ¬ (if l.minus then digitsVal l.int ≤ 2 ^ 63 else digitsVal l.int ≤ 2 ^ 64 - 1) := by
    intro hf he x h hr
    rw [numEvent_int hf he] at h
    have : u64Max = 2 ^ 64 - 1 := rfl
    split at h
    · split at h
      · rename_i hm
        rw [if_pos hm] at hr
        rw [if_pos (by omega)] at h
        cases h
      · cases h
    · split at hr <;> omega
  cases ha with
  | int hf he hr =>
    cases hb with
    | int => rfl
    | minusZero _ _ hm h0 => rw [if_pos hm] at hr; omega
    | float h => exact absurd (by split at hr <;> simp_all) (key hf he _ h)
  | minusZero hf he hm h0 =>
    cases hb with
    | int _ _ hr => rw [if_pos hm] at hr; omega
    | minusZero => rfl
    | float h => exact absurd (by rw [if_pos hm]; omega) (key hf he _ h)
  | float h =>
    cases hb with
    | int hf he hr => exact absurd (by split at hr <;> simp_all) (key hf he _ h)
    | minusZero hf he hm h0 => exact absurd (by rw [if_pos hm]; omega) (key hf he _ h)
    | float h' => rw [h] at h'; cases h'; rfl

mutual

theorem normalOf_unique : ∀ {j a b : Json}, NormalOf lit j a → NormalOf lit j b → a = b
  | _, _, _, .null, h => by cases h; rfl
  | _, _, _, .bool _, h => by cases h; rfl
  | _, _, _, .str _, h => by cases h; rfl
  | _, _, _, .num h, h' => by cases h' with | num h' => rw [numNormal_unique h h']
  | _, _, _, .arr h, h' => by cases h' with | arr h' => rw [normalsOf_unique h h']
  | _, _, _, .obj h hs hm, h' => by
    cases h' with
    | obj h' hs' hm' =>
      have e := normalMembers_unique h h'
      rw [SortedKeys.ext strLt_linear hs hs' fun k => by rw [hm, hm', e]]

theorem normalsOf_unique : ∀ {j a b : List Json}, NormalsOf lit j a → NormalsOf lit j b → a = b
  | _, _, _, .nil, h => by cases h; rfl
  | _, _, _, .cons h hs, h' => by cases h' with | cons h' hs' => rw [normalOf_unique h h', normalsOf_unique hs hs']

theorem normalMembers_unique : ∀ {j a b : List (Bytes × Json)}, NormalMembers lit j a → NormalMembers lit j b → a = b
  | _, _, _, .nil, h => by cases h; rfl
  | _, _, _, .cons h hs, h' => by cases h' with | cons h' hs' => rw [normalOf_unique h h', normalMembers_unique hs hs']

end

mutual

theorem normalOf_representable : ∀ {j a : Json}, NormalOf lit j a → representable j = true
  | _, _, .null => by simp only [representable]
  | _, _, .bool _ => by simp only [representable]
  | _, _, .str _ => by simp only [representable]
  | _, _, .num (l := l) h => by
    rw [representable]
    have hU : u64Max = 18446744073709551615 := rfl
    cases h with
    | int hf he hr =>
      have hn := numEvent_int hf he
      cases hm : l.minus <;> rw [hm] at hr hn
      · simp only [Bool.false_eq_true, if_false] at hr hn
        rw [if_pos (by omega)] at hn
        rw [hn]; rfl
      · simp only [if_true] at hr hn
        rw [if_pos (by omega), if_pos (by omega)] at hn
        rw [hn]; rfl
    | minusZero hf he hm h0 =>
      have hn := numEvent_int hf he
      rw [hm, h0, if_pos (by omega), if_pos rfl, if_pos (by omega)] at hn
      rw [hn]; rfl
    | float h => rw [h]; rfl
  | _, _, .arr h => by rw [representable]; exact normalsOf_representable h
  | _, _, .obj h _ _ => by rw [representable]; exact normalMembers_representable h

theorem normalsOf_representable : ∀ {j a : List Json}, NormalsOf lit j a → representables j = true
  | _, _, .nil => by rw [representables]
  | _, _, .cons h hs => by rw [representables, normalOf_representable h, normalsOf_representable hs]; rfl

theorem normalMembers_representable : ∀ {j a : List (Bytes × Json)}, NormalMembers lit j a → representableMembers j = true
  | _, _, .nil => by rw [representableMembers]
  | _, _, .cons h hs => by rw [representableMembers, normalOf_representable h, normalMembers_representable hs]; rfl

end

mutual

/-- Documents in normal form are their own normal form. -/
theorem normal_self : ∀ {j : Json}, j.Normal → NormalOf lit j j
  | .null, _ => .null
  | .bool b, _ => .bool b
  | .str s, _ => .str s
  | .num l, h => by cases h with | num hf he hr => exact .num (.int hf he hr)
  | .arr xs, h => by cases h with | arr h => exact .arr (normals_self h)
  | .obj ms, h => by
    cases h with
    | obj hs h =>
      refine .obj (members_self h) hs fun k => ?_
      cases hl : ms.lookup k with
      | some x => exact (lastOcc_of_mem (hs.nodup strLt_linear) (mem_of_lookup hl)).symm
      | none =>
        cases ho : lastOcc k ms with
        | none => rfl
        | some x =>
          have := List.mem_reverse.1 (mem_of_lookup ho)
          rw [lookup_isSome_of_mem (hs.nodup strLt_linear) this] at hl
          cases hl

theorem normals_self : ∀ {js : List Json}, (∀ x ∈ js, x.Normal) → NormalsOf lit js js
  | [], _ => .nil
  | x :: _, h => .cons (normal_self (h x List.mem_cons_self)) (normals_self fun y hy => h y (List.mem_cons_of_mem _ hy))

theorem members_self : ∀ {js : List (Bytes × Json)}, (∀ m ∈ js, m.2.Normal) → NormalMembers lit js js
  | [], _ => .nil
  | (k, x) :: _, h => .cons (normal_self (h (k, x) List.mem_cons_self)) (members_self fun y hy => h y (List.mem_cons_of_mem _ hy))

end

end

end Miniserde
