import Verif.Spec.Derive

/-!
# The derive macros accept exactly the supported inputs
-/

namespace Miniserde

theorem unraw_name {i : RIdent} (h : i.Ok) : unraw i.toStr = i.name := by
  obtain ⟨raw, name⟩ := i
  have hn : unraw name = name := by
    unfold unraw
    split
    · exact absurd (List.mem_cons_of_mem _ List.mem_cons_self) h
    · rfl
  cases raw
  · exact hn
  · show unraw (0x72 :: 0x23 :: name) = name
    rw [unraw]; exact hn

/-! ## Attributes -/

/-- What `rename` may still become. -/
def Merge (r : Option Bytes) (ss : List Bytes) (r' : Option Bytes) : Prop :=
  r.toList ++ ss = r'.toList

theorem renameLogic_some {r : Option Bytes} {p : List Bytes} {ts : List MTok} {x : Option Bytes × List MTok} (h : renameLogic r p ts = some x) :
    r = none ∧ p = [str! "rename"] ∧ ∃ s, ts = .eq :: .str s :: x.2 ∧ x.1 = some s := by
  unfold renameLogic at h
  split at h
  · rename_i hp
    split at h
    · split at h
      · cases h
      · rename_i hr
        cases h
        refine ⟨by simpa using hr, by simpa [isIdent] using hp, _, rfl, rfl⟩
    · cases h
  · cases h

theorem nestedMeta_some : ∀ {fuel : Nat} {r : Option Bytes} {ts : List MTok} {r' : Option Bytes}, nestedMeta fuel r ts = some r' →
    ∃ s, r = none ∧ r' = some s ∧ Renames ts [s]
  | 0, r, ts, r', h => by cases ts <;> cases h
  | fuel + 1, r, [], r', h => by cases h
  | fuel + 1, r, .path p :: ts, r', h => by
    rw [nestedMeta] at h
    split at h
    · cases h
    · rename_i e
      obtain ⟨h1, h2, s, h3, h4⟩ := renameLogic_some e
      cases h
      simp only at h3 h4
      subst h2; subst h3
      exact ⟨s, h1, h4, .one s⟩
    · rename_i e
      obtain ⟨h1, h2, s, h3, h4⟩ := renameLogic_some e
      cases h
      simp only at h3 h4
      subst h2; subst h3
      exact ⟨s, h1, h4, .cons s .nil⟩
    · rename_i e
      obtain ⟨h1, h2, s, h3, h4⟩ := renameLogic_some e
      simp only at h4
      obtain ⟨s', h5, -⟩ := nestedMeta_some h
      rw [h4] at h5
      cases h5
    · cases h
  | fuel + 1, r, .str _ :: ts, r', h => by cases h
  | fuel + 1, r, .eq :: ts, r', h => by cases h
  | fuel + 1, r, .comma :: ts, r', h => by cases h
  | fuel + 1, r, .other :: ts, r', h => by cases h

theorem renames_nil {ts : List MTok} (h : Renames ts []) : ts = [] := by cases h; rfl

theorem parseNestedMeta_iff {r r' : Option Bytes} {a : AttrArgs} :
    parseNestedMeta r a = some r' ↔ ∃ ts ss, a = .list ts ∧ Renames ts ss ∧ Merge r ss r' := by
  constructor
  · intro h
    match a with
    | .notList => cases h
    | .list [] => cases h; exact ⟨[], [], rfl, .nil, by simp [Merge]⟩
    | .list (t :: ts) =>
      obtain ⟨s, h1, h2, h3⟩ := nestedMeta_some (h : nestedMeta _ r (t :: ts) = some r')
      exact ⟨_, _, rfl, h3, by rw [h1, h2]; rfl⟩
  · rintro ⟨ts, ss, rfl, h, hm⟩
    unfold Merge at hm
    cases h with
    | nil =>
      rw [List.append_nil] at hm
      have : r = r' := by cases r <;> cases r' <;> simp_all
      rw [this]; rfl
    | one s =>
      cases r <;> cases r' <;> simp at hm
      subst hm; rfl
    | cons s h' =>
      rename_i ts' ss'
      cases r <;> cases r' <;> simp at hm
      obtain ⟨rfl, rfl⟩ := hm
      rw [renames_nil h']; rfl

theorem merge_trans {r r' r'' : Option Bytes} {a b : List Bytes} (h : Merge r a r') (h' : Merge r' b r'') : Merge r (a ++ b) r'' := by
  unfold Merge at *
  rw [← List.append_assoc, h, h']

theorem attrRenameLoop_iff : ∀ {as : List Attr} {r r' : Option Bytes},
    attrRenameLoop r as = some r' ↔ ∃ ss, AttrRenames as ss ∧ Merge r ss r'
  | [], r, r' => by
    constructor
    · intro h; cases h; exact ⟨[], .nil, by simp [Merge]⟩
    · rintro ⟨ss, h, hm⟩
      cases h
      unfold Merge at hm
      rw [List.append_nil] at hm
      have : r = r' := by cases r <;> cases r' <;> simp_all
      rw [this]; rfl
  | a :: as, r, r' => by
    rw [attrRenameLoop]
    by_cases ha : a.path = [str! "serde"]
    · rw [if_neg (by simp [isIdent, ha])]
      constructor
      · intro h
        split at h
        · cases h
        · rename_i r1 e
          obtain ⟨ts, s, h1, h2, h3⟩ := parseNestedMeta_iff.1 e
          obtain ⟨ss, h4, h5⟩ := attrRenameLoop_iff.1 h
          obtain ⟨p, args⟩ := a
          simp only at ha h1
          subst ha; subst h1
          exact ⟨_, .serde h2 h4, merge_trans h3 h5⟩
      · rintro ⟨ss, h, hm⟩
        cases h with
        | skip hn _ => exact absurd ha hn
        | serde h1 h2 =>
          rename_i ts s ss
          obtain ⟨r1, h3, h4⟩ : ∃ r1, Merge r s r1 ∧ Merge r1 ss r' := by
            unfold Merge at *
            cases r with
            | none =>
              cases s with
              | nil => exact ⟨none, rfl, by simpa using hm⟩
              | cons x s =>
                cases r' with
                | none => simp at hm
                | some y =>
                  simp at hm
                  obtain ⟨rfl, rfl, rfl⟩ := hm
                  exact ⟨some x, rfl, rfl⟩
            | some x =>
              cases r' with
              | none => simp at hm
              | some y =>
                simp at hm
                obtain ⟨rfl, rfl, rfl⟩ := hm
                exact ⟨some x, rfl, rfl⟩
          have e := parseNestedMeta_iff.2 ⟨ts, s, rfl, h1, h3⟩
          simp only [e]
          exact attrRenameLoop_iff.2 ⟨ss, h2, h4⟩
    · rw [if_pos (by simpa [isIdent] using ha)]
      constructor
      · intro h
        obtain ⟨ss, h1, h2⟩ := attrRenameLoop_iff.1 h
        exact ⟨ss, .skip ha h1, h2⟩
      · rintro ⟨ss, h, hm⟩
        cases h with
        | skip _ h => exact attrRenameLoop_iff.2 ⟨ss, h, hm⟩
        | serde _ _ => exact absurd rfl ha

theorem attrRename_iff {as : List Attr} {r : Option Bytes} : attrRename as = some r ↔ AttrRenames as r.toList := by
  unfold attrRename
  rw [attrRenameLoop_iff]
  constructor
  · rintro ⟨ss, h, hm⟩
    have : ss = r.toList := by simpa [Merge] using hm
    exact this ▸ h
  · intro h; exact ⟨_, h, by simp [Merge]⟩

theorem name_iff {as : List Attr} {i : RIdent} (hi : i.Ok) {n : Bytes} :
    (attrRename as).map (fun r => r.getD (unraw i.toStr)) = some n ↔ HasName as i n := by
  rw [unraw_name hi, Option.map_eq_some_iff]
  unfold HasName
  constructor
  · rintro ⟨r, h, rfl⟩
    rw [attrRename_iff] at h
    cases r with
    | none => exact .inr ⟨h, rfl⟩
    | some s => exact .inl h
  · rintro (h | ⟨h, rfl⟩)
    · exact ⟨some n, attrRename_iff.2 h, rfl⟩
    · exact ⟨none, attrRename_iff.2 h, rfl⟩

/-! ## Lists of names -/

theorem fieldNames_iff : ∀ {fs : List DField} (_ : ∀ f ∈ fs, f.ident.Ok) {ns : List Bytes}, collectAll nameOfField fs = some ns ↔ FieldNames fs ns
  | [], _, ns => ⟨fun h => by cases h; exact .nil, fun h => by cases h; rfl⟩
  | f :: fs, hf, ns => by
    have h1 : ∀ {n}, nameOfField f = some n ↔ HasName f.attrs f.ident n := name_iff (hf f List.mem_cons_self)
    have h2 := fun {ns} => fieldNames_iff (fs := fs) (fun g hg => hf g (List.mem_cons_of_mem _ hg)) (ns := ns)
    rw [collectAll]
    constructor
    · intro h
      split at h
      · cases h
      · rename_i e
        split at h
        · cases h
        · rename_i e'
          cases h
          exact .cons (h1.1 e) (h2.1 e')
    · intro h
      cases h with
      | cons h hs => simp only [h1.2 h, h2.2 hs]

theorem variantNames_iff : ∀ {vs : List DVariant} (_ : ∀ v ∈ vs, v.ident.Ok) {ns : List Bytes},
    (∃ is, collectAll unitVariant vs = some is) ∧ collectAll nameOfVariant vs = some ns ↔ VariantNames vs ns
  | [], _, ns => ⟨fun h => by cases h.2; exact .nil, fun h => by cases h; exact ⟨⟨_, rfl⟩, rfl⟩⟩
  | v :: vs, hf, ns => by
    have h1 : ∀ {n}, nameOfVariant v = some n ↔ HasName v.attrs v.ident n := name_iff (hf v List.mem_cons_self)
    have h2 := fun {ns} => variantNames_iff (vs := vs) (fun g hg => hf g (List.mem_cons_of_mem _ hg)) (ns := ns)
    rw [collectAll, collectAll]
    constructor
    · rintro ⟨⟨is, hu⟩, h⟩
      split at hu
      · cases hu
      · rename_i eu
        have hfu : v.fields = .unit := by
          unfold unitVariant at eu
          split at eu
          · assumption
          · cases eu
        split at hu
        · cases hu
        · rename_i eus
          split at h
          · cases h
          · rename_i e
            split at h
            · cases h
            · rename_i e'
              cases h
              exact .cons hfu (h1.1 e) (h2.1 ⟨⟨_, eus⟩, e'⟩)
    · intro h
      cases h with
      | cons hu h hs =>
        obtain ⟨⟨is, e1⟩, e2⟩ := h2.2 hs
        simp only [unitVariant, hu, if_true, e1, h1.2 h, e2, Option.some.injEq, exists_eq', and_self]

theorem unit_idents : ∀ {vs : List DVariant} {is : List RIdent}, collectAll unitVariant vs = some is → is = vs.map (·.ident)
  | [], _, h => by cases h; rfl
  | v :: vs, is, h => by
    rw [collectAll] at h
    split at h
    · cases h
    · rename_i e
      split at h
      · cases h
      · rename_i e'
        cases h
        unfold unitVariant at e
        split at e
        · cases e
          rw [List.map_cons, unit_idents e']
        · cases e

theorem FieldNames.length : ∀ {fs : List DField} {ns : List Bytes}, FieldNames fs ns → ns.length = fs.length
  | _, _, .nil => rfl
  | _, _, .cons _ hs => by simp [FieldNames.length hs]

theorem VariantNames.length : ∀ {fs : List DVariant} {ns : List Bytes}, VariantNames fs ns → ns.length = fs.length
  | _, _, .nil => rfl
  | _, _, .cons _ _ hs => by simp [VariantNames.length hs]

theorem AttrRenames.unique {as : List Attr} {a b : Bytes} (h : AttrRenames as [a]) (h' : AttrRenames as [b]) : a = b := by
  have h1 := (attrRename_iff (r := some a)).2 h
  have h2 := (attrRename_iff (r := some b)).2 h'
  rw [h1] at h2
  exact Option.some.inj (Option.some.inj h2)

/-- A first-match over zipped lists is a search for the position. -/
theorem find_zip : ∀ {ns : List Bytes} {is : List RIdent} (_ : ns.length = is.length) (k : Bytes),
    strMatch (ns.zip is) k = (ns.findIdx? (· == k)).bind fun j => is[j]?
  | [], [], _, k => rfl
  | n :: ns, i :: is, h, k => by
    have ih := find_zip (ns := ns) (is := is) (by simpa using h) k
    unfold strMatch at *
    rw [List.zip_cons_cons, List.find?_cons, List.findIdx?_cons]
    cases n == k
    · simp only [Bool.false_eq_true, if_false]
      rw [ih]
      cases List.findIdx? (· == k) ns <;> simp
    · simp

theorem find_range {α : Type} : ∀ (xs : List α) (a n : Nat),
    (((List.range' a xs.length).zip xs).find? fun p => p.1 == a + n).map Prod.snd = xs[n]?
  | [], a, n => by simp
  | x :: xs, a, 0 => by simp [List.range'_succ]
  | x :: xs, a, n + 1 => by
    rw [List.length_cons, List.range'_succ, List.zip_cons_cons, List.find?_cons]
    have : (a == a + (n + 1)) = false := by simp
    rw [this]
    have := find_range xs (a + 1) n
    rw [show a + 1 + n = a + (n + 1) by omega] at this
    simpa using this

theorem variantMatch_zip {is : List RIdent} {ns : List Bytes} {j : Nat} {v : RIdent} (hd : is.Nodup) (hl : ns.length = is.length)
    (hv : is[j]? = some v) : variantMatch (is.zip ns) v = ns[j]? := by
  induction is generalizing ns j with
  | nil => simp at hv
  | cons i is ih =>
    cases ns with
    | nil => simp at hl
    | cons n ns =>
      unfold variantMatch at *
      rw [List.zip_cons_cons, List.find?_cons]
      rw [List.nodup_cons] at hd
      cases j with
      | zero =>
        simp only [List.getElem?_cons_zero, Option.some.injEq] at hv
        simp [hv]
      | succ j =>
        rw [List.getElem?_cons_succ] at hv
        have hne : i ≠ v := fun e => hd.1 (e ▸ List.mem_of_getElem? hv)
        have : (i == v) = false := by simpa using hne
        rw [this, List.getElem?_cons_succ]
        exact ih hd.2 (by simpa using hl) hv

end Miniserde
