import Verif.Spec.Api

/-!
# Association lists: insertion, lookup, order
-/

namespace Miniserde

theorem lookup_cons' {α : Type} (k a : Bytes) (u : α) (m : List (Bytes × α)) :
    List.lookup k ((a, u) :: m) = if k = a then some u else List.lookup k m := by
  simp only [List.lookup]
  by_cases h : k = a
  · subst h; simp
  · have : (k == a) = false := by simpa using h
    rw [this, if_neg h]

theorem lookup_hashInsert {α : Type} (k : Bytes) (v : α) (k' : Bytes) : ∀ m : List (Bytes × α),
    (hashInsert k v m).lookup k' = if k' = k then some v else m.lookup k'
  | [] => by
    simp only [hashInsert, lookup_cons', List.lookup_nil]
  | (a, u) :: m => by
    rw [hashInsert]
    by_cases ha : a = k
    · subst ha
      rw [if_pos rfl]
      simp only [lookup_cons']
      by_cases h : k' = a <;> simp [h]
    · rw [if_neg ha]
      simp only [lookup_cons', lookup_hashInsert k v k' m]
      by_cases h : k' = a
      · subst h; simp [ha]
      · simp [h]

theorem hashInsert_keys {α : Type} (k : Bytes) (v : α) : ∀ (m : List (Bytes × α)) (a : Bytes),
    a ∈ (hashInsert k v m).map Prod.fst ↔ a = k ∨ a ∈ m.map Prod.fst
  | [], a => by simp [hashInsert]
  | (b, u) :: m, a => by
    rw [hashInsert]
    by_cases hb : b = k
    · subst hb; simp
    · have := hashInsert_keys k v m a
      rw [if_neg hb]
      simp only [List.map_cons, List.mem_cons, this]
      grind

theorem hashInsert_nodup {α : Type} (k : Bytes) (v : α) : ∀ (m : List (Bytes × α)), (m.map Prod.fst).Nodup →
    ((hashInsert k v m).map Prod.fst).Nodup
  | [], _ => by simp [hashInsert]
  | (b, u) :: m, h => by
    rw [hashInsert]
    simp only [List.map_cons, List.nodup_cons] at h
    by_cases hb : b = k
    · subst hb; simpa using h
    · rw [if_neg hb]
      simp only [List.map_cons, List.nodup_cons, hashInsert_keys]
      exact ⟨fun hh => hh.elim hb h.1, hashInsert_nodup k v m h.2⟩

theorem bytesLt_irrefl : ∀ a : Bytes, bytesLt a a = false
  | [] => rfl
  | c :: a => by simp [bytesLt, bytesLt_irrefl a]

theorem bytesLt_trans : ∀ a b c : Bytes, bytesLt a b = true → bytesLt b c = true → bytesLt a c = true
  | _, [], _, h, _ => by cases ‹Bytes› <;> simp [bytesLt] at h
  | _, _ :: _, [], _, h => by simp [bytesLt] at h
  | [], _ :: _, _ :: _, _, _ => rfl
  | x :: a, y :: b, z :: c, h1, h2 => by
    simp only [bytesLt] at h1 h2 ⊢
    have ih := bytesLt_trans a b c
    split at h1
    · split at h2
      · rw [if_pos (UInt8.lt_trans ‹x < y› ‹y < z›)]
      · split at h2
        · cases h2
        · rw [if_pos]; grind
    · split at h1
      · cases h1
      · split at h2
        · rw [if_pos]; grind
        · split at h2
          · cases h2
          · rw [if_neg (by grind), if_neg (by grind)]; exact ih h1 h2

theorem bytesLt_total : ∀ a b : Bytes, bytesLt a b = false → bytesLt b a = false → a = b
  | [], [], _, _ => rfl
  | [], _ :: _, h, _ => by simp [bytesLt] at h
  | _ :: _, [], _, h => by simp [bytesLt] at h
  | x :: a, y :: b, h1, h2 => by
    simp only [bytesLt] at h1 h2
    split at h1
    · cases h1
    · split at h1
      · rename_i h; rw [if_pos h] at h2; cases h2
      · rw [if_neg ‹_›, if_neg ‹_›] at h2
        have : x = y := by grind
        rw [this, bytesLt_total a b h1 h2]

theorem bytesLt_linear : StrictLinear bytesLt := ⟨bytesLt_irrefl, bytesLt_trans, bytesLt_total⟩

theorem bytesLt_eq_strLt : bytesLt = strLt := by
  funext a b
  unfold strLt
  induction a generalizing b with
  | nil => cases b <;> simp [bytesLt]
  | cons x a ih =>
    cases b with
    | nil => simp [bytesLt]
    | cons y b =>
      simp only [bytesLt, List.cons_lt_cons_iff, ih]
      by_cases h : x < y
      · simp [h]
      · by_cases h' : y < x
        · have : x ≠ y := by grind
          simp [h, h', this]
        · have : x = y := by grind
          simp [this]

theorem strLt_linear : StrictLinear strLt := bytesLt_eq_strLt ▸ bytesLt_linear

variable {lt : Bytes → Bytes → Bool} (hl : StrictLinear lt)

theorem btreeInsert_mem {α : Type} {k : Bytes} {v : α} {x : Bytes × α} : ∀ {m : List (Bytes × α)},
    x ∈ btreeInsert lt k v m → x.1 = k ∨ x ∈ m ∨ ∃ y ∈ m, y.1 = x.1
  | [], h => by simp [btreeInsert] at h; simp [h]
  | (a, u) :: m, h => by
    rw [btreeInsert] at h
    split at h
    · simp only [List.mem_cons] at h ⊢; grind
    · split at h
      · simp only [List.mem_cons] at h ⊢
        rcases h with h | h
        · grind
        · have := btreeInsert_mem h; grind
      · simp only [List.mem_cons] at h ⊢
        rcases h with rfl | h
        · exact .inr (.inr ⟨(a, u), .inl rfl, rfl⟩)
        · exact .inr (.inl (.inr h))

include hl in
theorem btreeInsert_sorted {α : Type} (k : Bytes) (v : α) : ∀ (m : List (Bytes × α)), SortedKeys lt m →
    SortedKeys lt (btreeInsert lt k v m)
  | [], _ => by simp [btreeInsert, SortedKeys]
  | (a, u) :: m, h => by
    rw [btreeInsert]
    have h' := List.pairwise_cons.1 h
    split
    · rename_i hk
      refine List.pairwise_cons.2 ⟨fun y hy => ?_, h⟩
      rcases List.mem_cons.1 hy with rfl | hy
      · exact hk
      · exact hl.trans _ _ _ hk (h'.1 y hy)
    · split
      · rename_i hk
        refine List.pairwise_cons.2 ⟨fun y hy => ?_, btreeInsert_sorted k v m h'.2⟩
        rcases btreeInsert_mem hy with e | hy | ⟨z, hz, e⟩
        · simp only [e]; exact hk
        · exact h'.1 y hy
        · rw [← e]; exact h'.1 z hz
      · exact List.pairwise_cons.2 ⟨h'.1, h'.2⟩

include hl in
theorem lookup_btreeInsert {α : Type} (k : Bytes) (v : α) (k' : Bytes) : ∀ m : List (Bytes × α),
    SortedKeys lt m → (btreeInsert lt k v m).lookup k' = if k' = k then some v else m.lookup k'
  | [], _ => by
    simp only [btreeInsert, lookup_cons', List.lookup_nil]
  | (a, u) :: m, hs => by
    have hs' := List.pairwise_cons.1 hs
    rw [btreeInsert]
    split
    · simp only [lookup_cons']
    · split
      · rename_i h1 h2
        have hak : a ≠ k := by rintro rfl; rw [hl.irrefl] at h2; cases h2
        simp only [lookup_cons', lookup_btreeInsert k v k' m hs'.2]
        by_cases h : k' = a
        · subst h; simp [hak]
        · simp [h]
      · rename_i h1 h2
        have hak : k = a := hl.total _ _ (by simpa using h1) (by simpa using h2)
        subst hak
        simp only [lookup_cons']
        by_cases h : k' = k <;> simp [h]

theorem lookup_append {α : Type} (k : Bytes) : ∀ (m m' : List (Bytes × α)),
    (m ++ m').lookup k = (m.lookup k).or (m'.lookup k)
  | [], m' => by simp
  | (a, u) :: m, m' => by
    simp only [List.cons_append, lookup_cons', lookup_append k m m']
    split <;> simp

theorem foldl_hash {α : Type} (kvs : List (Bytes × α)) : ∀ (m : List (Bytes × α)), (m.map Prod.fst).Nodup →
    ((kvs.foldl (fun m kv => hashInsert kv.1 kv.2 m) m).map Prod.fst).Nodup ∧
    ∀ k, (kvs.foldl (fun m kv => hashInsert kv.1 kv.2 m) m).lookup k = (kvs.reverse.lookup k).or (m.lookup k) := by
  induction kvs with
  | nil => intro m h; simp [h]
  | cons x kvs ih =>
    intro m h
    obtain ⟨h1, h2⟩ := ih (hashInsert x.1 x.2 m) (hashInsert_nodup _ _ _ h)
    refine ⟨h1, fun k => ?_⟩
    rw [List.foldl_cons, h2 k, lookup_hashInsert, List.reverse_cons, lookup_append, Option.or_assoc]
    congr 1
    rw [show x = (x.1, x.2) from rfl, lookup_cons']
    by_cases e : k = x.1 <;> simp [e]

include hl in
theorem foldl_btree {α : Type} (kvs : List (Bytes × α)) : ∀ (m : List (Bytes × α)), SortedKeys lt m →
    SortedKeys lt (kvs.foldl (fun m kv => btreeInsert lt kv.1 kv.2 m) m) ∧
    ∀ k, (kvs.foldl (fun m kv => btreeInsert lt kv.1 kv.2 m) m).lookup k = (kvs.reverse.lookup k).or (m.lookup k) := by
  induction kvs with
  | nil => intro m h; simp [h]
  | cons x kvs ih =>
    intro m h
    obtain ⟨h1, h2⟩ := ih (btreeInsert lt x.1 x.2 m) (btreeInsert_sorted hl _ _ _ h)
    refine ⟨h1, fun k => ?_⟩
    rw [List.foldl_cons, h2 k, lookup_btreeInsert hl _ _ _ _ h, List.reverse_cons, lookup_append, Option.or_assoc]
    congr 1
    rw [show x = (x.1, x.2) from rfl, lookup_cons']
    by_cases e : k = x.1 <;> simp [e]

/-- A sorted association list is determined by its lookups. -/
theorem SortedKeys.ext {α : Type} (hl : StrictLinear lt) : ∀ {m m' : List (Bytes × α)}, SortedKeys lt m → SortedKeys lt m' →
    (∀ k, m.lookup k = m'.lookup k) → m = m'
  | [], [], _, _, _ => rfl
  | [], (a, u) :: m', _, _, h => by have := h a; simp [lookup_cons'] at this
  | (a, u) :: m, [], _, _, h => by have := h a; simp [lookup_cons'] at this
  | (a, u) :: m, (b, v) :: m', hm, hm', h => by
    have h1 := List.pairwise_cons.1 hm
    have h2 := List.pairwise_cons.1 hm'
    have mem : ∀ {k : Bytes} {w : α} {l : List (Bytes × α)}, l.lookup k = some w → (k, w) ∈ l := by
      intro k w l
      induction l with
      | nil => simp
      | cons x l ih =>
        rw [show x = (x.1, x.2) from rfl, lookup_cons']
        split
        · rename_i e; intro e2; cases e2; simp [e]
        · intro e2; exact List.mem_cons_of_mem _ (ih e2)
    have hab : a = b := by
      by_cases e : a = b
      · exact e
      · have ha := h a
        have hb := h b
        rw [lookup_cons', if_pos rfl, lookup_cons', if_neg e] at ha
        rw [lookup_cons', if_neg (Ne.symm e), lookup_cons', if_pos rfl] at hb
        have l1 := h2.1 _ (mem ha.symm)
        have l2 := h1.1 _ (mem hb)
        have := hl.trans _ _ _ l1 l2
        rw [hl.irrefl] at this; cases this
    subst hab
    have huv : u = v := by
      have := h a
      simpa [lookup_cons'] using this
    subst huv
    have key : ∀ {l : List (Bytes × α)}, (∀ y ∈ l, lt a y.1 = true) → l.lookup a = none := by
      intro l hy
      cases e : l.lookup a with
      | none => rfl
      | some w => have := hy _ (mem e); rw [hl.irrefl] at this; cases this
    congr 1
    refine SortedKeys.ext hl h1.2 h2.2 fun k => ?_
    by_cases e : k = a
    · subst e; rw [key h1.1, key h2.1]
    · have := h k
      simpa [lookup_cons', e] using this

/-- Sorted keys are distinct. -/
theorem SortedKeys.nodup {α : Type} {m : List (Bytes × α)} (hl : StrictLinear lt) (h : SortedKeys lt m) : (m.map Prod.fst).Nodup := by
  rw [List.nodup_iff_pairwise_ne, List.pairwise_map]
  refine h.imp fun {x y} hxy e => ?_
  rw [e, hl.irrefl] at hxy
  cases hxy

end Miniserde
