import Verif.Proof.DriverBorrowsInv

/-!
# The order of the entries on the borrow stack
-/

namespace Miniserde.SB

theorem popped_keep (g : Item) (a : List Item) : popped g a ++ keep g a = a := by
  unfold popped keep
  split
  · rw [← List.reverse_append, List.takeWhile_append_dropWhile, List.reverse_reverse]
  · simp

theorem keep_sublist (g : Item) (a : List Item) : (keep g a).Sublist a := by
  have h := popped_keep g a
  have : (keep g a).Sublist (popped g a ++ keep g a) := List.sublist_append_right ..
  rw [h] at this; exact this

theorem write_tags (t : Nat) (v : Loc) : ((v.write t).items.map (·.tag)).Sublist (v.items.map (·.tag)) := by
  unfold Loc.write
  split
  · rename_i a g b _ hl
    split
    · exact List.Sublist.refl _
    · rw [(locate_spec hl).1]
      exact ((keep_sublist g a).append_right (g :: b)).map _
  · exact List.Sublist.refl _

theorem read_tags (t : Nat) (v : Loc) : (v.read t).items.map (·.tag) = v.items.map (·.tag) := by
  unfold Loc.read
  split
  · rename_i a g b _ hl
    split
    · rfl
    · rw [(locate_spec hl).1, List.map_append, List.map_append, List.map_map]
      congr 1
      apply List.map_congr_left
      intro i _
      simp only [Function.comp]
      split <;> rfl
  · rfl

/-- An operation removes entries and puts one new one. -/
theorem act_tags (a : Acc) (v : Loc) (hv : ∀ i ∈ v.items, i.tag < v.tag) :
    ((v.act a).items.map (·.tag)).Sublist (v.items.map (·.tag)) ∨
    ∃ l r, (v.act a).items.map (·.tag) = l ++ v.tag :: r ∧ (l ++ r).Sublist (v.items.map (·.tag)) := by
  cases a with
  | read t => exact .inl (by rw [show (v.act (.read t)).items = (v.read t).items from rfl, read_tags]; exact List.Sublist.refl _)
  | write t => exact .inl (write_tags t v)
  | enter => exact .inl (List.Sublist.refl _)
  | leave =>
    refine .inl ?_
    simp only [Loc.act]
    split <;> exact List.Sublist.refl _
  | reborrow p t prot =>
    cases p with
    | unique => exact .inr ⟨[], _, rfl, write_tags t v⟩
    | sharedRO => exact .inr ⟨[], _, rfl, by rw [List.nil_append, read_tags]; exact List.Sublist.refl _⟩
    | disabled => exact .inl (List.Sublist.refl _)
    | sharedRW =>
      simp only [Loc.act, Loc.raw]
      split
      · rename_i a g b _ hl
        refine .inr ⟨(popped g a).map (·.tag), (keep g a ++ g :: b).map (·.tag), by simp, ?_⟩
        rw [(locate_spec hl).1, ← List.map_append, ← List.append_assoc, popped_keep]
        exact List.Sublist.refl _
      · exact .inl (List.Sublist.refl _)

/-- No tag is there twice. -/
structure Uniq (l : Loc) : Prop where
  nodup : (l.items.map (·.tag)).Nodup
  lt : ∀ i ∈ l.items, i.tag < l.tag

theorem Uniq.act {l : Loc} (h : Uniq l) (a : Acc) : Uniq (l.act a) := by
  have hlt : ∀ i ∈ (l.act a).items, i.tag < (l.act a).tag := by
    have mt := (Loc.act_meta (v := l) a).2.1
    intro i hi
    rcases act_tags a l h.lt with ht | ⟨x, y, e, ht⟩
    · obtain ⟨j, hj, ej⟩ := List.mem_map.1 (ht.mem (List.mem_map.2 ⟨i, hi, rfl⟩))
      have := h.lt j hj
      omega
    · have hm : i.tag ∈ x ++ l.tag :: y := by rw [← e]; exact List.mem_map.2 ⟨i, hi, rfl⟩
      by_cases he : i.tag = l.tag
      · have : l.tag < (l.act a).tag := by
          cases a with
          | reborrow p t prot => exact Nat.lt_succ_self _
          | read t => rw [show (l.act (.read t)).items = (l.read t).items from rfl, read_tags] at e
                      obtain ⟨j, hj, ej⟩ := List.mem_map.1 (show l.tag ∈ l.items.map (·.tag) by rw [e]; simp)
                      have := h.lt j hj; omega
          | write t =>
            have e' : (l.write t).items.map (·.tag) = x ++ l.tag :: y := e
            obtain ⟨j, hj, ej⟩ := List.mem_map.1 ((write_tags t l).mem (by rw [e']; simp : l.tag ∈ _))
            have := h.lt j hj; omega
          | enter =>
            have e' : l.items.map (·.tag) = x ++ l.tag :: y := e
            obtain ⟨j, hj, ej⟩ := List.mem_map.1 (show l.tag ∈ l.items.map (·.tag) by rw [e']; simp)
            have := h.lt j hj; omega
          | leave =>
            have e' : l.items.map (·.tag) = x ++ l.tag :: y := by
              rw [← e]; simp only [Loc.act]; split <;> rfl
            obtain ⟨j, hj, ej⟩ := List.mem_map.1 (show l.tag ∈ l.items.map (·.tag) by rw [e']; simp)
            have := h.lt j hj; omega
        omega
      · obtain ⟨j, hj, ej⟩ := List.mem_map.1 (ht.mem (a := i.tag) (by
          rcases List.mem_append.1 hm with hm | hm
          · exact List.mem_append_left _ hm
          · rcases List.mem_cons.1 hm with hm | hm
            · exact absurd hm he
            · exact List.mem_append_right _ hm))
        have := h.lt j hj
        omega
  refine ⟨?_, hlt⟩
  rcases act_tags a l h.lt with ht | ⟨x, y, e, ht⟩
  · exact h.nodup.sublist ht
  · rw [e]
    have hn := h.nodup.sublist ht
    rw [List.nodup_append] at hn ⊢
    have hnot : l.tag ∉ x ++ y := fun hm => by
      obtain ⟨j, hj, ej⟩ := List.mem_map.1 (ht.mem hm)
      have := h.lt j hj
      omega
    refine ⟨hn.1, List.nodup_cons.2 ⟨fun hm => hnot (List.mem_append_right _ hm), hn.2.1⟩, ?_⟩
    intro p hp q hq
    rcases List.mem_cons.1 hq with rfl | hq
    · rintro rfl; exact hnot (List.mem_append_left _ hp)
    · exact hn.2.2 p hp q hq

theorem Uniq.alloc {l : Loc} : Uniq l.alloc := ⟨by simp [Loc.alloc], by simp [Loc.alloc]⟩

theorem Uniq.free {l : Loc} (h : Uniq l) (t : Nat) : Uniq (l.free t) := by
  simp only [Loc.free]
  split
  · exact ⟨h.nodup.sublist (write_tags t l), fun i hi => by
      have hm := (Loc.write_meta (v := l) (t := t)).2.1
      show i.tag < (l.write t).tag
      rw [hm]
      exact h.lt i (Loc.write_items i hi)⟩
  · exact ⟨by simp, by simp⟩

theorem before_of_sublist {a b l1 l2 : List Nat} {h : Nat} (hs : (a ++ h :: b).Sublist (l1 ++ h :: l2)) (hn : (l1 ++ h :: l2).Nodup) : ∀ x ∈ a, x ∈ l1 := by
  have hn' := hn
  rw [List.nodup_append, List.nodup_cons] at hn
  induction l1 generalizing a with
  | nil =>
    cases a with
    | nil => intro x hx; cases hx
    | cons x a =>
      exfalso
      have hs' : (x :: (a ++ h :: b)).Sublist (h :: l2) := hs
      cases hs' with
      | cons _ hs' => exact hn.2.1.1 (hs'.mem (by simp))
      | cons_cons _ hs' => exact hn.2.1.1 (hs'.mem (by simp))
  | cons y l1 ih =>
    have hn2 : (l1 ++ h :: l2).Nodup := (List.nodup_cons.1 hn').2
    have hy := (List.nodup_cons.1 hn').1
    have hn2' := hn2
    rw [List.nodup_append, List.nodup_cons] at hn2'
    cases a with
    | nil => intro x hx; cases hx
    | cons x a =>
      have hs' : (x :: (a ++ h :: b)).Sublist (y :: (l1 ++ h :: l2)) := hs
      cases hs' with
      | cons _ hs' => exact fun z hz => List.mem_cons_of_mem _ (ih (a := x :: a) hs' hn2' hn2 z hz)
      | cons_cons _ hs' =>
        intro z hz
        rcases List.mem_cons.1 hz with rfl | hz
        · exact List.mem_cons_self ..
        · exact List.mem_cons_of_mem _ (ih hs' hn2' hn2 z hz)

/-- What is above an entry that is still there was above it before, or is new. -/
theorem act_above {v : Loc} (hv : Uniq v) {a : Acc} {up bot up' bot' : List Item} {i i' : Item} (e : v.items = up ++ i :: bot) (e' : (v.act a).items = up' ++ i' :: bot') (hi : i'.tag = i.tag) :
    ∀ j ∈ up', j.tag = v.tag ∨ ∃ k ∈ up, k.tag = j.tag := by
  intro j hj
  have hnd := hv.nodup
  have hitag : i.tag < v.tag := hv.lt i (by rw [e]; simp)
  rw [e] at hnd
  simp only [List.map_append, List.map_cons] at hnd
  by_cases hjt : j.tag = v.tag
  · exact .inl hjt
  refine .inr ?_
  suffices h : ∃ A B, (A ++ i.tag :: B).Sublist (up.map (·.tag) ++ i.tag :: bot.map (·.tag)) ∧ j.tag ∈ A by
    obtain ⟨A, B, hs, hm⟩ := h
    obtain ⟨k, hk, ek⟩ := List.mem_map.1 (before_of_sublist hs hnd _ hm)
    exact ⟨k, hk, ek⟩
  rcases act_tags a v hv.lt with ht | ⟨l, r, er, ht⟩
  · rw [e, e'] at ht
    simp only [List.map_append, List.map_cons, hi] at ht
    exact ⟨_, _, ht, List.mem_map.2 ⟨j, hj, rfl⟩⟩
  · rw [e] at ht
    simp only [List.map_append, List.map_cons] at ht
    rw [e'] at er
    simp only [List.map_append, List.map_cons, hi] at er
    rcases List.append_eq_append_iff.1 er with ⟨c, e1, e2⟩ | ⟨c, e1, e2⟩
    · -- the new entry is below
      cases c with
      | nil =>
        simp only [List.nil_append, List.cons.injEq] at e2
        omega
      | cons x c =>
        simp only [List.cons_append, List.cons.injEq] at e2
        obtain ⟨rfl, e2⟩ := e2
        refine ⟨up'.map (·.tag), c ++ r, ?_, List.mem_map.2 ⟨j, hj, rfl⟩⟩
        rw [e1] at ht
        simpa using ht
    · cases c with
      | nil =>
        simp only [List.nil_append, List.cons.injEq] at e2
        omega
      | cons x c =>
        simp only [List.cons_append, List.cons.injEq] at e2
        obtain ⟨rfl, e2⟩ := e2
        refine ⟨l ++ c, bot'.map (·.tag), ?_, ?_⟩
        · rw [e2] at ht
          simpa using ht
        · have : j.tag ∈ l ++ v.tag :: c := by rw [← e1]; exact List.mem_map.2 ⟨j, hj, rfl⟩
          rcases List.mem_append.1 this with h | h
          · exact List.mem_append_left _ h
          · rcases List.mem_cons.1 h with h | h
            · exact absurd h hjt
            · exact List.mem_append_right _ h

end Miniserde.SB
