import Verif.Spec.Borrows

/-!
# The stack discipline implies the aliasing rules
-/

open scoped List

namespace Miniserde

/-- The number of a live thing. -/
def Live.id : Live → Nat
  | .visitor i | .builder i => i

/-- The entry a tag should have on the borrow stack. -/
def itemOf (ro : List Nat) (t : Nat) : Item := ⟨t, if t ∈ ro then .shared else .unique⟩

theorem borrowRead_ok {h : Nat} {p : Perm} (hp : p ≠ .disabled) {L : List Item} : ∀ {s : List Item}, (⟨h, p⟩ :: L) <+ s →
    ∃ s', borrowRead h s = some s' ∧ (⟨h, p⟩ :: L) <+ s'
  | [], hs => nomatch hs
  | i :: s, hs => by
    unfold borrowRead
    split
    · exact ⟨_, rfl, hs⟩
    · rename_i hi
      cases hs with
      | cons _ hs =>
        obtain ⟨s', e, hs'⟩ := borrowRead_ok hp hs
        exact ⟨_, by rw [e]; rfl, .cons _ hs'⟩
      | cons_cons _ hs => exact absurd ⟨rfl, hp⟩ hi

theorem borrowWrite_ok {h : Nat} {L : List Item} : ∀ {s : List Item}, (⟨h, .unique⟩ :: L) <+ s →
    ∃ s', borrowWrite h s = some s' ∧ (⟨h, .unique⟩ :: L) <+ s'
  | [], hs => nomatch hs
  | i :: s, hs => by
    unfold borrowWrite
    split
    · exact ⟨_, rfl, hs⟩
    · rename_i hi
      cases hs with
      | cons _ hs => exact borrowWrite_ok hs
      | cons_cons _ hs => exact absurd ⟨rfl, rfl⟩ hi

/-- The live tags that point to the location, innermost first. -/
def pointing (c : Cell) (S : List Live) : List Nat := (S.map Live.id).filter (· ∈ c.reach)

/-- The invariant. -/
structure BInv (C : Code) (S : List Live) (next : Nat) (c : Cell) : Prop where
  ok : c.ok = true
  sorted : (S.map Live.id).Pairwise (· > ·)
  lt : ∀ t ∈ S.map Live.id, t < next
  reach_lt : ∀ t ∈ c.reach, t < next
  ro : ∀ t ∈ c.ro, t ∈ c.reach
  unused : c.alloc = .unused → c.reach = [] ∧ c.owner = none ∧ c.box = none
  owner : ∀ o, c.owner = some o → o ∈ c.reach ∧ o ∉ c.ro ∧ ∀ t ∈ c.reach, o ≤ t
  box : ∀ b, c.box = some b → c.owner = some b
  boxV : ∀ b, c.box = some b → .visitor b ∉ S
  lend : ∀ b, c.box = some b → C.lendsFromBox = false → c.reach = [b]
  live : c.alloc = .live → (pointing c S).map (itemOf c.ro) <+ c.items
  freed : c.alloc = .freed → pointing c S = []

variable {C : Code} {S : List Live} {next : Nat} {c : Cell} {l : Live}

theorem BInv.shrink (h : BInv C (l :: S) next c) : BInv C S next c where
  ok := h.ok
  sorted := (List.pairwise_cons.1 h.sorted).2
  lt := fun t ht => h.lt t (List.mem_cons_of_mem _ ht)
  reach_lt := h.reach_lt
  ro := h.ro
  unused := h.unused
  owner := h.owner
  box := h.box
  boxV := fun b hb hm => h.boxV b hb (List.mem_cons_of_mem _ hm)
  lend := h.lend
  live := fun ha => by
    refine List.Sublist.trans (List.Sublist.map _ ?_) (h.live ha)
    exact List.Sublist.filter _ (List.sublist_cons_self _ _)
  freed := fun ha => by
    have h1 := h.freed ha
    unfold pointing at h1 ⊢
    rw [List.filter_eq_nil_iff] at h1 ⊢
    exact fun t ht => h1 t (List.mem_cons_of_mem _ ht)

/-- Only the borrow stack has changed. -/
theorem BInv.items (h : BInv C S next c) {s : List Item} (hs : (pointing c S).map (itemOf c.ro) <+ s) : BInv C S next { c with items := s } where
  ok := h.ok
  sorted := h.sorted
  lt := h.lt
  reach_lt := h.reach_lt
  ro := h.ro
  unused := h.unused
  owner := h.owner
  box := h.box
  boxV := h.boxV
  lend := h.lend
  live := fun _ => hs
  freed := h.freed

theorem pointing_head (hl : l.id ∈ c.reach) : pointing c (l :: S) = l.id :: pointing c S := by
  simp [pointing, hl]

/-- If the innermost live thing points to the location, the location is in use. -/
theorem BInv.in_use (h : BInv C (l :: S) next c) (hl : l.id ∈ c.reach) : c.alloc = .live := by
  cases ha : c.alloc with
  | live => rfl
  | unused =>
    have := (h.unused ha).1
    rw [this] at hl
    cases hl
  | freed =>
    have := h.freed ha
    rw [pointing_head hl] at this
    cases this

/-- The innermost live thing may read. -/
theorem BInv.read (h : BInv C (l :: S) next c) (hl : l.id ∈ c.reach) :
    ∃ s, c.access borrowRead l.id = { c with items := s } ∧ (pointing c (l :: S)).map (itemOf c.ro) <+ s := by
  have ha := h.in_use hl
  have h1 := h.live ha
  rw [pointing_head hl] at h1 ⊢
  have hp : (if l.id ∈ c.ro then Perm.shared else .unique) ≠ .disabled := by split <;> decide
  obtain ⟨s, e, hs⟩ := borrowRead_ok hp h1
  exact ⟨s, by simp only [Cell.access, ha, e], hs⟩

/-- The innermost live thing may write, unless it is a shared reference. -/
theorem BInv.write (h : BInv C (l :: S) next c) (hl : l.id ∈ c.reach) (hro : l.id ∉ c.ro) :
    ∃ s, c.access borrowWrite l.id = { c with items := s } ∧ (pointing c (l :: S)).map (itemOf c.ro) <+ s := by
  have ha := h.in_use hl
  have h1 := h.live ha
  rw [pointing_head hl] at h1 ⊢
  simp only [List.map_cons, itemOf, if_neg hro] at h1 ⊢
  obtain ⟨s, e, hs⟩ := borrowWrite_ok h1
  exact ⟨s, by simp only [Cell.access, ha, e], hs⟩

theorem BInv.access_read (h : BInv C (l :: S) next c) (hl : l.id ∈ c.reach) : BInv C (l :: S) next (c.access borrowRead l.id) := by
  obtain ⟨s, e, hs⟩ := h.read hl
  rw [e]
  exact h.items hs

theorem BInv.access_write (h : BInv C (l :: S) next c) (hl : l.id ∈ c.reach) (hro : l.id ∉ c.ro) :
    BInv C (l :: S) next (c.access borrowWrite l.id) := by
  obtain ⟨s, e, hs⟩ := h.write hl hro
  rw [e]
  exact h.items hs

/-- A method of the innermost live thing runs. -/
theorem BInv.touch (h : BInv C (l :: S) next c) (a : Touch) : BInv C (l :: S) next (c.touchBy a l.id) := by
  have hr : BInv C (l :: S) next (if l.id ∈ c.reach then c.access borrowRead l.id else c) := by
    split
    · rename_i hl; exact h.access_read hl
    · exact h
  have hw : BInv C (l :: S) next (if l.id ∈ c.reach then c.access (if l.id ∈ c.ro then borrowRead else borrowWrite) l.id else c) := by
    split
    · rename_i hl
      split
      · exact h.access_read hl
      · rename_i hro; exact h.access_write hl hro
    · exact h
  unfold Cell.touchBy
  split
  · have ha : c.alloc = .unused := by assumption
    obtain ⟨hu1, hu2, hu3⟩ := h.unused ha
    have hro : c.ro = [] := List.eq_nil_iff_forall_not_mem.2 fun t ht => by
      have := h.ro t ht
      rw [hu1] at this
      cases this
    have hlt : l.id < next := h.lt _ List.mem_cons_self
    have hp : pointing { c with alloc := .live, items := [⟨l.id, .unique⟩], reach := [l.id], owner := some l.id } (l :: S) = [l.id] := by
      rw [pointing_head (by simp)]
      congr 1
      unfold pointing
      rw [List.filter_eq_nil_iff]
      intro t ht
      have := (List.pairwise_cons.1 h.sorted).1 t ht
      simp only [List.mem_singleton, decide_eq_true_eq]
      omega
    exact {
      ok := h.ok
      sorted := h.sorted
      lt := h.lt
      reach_lt := fun t ht => by cases List.mem_singleton.1 ht; exact hlt
      ro := fun t ht => by simp only [hro] at ht; cases ht
      unused := fun e => nomatch e
      owner := fun o e => by
        cases e
        exact ⟨List.mem_singleton.2 rfl, by simp [hro], fun t ht => by cases List.mem_singleton.1 ht; exact Nat.le_refl _⟩
      box := fun b e => by simp only [hu3] at e; cases e
      boxV := fun b e => by simp only [hu3] at e; cases e
      lend := fun b e => by simp only [hu3] at e; cases e
      live := fun _ => by rw [hp]; simp [itemOf, hro]
      freed := fun e => nomatch e }
  · exact h
  · exact hr
  · exact hw
  · exact h

/-- A new live thing that does not point to the location. -/
theorem BInv.push (h : BInv C S next c) (l' : Live) (hl' : l'.id = next) : BInv C (l' :: S) (next + 1) c where
  ok := h.ok
  sorted := List.pairwise_cons.2 ⟨fun t ht => hl' ▸ h.lt t ht, h.sorted⟩
  lt := fun t ht => by
    rcases List.mem_cons.1 ht with rfl | ht
    · rw [hl']; exact Nat.lt_succ_self _
    · exact Nat.lt_succ_of_lt (h.lt t ht)
  reach_lt := fun t ht => Nat.lt_succ_of_lt (h.reach_lt t ht)
  ro := h.ro
  unused := h.unused
  owner := h.owner
  box := h.box
  boxV := fun b hb hm => by
    rcases List.mem_cons.1 hm with e | hm
    · have := h.reach_lt b (h.owner b (h.box b hb)).1
      rw [← e] at hl'
      simp only [Live.id] at hl'
      omega
    · exact h.boxV b hb hm
  lend := h.lend
  live := fun ha => by
    have hn : next ∉ c.reach := fun hm => absurd (h.reach_lt _ hm) (Nat.lt_irrefl _)
    have : pointing c (l' :: S) = pointing c S := by simp [pointing, hl', hn]
    rw [this]
    exact h.live ha
  freed := fun ha => by
    have hn : next ∉ c.reach := fun hm => absurd (h.reach_lt _ hm) (Nat.lt_irrefl _)
    have : pointing c (l' :: S) = pointing c S := by simp [pointing, hl', hn]
    rw [this]
    exact h.freed ha

/-- A new live thing that points to the location because the innermost one does. -/
theorem BInv.derive (h : BInv C (l :: S) next c) (sh : Bool) (l' : Live) (hl' : l'.id = next)
    (hb : ∀ b, c.box = some b → C.lendsFromBox = false → l.id ≠ b) : BInv C (l' :: l :: S) (next + 1) (c.derive sh next l.id) := by
  unfold Cell.derive
  split
  · rename_i hr
    have hnr : next ∉ c.reach := fun hm => absurd (h.reach_lt _ hm) (Nat.lt_irrefl _)
    have hnro : next ∉ c.ro := fun hm => hnr (h.ro _ hm)
    -- The part that does not depend on the kind of reference.
    have key : ∀ (s : List Item) (sh' : Bool), (pointing c (l :: S)).map (itemOf c.ro) <+ s →
        BInv C (l' :: l :: S) (next + 1) { c with items := ⟨next, if sh' then .shared else .unique⟩ :: s, reach := next :: c.reach, ro := if sh' then next :: c.ro else c.ro } := by
      intro s sh' hs
      have hp := h.push l' hl'
      have hlt : ∀ t ∈ (l :: S).map Live.id, t ≠ next := fun t ht => Nat.ne_of_lt (h.lt t ht)
      have hpt : pointing { c with items := ⟨next, if sh' then .shared else .unique⟩ :: s, reach := next :: c.reach, ro := if sh' then next :: c.ro else c.ro } (l' :: l :: S) = next :: pointing c (l :: S) := by
        rw [pointing_head (by simp [hl']), hl']
        congr 1
        unfold pointing
        refine List.filter_congr fun t ht => ?_
        simp [hlt t ht]
      exact {
        ok := h.ok
        sorted := hp.sorted
        lt := hp.lt
        reach_lt := fun t ht => by
          rcases List.mem_cons.1 ht with rfl | ht
          · exact Nat.lt_succ_self _
          · exact hp.reach_lt t ht
        ro := fun t ht => by
          cases sh' with
          | false => exact List.mem_cons_of_mem _ (h.ro t ht)
          | true =>
            rcases List.mem_cons.1 ht with rfl | ht
            · exact List.mem_cons_self
            · exact List.mem_cons_of_mem _ (h.ro t ht)
        unused := fun e => by rw [show c.alloc = .live from h.in_use hr] at e; cases e
        owner := fun o ho => by
          obtain ⟨o1, o2, o3⟩ := h.owner o ho
          have on : o < next := h.reach_lt o o1
          refine ⟨List.mem_cons_of_mem _ o1, ?_, fun t ht => ?_⟩
          · cases sh' with
            | false => exact o2
            | true =>
              intro hm
              rcases List.mem_cons.1 hm with e | hm
              · omega
              · exact o2 hm
          · rcases List.mem_cons.1 ht with rfl | ht
            · omega
            · exact o3 t ht
        box := h.box
        boxV := hp.boxV
        lend := fun b hbx hlend => by
          have := h.lend b hbx hlend
          rw [this] at hr
          exact absurd (List.mem_singleton.1 hr) (hb b hbx hlend)
        live := fun _ => by
          rw [hpt, List.map_cons]
          have e1 : itemOf (if sh' then next :: c.ro else c.ro) next = ⟨next, if sh' then .shared else .unique⟩ := by
            cases sh' <;> simp [itemOf, hnro]
          have e2 : (pointing c (l :: S)).map (itemOf (if sh' then next :: c.ro else c.ro)) = (pointing c (l :: S)).map (itemOf c.ro) := by
            refine List.map_congr_left fun t ht => ?_
            have : t ≠ next := hlt t (List.mem_filter.1 ht).1
            cases sh' <;> simp [itemOf, this]
          simp only [e1, e2]
          exact .cons_cons _ hs
        freed := fun e => by rw [show c.alloc = .live from h.in_use hr] at e; cases e }
    split
    · obtain ⟨s, e, hs⟩ := h.read hr
      simp only [e]
      exact key s true hs
    · rename_i hro
      obtain ⟨s, e, hs⟩ := h.write hr (fun hm => hro (.inr hm))
      simp only [e]
      exact key s false hs
  · exact h.push l' hl'

/-- A new builder that allocates the location. -/
theorem BInv.newBox (h : BInv C S next c) (hu : c.alloc = .unused) (ib : Bool) :
    BInv C (.builder next :: S) (next + 1) { c with alloc := .live, items := [⟨next, .unique⟩], reach := [next], owner := some next, box := if ib then some next else none } := by
  have hp := h.push (.builder next) rfl
  obtain ⟨hu1, hu2, hu3⟩ := h.unused hu
  have hro : c.ro = [] := List.eq_nil_iff_forall_not_mem.2 fun t ht => by
    have := h.ro t ht
    rw [hu1] at this
    cases this
  have hpt : pointing { c with alloc := .live, items := [⟨next, .unique⟩], reach := [next], owner := some next, box := if ib then some next else none } (.builder next :: S) = [next] := by
    rw [pointing_head (by simp [Live.id])]
    simp only [Live.id]
    congr 1
    unfold pointing
    rw [List.filter_eq_nil_iff]
    intro t ht
    have := h.lt t ht
    simp only [List.mem_singleton, decide_eq_true_eq]
    omega
  exact {
    ok := h.ok
    sorted := hp.sorted
    lt := hp.lt
    reach_lt := fun t ht => by cases List.mem_singleton.1 ht; exact Nat.lt_succ_self _
    ro := fun t ht => by simp only [hro] at ht; cases ht
    unused := fun e => nomatch e
    owner := fun o e => by
      cases e
      exact ⟨List.mem_singleton.2 rfl, by simp [hro], fun t ht => by cases List.mem_singleton.1 ht; exact Nat.le_refl _⟩
    box := fun b e => by cases ib <;> simp at e; rw [e]
    boxV := fun b e hm => by
      cases ib <;> simp at e
      subst e
      rcases List.mem_cons.1 hm with e | hm
      · cases e
      · exact absurd (h.lt next (List.mem_map.2 ⟨_, hm, rfl⟩)) (Nat.lt_irrefl _)
    lend := fun b e _ => by cases ib <;> simp at e; rw [e]
    live := fun _ => by rw [hpt]; simp [itemOf, hro]
    freed := fun e => nomatch e }

/-- The location is freed by the drop of the builder that allocated it. -/
theorem BInv.free {id : Nat} (h : BInv C (.builder id :: S) next c) (ho : c.owner = some id) : BInv C S next { c with alloc := .freed } := by
  have hs := h.shrink
  obtain ⟨o1, o2, o3⟩ := h.owner id ho
  exact {
    ok := h.ok
    sorted := hs.sorted
    lt := hs.lt
    reach_lt := hs.reach_lt
    ro := hs.ro
    unused := fun e => nomatch e
    owner := hs.owner
    box := hs.box
    boxV := hs.boxV
    lend := hs.lend
    live := fun e => nomatch e
    freed := fun _ => by
      unfold pointing
      rw [List.filter_eq_nil_iff]
      intro t ht
      have h1 := (List.pairwise_cons.1 h.sorted).1 t ht
      simp only [Live.id] at h1
      simp only [decide_eq_true_eq]
      intro hm
      have := o3 t hm
      omega }

/-- A builder is dropped. -/
theorem BInv.drop {retag : Bool} {n id : Nat} (h : BInv C (.builder id :: S) next c) : BInv C S next (c.step retag C n (.dropBuilder id)) := by
  unfold Cell.step
  simp only
  have h1 := h.touch (C.touch n)
  simp only [Live.id] at h1
  generalize c.touchBy (C.touch n) id = c1 at h1 ⊢
  have h2 : BInv C (.builder id :: S) next (if c1.box = some id then c1.access borrowWrite id else c1) := by
    split
    · rename_i hb
      obtain ⟨o1, o2, -⟩ := h1.owner id (h1.box id hb)
      exact h1.access_write (l := .builder id) o1 o2
    · exact h1
  generalize (if c1.box = some id then c1.access borrowWrite id else c1) = c2 at h2 ⊢
  split
  · rename_i ho
    obtain ⟨o1, o2, -⟩ := h2.owner id ho.1
    obtain ⟨s, e, hs⟩ := h2.write (l := .builder id) o1 o2
    simp only [Live.id] at e
    rw [e]
    exact (h2.items hs).free ho.1
  · exact h2.shrink

/-- A box is moved. -/
theorem BInv.move {retag : Bool} {n id : Nat} (h : BInv C (.builder id :: S) next c) :
    BInv C (.builder id :: S) next (c.step retag C n (.moveBuilder id)) := by
  unfold Cell.step
  simp only
  split
  · rename_i hb
    obtain ⟨o1, o2, -⟩ := h.owner id (h.box id hb.2)
    exact h.access_write (l := .builder id) o1 o2
  · exact h

/-- A box is moved while a reference it handed out is alive. -/
theorem BInv.moveLent {retag : Bool} {n id v : Nat} (hr : retag = true → C.lendsFromBox = false) (h : BInv C (.visitor v :: .builder id :: S) next c) :
    BInv C (.visitor v :: .builder id :: S) next (c.step retag C n (.moveBuilder id)) := by
  unfold Cell.step
  simp only
  split
  · rename_i hb
    obtain ⟨o1, o2, -⟩ := h.owner id (h.box id hb.2)
    obtain ⟨s, e, hs⟩ := h.shrink.write (l := .builder id) o1 o2
    simp only [Live.id] at e
    rw [e]
    refine h.items ?_
    have : pointing c (.visitor v :: .builder id :: S) = pointing c (.builder id :: S) := by
      have hv : v ∉ c.reach := by
        rw [h.lend id hb.2 (hr hb.1)]
        intro hm
        have := (List.pairwise_cons.1 h.sorted).1 id (by simp [Live.id])
        simp only [Live.id] at this
        have := List.mem_singleton.1 hm
        omega
      simp [pointing, Live.id, hv]
    rw [this]
    exact hs
  · exact h

theorem BInv.init : BInv C [.visitor 0] 1 (Cell.init C) := by
  unfold Cell.init
  split
  · rename_i hp
    exact {
      ok := rfl
      sorted := by simp
      lt := by simp [Live.id]
      reach_lt := by simp
      ro := by simp only; split <;> simp
      unused := fun e => nomatch e
      owner := fun _ e => nomatch e
      box := fun _ e => nomatch e
      boxV := fun _ e => nomatch e
      lend := fun _ e => nomatch e
      live := fun _ => by
        rw [pointing_head (by simp [Live.id])]
        cases C.shared 0 <;> simp [pointing, Live.id, itemOf]
      freed := fun e => nomatch e }
  · exact {
      ok := rfl
      sorted := by simp
      lt := by simp [Live.id]
      reach_lt := by simp
      ro := by simp
      unused := fun _ => ⟨rfl, rfl, rfl⟩
      owner := fun _ e => nomatch e
      box := fun _ e => nomatch e
      boxV := fun _ e => nomatch e
      lend := fun _ e => nomatch e
      live := fun e => nomatch e
      freed := fun e => nomatch e }

theorem step_ok {o : Op} {m : MonSt} (h : (m.step o).ok = true) : m.ok = true := by
  unfold MonSt.step at h
  split at h <;> simp_all

theorem BInv.step {retag : Bool} (hr : retag = true → C.lendsFromBox = false) {o : Op} {m : MonSt} {n : Nat} (hok : (m.step o).ok = true)
    (h : BInv C m.stack m.next c) : BInv C (m.step o).stack (m.step o).next (c.step retag C n o) := by
  obtain ⟨S, next, ok⟩ := m
  simp only [MonSt.step] at hok h ⊢
  split at hok
  · rename_i id i r
    simp only [Bool.and_eq_true, beq_iff_eq] at hok
    obtain ⟨-, rfl⟩ := hok
    exact h.touch (l := .visitor i) _
  · rename_i id i r
    simp only [Bool.and_eq_true, beq_iff_eq] at hok
    obtain ⟨-, rfl⟩ := hok
    exact h.touch (l := .builder i) _
  · rename_i id v i r
    simp only [Bool.and_eq_true, beq_iff_eq] at hok
    obtain ⟨-, rfl⟩ := hok
    exact h.shrink.touch (l := .builder i) _
  · rename_i id parent i r
    simp only [Bool.and_eq_true, beq_iff_eq] at hok
    obtain ⟨⟨-, rfl⟩, rfl⟩ := hok
    simp only [Cell.step]
    split
    · rename_i hp
      refine h.derive (l := .builder i) _ (.visitor id) rfl ?_
      rintro b hb hl rfl
      exact hp.2 ⟨hb, by simp [hl]⟩
    · exact h.push (.visitor id) rfl
  · rename_i id parent i r
    simp only [Bool.and_eq_true, beq_iff_eq] at hok
    obtain ⟨⟨-, rfl⟩, rfl⟩ := hok
    simp only [Cell.step]
    split
    · split
      · rename_i ha
        exact h.newBox ha C.inBox
      · refine h.derive (l := .visitor i) _ (.builder id) rfl ?_
        rintro b hb hl rfl
        exact h.boxV _ hb List.mem_cons_self
    · exact h.push (.builder id) rfl
  · rename_i id i r
    simp only [Bool.and_eq_true, beq_iff_eq] at hok
    obtain ⟨-, rfl⟩ := hok
    exact h.drop
  · rename_i id v i r
    simp only [Bool.and_eq_true, beq_iff_eq] at hok
    obtain ⟨-, rfl⟩ := hok
    exact h.shrink.drop
  · rename_i id i r
    simp only [Bool.and_eq_true, beq_iff_eq] at hok
    obtain ⟨-, rfl⟩ := hok
    exact h.move
  · rename_i id v i r
    simp only [Bool.and_eq_true, beq_iff_eq] at hok
    obtain ⟨-, rfl⟩ := hok
    exact h.moveLent hr
  · cases hok

/-- A run that follows the stack discipline follows the aliasing rules. -/
theorem run_inv {retag : Bool} (hr : retag = true → C.lendsFromBox = false) : ∀ (h : List Op), (Mon.mk h).ok = true →
    BInv C (Mon.mk h).stack (Mon.mk h).next (Cell.run retag C h)
  | [], _ => BInv.init
  | _ :: h, hok => BInv.step hr hok (run_inv hr h (step_ok hok))

theorem discipline_no_violation (m : Mon) (h : m.ok = true) : NoAliasingViolation false (fun _ => True) m.history :=
  fun _ _ => (run_inv (retag := false) (fun e => nomatch e) m.history h).ok

theorem discipline_no_violation_retag (m : Mon) (h : m.ok = true) : NoAliasingViolation true (fun C => C.lendsFromBox = false) m.history :=
  fun _ hC => (run_inv (fun _ => hC) m.history h).ok

/-! ## The protected argument -/

/-- The entry of the argument `visitor`, tag 0, is active at the bottom of the stack. -/
structure Cell.Protected (C : Code) (c : Cell) : Prop where
  live : c.alloc = .live
  bottom : c.items.getLast? = some ⟨0, if C.shared 0 then .shared else .unique⟩
  owner : c.owner = none
  box : c.box = none

theorem borrowWrite_bottom {t : Nat} {s s' : List Item} (h : borrowWrite t s = some s') : s'.getLast? = s.getLast? := by
  induction s with
  | nil => cases h
  | cons i s ih =>
    unfold borrowWrite at h
    split at h
    · cases h; rfl
    · have := ih h
      cases s with
      | nil => cases h
      | cons j s => rw [this]; rfl

theorem borrowRead_bottom {t : Nat} {s s' : List Item} (h : borrowRead t s = some s') : s'.getLast? = s.getLast? := by
  induction s generalizing s' with
  | nil => cases h
  | cons i s ih =>
    unfold borrowRead at h
    split at h
    · cases h; rfl
    · cases hr : borrowRead t s with
      | none => rw [hr] at h; cases h
      | some u =>
        rw [hr] at h
        cases h
        have := ih hr
        cases s with
        | nil => cases hr
        | cons j s =>
          rw [List.getLast?_cons_cons, ← this]
          cases u with
          | nil => have h2 := this.symm; rw [List.getLast?_nil, List.getLast?_eq_none_iff] at h2; cases h2
          | cons k u => rw [List.getLast?_cons_cons]

namespace Cell
variable {C : Code}

theorem Protected.access {c : Cell} (h : c.Protected C) {f : Nat → List Item → Option (List Item)} (hf : ∀ {t s s'}, f t s = some s' → s'.getLast? = s.getLast?)
    (t : Nat) : (c.access f t).Protected C := by
  obtain ⟨al, it, re, ro, ow, bo, ok⟩ := c
  obtain ⟨h1, h2, h3, h4⟩ := h
  simp only at h1 h2 h3 h4
  subst h1
  simp only [Cell.access]
  cases hh : f t it with
  | none => exact ⟨rfl, h2, h3, h4⟩
  | some s => exact ⟨rfl, (hf hh).trans h2, h3, h4⟩

theorem Protected.touchBy {c : Cell} (h : c.Protected C) (a : Touch) (id : Nat) : (c.touchBy a id).Protected C := by
  unfold Cell.touchBy
  rw [h.live]
  cases a with
  | nothing => exact h
  | alloc => exact h
  | read => simp only; split; exact h.access borrowRead_bottom _; exact h
  | write =>
    simp only
    split
    · split
      · exact h.access borrowRead_bottom _
      · exact h.access borrowWrite_bottom _
    · exact h

theorem Protected.push {c : Cell} (h : c.Protected C) (i : Item) (r o : List Nat) : Protected C { c with items := i :: c.items, reach := r, ro := o } := by
  refine ⟨h.live, ?_, h.owner, h.box⟩
  have := h.bottom
  cases hi : c.items with
  | nil => rw [hi] at this; cases this
  | cons j s => rw [hi] at this; simp only [hi, List.getLast?_cons_cons]; exact this

theorem Protected.derive {c : Cell} (h : c.Protected C) (sh : Bool) (id parent : Nat) : (c.derive sh id parent).Protected C := by
  unfold Cell.derive
  split
  · split
    · exact (h.access borrowRead_bottom _).push _ _ _
    · exact (h.access borrowWrite_bottom _).push _ _ _
  · exact h

theorem Protected.step {retag : Bool} {c : Cell} (h : c.Protected C) (n : Nat) (o : Op) : (Cell.step retag C n o c).Protected C := by
  cases o with
  | callVisitor id => exact h.touchBy _ _
  | callBuilder id => exact h.touchBy _ _
  | newVisitor id parent => simp only [Cell.step]; split; exact h.derive _ _ _; exact h
  | newBuilder id parent =>
    simp only [Cell.step, h.live]; split; exact h.derive _ _ _; exact h
  | dropBuilder id =>
    have h1 := h.touchBy (C.touch n) id
    simp only [Cell.step]
    have e1 : ¬ (Cell.touchBy (C.touch n) id c).box = some id := by rw [h1.box]; simp
    rw [if_neg e1]
    have e2 : ¬ ((Cell.touchBy (C.touch n) id c).owner = some id ∧ C.frees n = true) := by rw [h1.owner]; simp
    rw [if_neg e2]
    exact h1
  | moveBuilder id =>
    simp only [Cell.step]
    rw [h.box, if_neg (by simp)]
    exact h

theorem run_protected {retag : Bool} (hp : C.points 0 = true) (h : List Op) : (Cell.run retag C h).Protected C := by
  induction h with
  | nil =>
    unfold Cell.run Cell.init
    rw [if_pos hp]
    exact ⟨rfl, rfl, rfl, rfl⟩
  | cons o h ih => exact ih.step _ _

end Cell

end Miniserde
