import Verif.Proof.TreeBasic

/-!
# The return of a function is never undefined behaviour under Tree Borrows

The implicit accesses through the arguments, when a function returns, are allowed, if everything before was.
-/

namespace Miniserde.TB

/-- What protected nodes mean for the rest of the tree. -/
structure Sound (l : Loc) : Prop where
  fresh : Fresh l
  uniq : ∀ i ∈ l.items, ∀ j ∈ l.items, i.tag = j.tag → i = j
  imm : ∀ i ∈ l.items, i.guarded l.calls = true → i.perm ≠ .reservedIM ∧ i.perm ≠ .disabled
  up : ∀ i ∈ l.items, ∀ j ∈ l.items, i.guarded l.calls = true → j.tag <:+ i.tag → (i.perm ≠ .cell → j.perm ≠ .disabled) ∧ (i.perm = .active → j.perm = .active ∨ j.perm = .cell)
  side : ∀ i ∈ l.items, ∀ k ∈ l.items, i.guarded l.calls = true → k.guarded l.calls = true → ¬ i.tag <:+ k.tag → ¬ k.tag <:+ i.tag → i.perm = .active → k.perm = .cell

variable {l : Loc} {t : Tag}

theorem suffix_total {a b c : Tag} (h : a <:+ c) (k : b <:+ c) : a <:+ b ∨ b <:+ a := List.suffix_or_suffix_of_suffix h k

/-- What an access does to a node: it is an ancestor, it is not concerned, or the access is foreign. -/
theorem after_cases {e w : Bool} {cs : List Nat} {i : Item} {q : Perm} (h : i.after e w t cs = some q) :
    (i.tag <:+ t ∧ i.perm.child w (i.guarded cs) = some q) ∨ (¬ i.tag <:+ t ∧ e = true ∧ t <:+ i.tag ∧ q = i.perm) ∨
      (¬ i.tag <:+ t ∧ (e = true → ¬ t <:+ i.tag) ∧ i.perm.foreign w (i.guarded cs) = some q) := by
  unfold Item.after at h
  split at h
  · rename_i h1
    exact .inl ⟨List.isSuffixOf_iff_suffix.1 h1, h⟩
  · rename_i h1
    have h1 : ¬ i.tag <:+ t := fun k => h1 (List.isSuffixOf_iff_suffix.2 k)
    split at h
    · rename_i h2
      simp only [Bool.and_eq_true] at h2
      exact .inr (.inl ⟨h1, h2.1, List.isSuffixOf_iff_suffix.1 h2.2, (Option.some.inj h).symm⟩)
    · rename_i h2
      exact .inr (.inr ⟨h1, fun h3 h4 => h2 (by rw [h3, Bool.true_and]; exact List.isSuffixOf_iff_suffix.2 h4), h⟩)

theorem child_imm {w g : Bool} {p q : Perm} (h : p.child w g = some q) : (p ≠ .reservedIM → q ≠ .reservedIM) ∧ q ≠ .disabled := by
  cases p <;> cases w <;> cases g <;> simp_all [Perm.child] <;> (try subst h) <;> (try simp) <;> (try (split at h <;> simp_all)) <;> (try (obtain ⟨-, rfl⟩ := h; simp))

theorem child_keeps {w g : Bool} {p q : Perm} (h : p.child w g = some q) : (p = .active → q = .active) ∧ (p = .cell → q = .cell) ∧ (q = .cell → p = .cell) := by
  cases p <;> cases w <;> cases g <;> simp_all [Perm.child] <;> (try subst h) <;> (try simp) <;> (try (split at h <;> simp_all)) <;> (try (obtain ⟨-, rfl⟩ := h; simp))

/-- After a write through it, a node has been written through. -/
theorem child_written {g : Bool} {p q : Perm} (h : p.child true g = some q) : q = .active ∨ q = .cell := by
  cases p <;> cases g <;> simp_all [Perm.child]

theorem child_read {g : Bool} {p q : Perm} (h : p.child false g = some q) : q = p := by
  cases p <;> simp_all [Perm.child]

theorem foreign_guarded {w : Bool} {p q : Perm} (h : p.foreign w true = some q) (h1 : p ≠ .reservedIM ∧ p ≠ .disabled) :
    q ≠ .reservedIM ∧ q ≠ .disabled ∧ q ≠ .active ∧ (w = true → p = .cell) ∧ (p = .cell ↔ q = .cell) := by
  cases p <;> cases w <;> simp_all [Perm.foreign] <;> subst h <;> simp

theorem foreign_cell {w g : Bool} {p q : Perm} (h : p.foreign w g = some q) (h1 : p = .cell) : q = .cell := by
  subst h1; simp_all [Perm.foreign]

theorem foreign_read {g : Bool} {p q : Perm} (h : p.foreign false g = some q) (h1 : q = .disabled) : p = .disabled := by
  subst h1
  cases p <;> cases g <;> simp_all [Perm.foreign]

theorem Sound.access (s : Sound l) {e w : Bool} (h : (l.access e w t).ub = false) : Sound (l.access e w t) := by
  obtain ⟨-, -, h3, h4⟩ := Loc.access_spec h
  rw [h4]
  have key : ∀ i' ∈ l.items.map (fun i => { i with perm := (i.after e w t l.calls).getD i.perm }), ∃ i ∈ l.items, i' = { i with perm := i'.perm } ∧ i.after e w t l.calls = some i'.perm := by
    intro i' hi'
    obtain ⟨i, hi, rfl⟩ := List.mem_map.1 hi'
    obtain ⟨q, hq⟩ := Option.isSome_iff_exists.1 (h3 i hi)
    exact ⟨i, hi, rfl, by simp [hq]⟩
  have hg : ∀ (i : Item) (p : Perm), ({ i with perm := p } : Item).guarded l.calls = i.guarded l.calls := fun _ _ => rfl
  refine ⟨⟨?_, ?_, s.fresh.calls⟩, ?_, ?_, ?_, ?_⟩
  · intro i' hi'
    obtain ⟨i, hi, e1, -⟩ := key i' hi'
    rw [e1]; exact s.fresh.tags i hi
  · intro i' hi'
    obtain ⟨i, hi, e1, -⟩ := key i' hi'
    rw [e1]; exact s.fresh.prots i hi
  · intro i' hi' j' hj' he
    obtain ⟨i, hi, rfl⟩ := List.mem_map.1 hi'
    obtain ⟨j, hj, rfl⟩ := List.mem_map.1 hj'
    obtain rfl := s.uniq i hi j hj he
    rfl
  · intro i' hi' g
    obtain ⟨i, hi, e1, e2⟩ := key i' hi'
    rw [e1, hg] at g
    have g : i.guarded l.calls = true := g
    have k := s.imm i hi g
    rcases after_cases e2 with ⟨-, a⟩ | ⟨-, -, -, a⟩ | ⟨-, -, a⟩
    · exact ⟨(child_imm a).1 k.1, (child_imm a).2⟩
    · rw [a]; exact k
    · rw [g] at a
      have := foreign_guarded a k
      exact ⟨this.1, this.2.1⟩
  · intro i' hi' j' hj' g hs
    obtain ⟨i, hi, e1, e2⟩ := key i' hi'
    obtain ⟨j, hj, e3, e4⟩ := key j' hj'
    rw [e1, hg] at g
    have g : i.guarded l.calls = true := g
    rw [e1, e3] at hs
    have hs : j.tag <:+ i.tag := hs
    have k := s.imm i hi g
    have u := s.up i hi j hj g hs
    rcases after_cases e4 with ⟨a1, a2⟩ | ⟨a0, a1, a2, a3⟩ | ⟨a0, a1, a2⟩
    · refine ⟨fun _ => (child_imm a2).2, fun hq => ?_⟩
      have ka := child_keeps a2
      rcases after_cases e2 with ⟨b1, b2⟩ | ⟨b0, b1, b2, b3⟩ | ⟨b0, b1, b2⟩
      · cases w with
        | true => exact child_written a2
        | false =>
          rw [child_read b2] at hq
          exact (u.2 hq).imp ka.1 ka.2.1
      · rw [b3] at hq
        exact (u.2 hq).imp ka.1 ka.2.1
      · rw [g] at b2
        exact absurd hq (foreign_guarded b2 k).2.2.1
    · rcases after_cases e2 with ⟨b1, b2⟩ | ⟨b0, b1, b2, b3⟩ | ⟨b0, b1, b2⟩
      · exact absurd (hs.trans b1) a0
      · rw [a3, b3]; exact u
      · exact absurd (a2.trans hs) (b1 a1)
    · rcases after_cases e2 with ⟨b1, b2⟩ | ⟨b0, b1, b2, b3⟩ | ⟨b0, b1, b2⟩
      · exact absurd (hs.trans b1) a0
      · rcases suffix_total hs b2 with c | c
        · exact absurd c a0
        · exact absurd c (a1 b1)
      · rw [g] at b2
        have f := foreign_guarded b2 k
        refine ⟨fun hc hd => ?_, fun hq => absurd hq f.2.2.1⟩
        have hc' : i.perm ≠ .cell := fun h => hc (f.2.2.2.2.1 h)
        cases w with
        | true => exact hc' (f.2.2.2.1 rfl)
        | false => exact u.1 hc' (foreign_read a2 hd)
  · intro i' hi' k' hk' g gk n1 n2 hq
    obtain ⟨i, hi, e1, e2⟩ := key i' hi'
    obtain ⟨k, hk, e3, e4⟩ := key k' hk'
    rw [e1, hg] at g
    rw [e3, hg] at gk
    rw [e1, e3] at n1 n2
    have g : i.guarded l.calls = true := g
    have gk : k.guarded l.calls = true := gk
    have n1 : ¬ i.tag <:+ k.tag := n1
    have n2 : ¬ k.tag <:+ i.tag := n2
    have mi := s.imm i hi g
    have mk := s.imm k hk gk
    have sd := s.side i hi k hk g gk n1 n2
    rcases after_cases e2 with ⟨b1, b2⟩ | ⟨b0, b1, b2, b3⟩ | ⟨b0, b1, b2⟩
    · rcases after_cases e4 with ⟨a1, a2⟩ | ⟨a0, a1, a2, a3⟩ | ⟨a0, a1, a2⟩
      · exact ((suffix_total b1 a1).elim n1 n2).elim
      · exact absurd (b1.trans a2) n1
      · rw [gk] at a2
        have f := foreign_guarded a2 mk
        cases w with
        | true => exact f.2.2.2.2.1 (f.2.2.2.1 rfl)
        | false =>
          rw [child_read b2] at hq
          exact f.2.2.2.2.1 (sd hq)
    · rw [b3] at hq
      have := sd hq
      rcases after_cases e4 with ⟨a1, a2⟩ | ⟨a0, a1, a2, a3⟩ | ⟨a0, a1, a2⟩
      · exact (child_keeps a2).2.1 this
      · rw [a3]; exact this
      · exact foreign_cell a2 this
    · rw [g] at b2
      exact absurd hq (foreign_guarded b2 mi).2.2.1

/-- A new reference that is not written through. -/
theorem Sound.add (s : Sound l) {p : Perm} {prot : Bool} (hp : p = .reserved false ∨ p = .reservedIM ∨ p = .frozen ∨ p = .cell) (hm : ∃ i ∈ l.items, i.tag = t)
    (h1 : p ≠ .cell → (∀ j ∈ l.items, j.tag <:+ t → j.perm ≠ .disabled) ∧ ∀ j ∈ l.items, j.guarded l.calls = true → ¬ j.tag <:+ t → j.perm ≠ .active) : Sound (l.add p t prot) := by
  obtain ⟨m, hm, rfl⟩ := hm
  have hl : ∀ k ∈ m.tag, k < l.next := s.fresh.tags m hm
  have hns : ∀ j ∈ l.items, ¬ (l.next :: m.tag) <:+ j.tag := fun j hj h => by
    have := s.fresh.tags j hj l.next (h.subset (List.mem_cons_self ..))
    omega
  have hsn : ∀ j ∈ l.items, j.tag <:+ (l.next :: m.tag) → j.tag <:+ m.tag := fun j hj h => by
    rcases List.suffix_cons_iff.1 h with h | h
    · exact absurd (h ▸ List.suffix_refl _) (hns j hj)
    · exact h
  have hh : ∀ c, l.calls.head? = some c → c ∈ l.calls := fun c h => by
    cases e : l.calls with
    | nil => rw [e] at h; cases h
    | cons a b => rw [e] at h; simp at h; simp [h]
  generalize hq : (if prot && p == .reservedIM then Perm.reserved false else p) = q
  have q1 : q = .reserved false ∨ q = .reservedIM ∨ q = .frozen ∨ q = .cell := by
    subst hq
    split
    · exact .inl rfl
    · exact hp
  have q2 : q = .cell ↔ p = .cell := by
    subst hq
    split
    · rename_i h
      simp only [Bool.and_eq_true, beq_iff_eq] at h
      rw [h.2]; simp
    · exact Iff.rfl
  have q3 : prot = true → q ≠ .reservedIM := by
    subst hq
    intro h
    rw [h]
    split
    · simp
    · rename_i h'; simpa using h'
  have q4 : q ≠ .active ∧ q ≠ .disabled := by rcases q1 with rfl | rfl | rfl | rfl <;> simp
  have hnew : ∀ i ∈ (l.add p m.tag prot).items, i = ⟨l.next :: m.tag, q, if prot then l.calls.head? else none⟩ ∨ i ∈ l.items := fun i hi => by
    rw [← hq]; exact List.mem_cons.1 hi
  refine ⟨⟨?_, ?_, s.fresh.calls⟩, ?_, ?_, ?_, ?_⟩
  · intro i hi k hk
    show k < l.next + 1
    rcases hnew i hi with rfl | hi
    · rcases List.mem_cons.1 hk with rfl | hk
      · omega
      · have := hl k hk; omega
    · have := s.fresh.tags i hi k hk; omega
  · intro i hi c hc
    rcases hnew i hi with rfl | hi
    · simp only at hc
      split at hc
      · exact s.fresh.calls c (hh c hc)
      · cases hc
    · exact s.fresh.prots i hi c hc
  · intro i hi j hj he
    rcases hnew i hi with rfl | hi <;> rcases hnew j hj with rfl | hj
    · rfl
    · exact absurd (he ▸ List.suffix_refl _) (hns j hj)
    · exact absurd (he ▸ List.suffix_refl _) (hns i hi)
    · exact s.uniq i hi j hj he
  · intro i hi g
    rcases hnew i hi with rfl | hi
    · refine ⟨q3 ?_, q4.2⟩
      cases prot with
      | true => rfl
      | false => simp [Item.guarded] at g
    · exact s.imm i hi g
  · intro i hi j hj g hs
    rcases hnew i hi with rfl | hi
    · refine ⟨fun hc => ?_, fun h => absurd h q4.1⟩
      rcases hnew j hj with rfl | hj
      · exact q4.2
      · exact (h1 fun h => hc (q2.2 h)).1 j hj (hsn j hj hs)
    · rcases hnew j hj with rfl | hj
      · exact absurd hs (hns i hi)
      · exact s.up i hi j hj g hs
  · intro i hi k hk g gk n1 n2 ha
    rcases hnew i hi with rfl | hi
    · exact absurd ha q4.1
    · rcases hnew k hk with rfl | hk
      · by_cases hc : p = .cell
        · exact q2.2 hc
        · exact absurd ha ((h1 hc).2 i hi g fun h => n1 (h.trans (List.suffix_cons ..)))
      · exact s.side i hi k hk g gk n1 n2 ha

theorem Sound.fewer (s : Sound l) {cs : List Nat} (h : ∀ c ∈ cs, c ∈ l.calls) : Sound { l with calls := cs } := by
  have hg : ∀ i : Item, i.guarded cs = true → i.guarded l.calls = true := fun i g => by
    obtain ⟨c, hc, e⟩ := guarded_iff.1 g
    exact guarded_iff.2 ⟨c, h c hc, e⟩
  exact ⟨⟨s.fresh.tags, s.fresh.prots, fun c hc => s.fresh.calls c (h c hc)⟩, s.uniq, fun i hi g => s.imm i hi (hg i g), fun i hi j hj g => s.up i hi j hj (hg i g),
    fun i hi k hk g gk => s.side i hi k hk (hg i g) (hg k gk)⟩

/-- Only some nodes, possibly of a location that is considered as fine. -/
theorem Sound.sub (s : Sound l) {is : List Item} (h : ∀ i ∈ is, i ∈ l.items) (live ub : Bool) : Sound { l with items := is, live := live, ub := ub } :=
  ⟨⟨fun i hi => s.fresh.tags i (h i hi), fun i hi => s.fresh.prots i (h i hi), s.fresh.calls⟩, fun i hi j hj => s.uniq i (h i hi) j (h j hj), fun i hi => s.imm i (h i hi),
    fun i hi j hj => s.up i (h i hi) j (h j hj), fun i hi k hk => s.side i (h i hi) k (h k hk)⟩

theorem Sound.enter (s : Sound l) : Sound (l.act .enter) := by
  have hg : ∀ i ∈ l.items, i.guarded (l.call :: l.calls) = true → i.guarded l.calls = true := fun i hi g => by
    obtain ⟨c, hc, e⟩ := guarded_iff.1 g
    rcases List.mem_cons.1 hc with rfl | hc
    · have := s.fresh.prots i hi _ e; omega
    · exact guarded_iff.2 ⟨c, hc, e⟩
  exact ⟨⟨s.fresh.tags, fun i hi c hc => Nat.lt_succ_of_lt (s.fresh.prots i hi c hc), fun c hc => by
    rcases List.mem_cons.1 hc with rfl | hc
    · exact Nat.lt_succ_self _
    · exact Nat.lt_succ_of_lt (s.fresh.calls c hc)⟩, s.uniq, fun i hi g => s.imm i hi (hg i hi g), fun i hi j hj g => s.up i hi j hj (hg i hi g),
    fun i hi k hk g gk => s.side i hi k hk (hg i hi g) (hg k hk gk)⟩

/-- The implicit access when a function ends. -/
theorem Sound.ends (s : Sound l) (hl : l.live = true) (h0 : l.ub = false) {i : Item} (hi : i ∈ l.items) (hg : i.guarded l.calls = true) : (l.ends i.tag).ub = false := by
  have hf : (l.items.find? (·.tag == i.tag)).map Item.perm = some i.perm := by
    cases e : l.items.find? (·.tag == i.tag) with
    | none =>
      have := List.find?_eq_none.1 e i hi
      simp at this
    | some j =>
      have h1 := List.mem_of_find?_eq_some e
      have h2 := List.find?_some e
      rw [s.uniq j h1 i hi (by simpa using h2)]
      rfl
  have hm := s.imm i hi hg
  have hhas : l.has i.tag = true := Loc.has_iff.2 ⟨hl, i, hi, rfl⟩
  unfold Loc.ends
  rw [hf]
  have go : ∀ w, (w = true → i.perm = .active) → i.perm ≠ .cell → (l.access true w i.tag).ub = false := fun w hw hc => by
    rw [Loc.access_ok hhas]
    · exact h0
    · intro j hj
      unfold Item.after
      split
      · rename_i h1
        obtain ⟨u1, u2⟩ := s.up i hi j hj hg (List.isSuffixOf_iff_suffix.1 h1)
        cases w with
        | true =>
          rcases u2 (hw rfl) with e | e <;> rw [e] <;> rfl
        | false =>
          have := u1 hc
          cases hp : j.perm <;> simp_all [Perm.child]
      · rename_i h1
        split
        · rfl
        · rename_i h2
          have n1 : ¬ j.tag <:+ i.tag := fun h => h1 (List.isSuffixOf_iff_suffix.2 h)
          have n2 : ¬ i.tag <:+ j.tag := fun h => h2 (by simpa using h)
          cases hgj : j.guarded l.calls with
          | false =>
            obtain ⟨q, hq⟩ := Perm.foreign_free w j.perm
            rw [hq]; rfl
          | true =>
            cases w with
            | true =>
              rw [s.side i hi j hj hg hgj n2 n1 (hw rfl)]
              rfl
            | false =>
              cases hp : j.perm with
              | active => exact absurd (s.side j hj i hi hgj hg n1 n2 hp) hc
              | _ => rfl
  revert hm go
  cases hp : i.perm with
  | active => intro _ go; exact go true (fun _ => rfl) (by simp)
  | cell => intro _ _; exact h0
  | disabled => intro _ _; exact h0
  | _ => intro _ go; exact go false (by simp) (by simp)

theorem Sound.ends_sound (s : Sound l) (h : (l.ends t).ub = false) : Sound (l.ends t) := by
  unfold Loc.ends at h ⊢
  split at h
  · exact s
  · exact s
  · exact s
  · exact s.access h
  · exact s.access h

theorem ends_same (h : (l.ends t).ub = false) : (l.ends t).live = l.live ∧ (l.ends t).calls = l.calls ∧ ∀ i ∈ l.items, ∃ i' ∈ (l.ends t).items, i'.tag = i.tag ∧ i'.prot = i.prot := by
  have go : ∀ w, (l.access true w t).ub = false → (l.access true w t).live = l.live ∧ (l.access true w t).calls = l.calls ∧ ∀ i ∈ l.items, ∃ i' ∈ (l.access true w t).items, i'.tag = i.tag ∧ i'.prot = i.prot :=
    fun w h => by
      rw [(Loc.access_spec h).2.2.2]
      exact ⟨rfl, rfl, fun i hi => ⟨_, List.mem_map_of_mem hi, rfl, rfl⟩⟩
  unfold Loc.ends at h ⊢
  split at h
  · exact ⟨rfl, rfl, fun i hi => ⟨i, hi, rfl, rfl⟩⟩
  · exact ⟨rfl, rfl, fun i hi => ⟨i, hi, rfl, rfl⟩⟩
  · exact ⟨rfl, rfl, fun i hi => ⟨i, hi, rfl, rfl⟩⟩
  · exact go true h
  · exact go false h

theorem Sound.endsAll : ∀ (is : List Item) {l : Loc}, Sound l → l.live = true → l.ub = false → (∀ i ∈ is, ∃ i' ∈ l.items, i'.tag = i.tag ∧ i'.guarded l.calls = true) →
    (is.foldl (fun l i => l.ends i.tag) l).ub = false ∧ Sound (is.foldl (fun l i => l.ends i.tag) l) ∧ (is.foldl (fun l i => l.ends i.tag) l).calls = l.calls
  | [], _, s, _, h0, _ => ⟨h0, s, rfl⟩
  | i :: is, l, s, hl, h0, h => by
    obtain ⟨i', hi', e, hg⟩ := h i (List.mem_cons_self ..)
    have h1 : (l.ends i.tag).ub = false := by rw [← e]; exact s.ends hl h0 hi' hg
    obtain ⟨k1, k2, k3⟩ := ends_same h1
    have := Sound.endsAll is (s.ends_sound h1) (k1.trans hl) h1 fun j hj => by
      obtain ⟨j', hj', e1, g1⟩ := h j (List.mem_cons_of_mem _ hj)
      obtain ⟨j'', hj'', e2, e3⟩ := k3 j' hj'
      refine ⟨j'', hj'', e2.trans e1, ?_⟩
      rw [k2]
      simp only [Item.guarded, e3]
      exact g1
    exact ⟨this.1, this.2.1, this.2.2.trans k2⟩

/-- The return of a function is allowed. -/
theorem Sound.leave (s : Sound l) (hl : l.items ≠ [] → l.live = true) (h0 : l.ub = false) (hc : l.calls ≠ []) : (l.act .leave).ub = false ∧ Sound (l.act .leave) := by
  cases e : l.calls with
  | nil => exact absurd e hc
  | cons c cs =>
    simp only [Loc.act, e]
    cases en : l.items with
    | nil => exact ⟨h0, s.fewer fun c hc => by rw [e]; exact List.mem_cons_of_mem _ hc⟩
    | cons i is =>
      rw [← en]
      obtain ⟨k1, k2, k3⟩ := Sound.endsAll (l.items.filter (·.prot == some c)) s (hl (by rw [en]; simp)) h0 fun i hi => by
        obtain ⟨hi, hp⟩ := List.mem_filter.1 hi
        exact ⟨i, hi, rfl, guarded_iff.2 ⟨c, by rw [e]; exact List.mem_cons_self .., by simpa using hp⟩⟩
      exact ⟨k1, k2.fewer fun c hc => by rw [k3, e]; exact List.mem_cons_of_mem _ hc⟩

/-- It remains so as long as there is no undefined behaviour. -/
theorem Sound.act (s : Sound l) {a : Acc} (hl : l.items ≠ [] → l.live = true) (h0 : l.ub = false) (h : (l.act a).ub = false) : Sound (l.act a) := by
  cases a with
  | read t => exact s.access h
  | write t => exact s.access h
  | enter => exact s.enter
  | leave =>
    refine (s.leave hl h0 fun e => ?_).2
    simp [Loc.act, e, Loc.bad] at h
  | reborrow p t prot =>
    simp only [Loc.act] at h ⊢
    split at h
    · rename_i hp
      rw [if_pos hp]
      have h : (l.access false false t).ub = false := h
      obtain ⟨-, h2, h3, h4⟩ := Loc.access_spec h
      have k := s.access h
      have e : (l.access false false t).calls = l.calls := by rw [h4]
      obtain ⟨m, hm, em⟩ := (Loc.has_iff.1 h2).2
      refine k.add (by rcases hp with h | h | h <;> simp [h]) ?_ fun _ => ⟨fun j' hj' hs => ?_, fun j' hj' hg hn => ?_⟩
      · rw [h4]
        exact ⟨_, List.mem_map_of_mem hm, em⟩
      · rw [h4] at hj'
        obtain ⟨j, hj, rfl⟩ := List.mem_map.1 hj'
        obtain ⟨q, hq⟩ := Option.isSome_iff_exists.1 (h3 j hj)
        simp only [hq, Option.getD_some]
        rcases after_cases hq with ⟨-, a⟩ | ⟨a, -⟩ | ⟨a, -⟩
        · exact (child_imm a).2
        · exact absurd hs a
        · exact absurd hs a
      · rw [e] at hg
        rw [h4] at hj'
        obtain ⟨j, hj, rfl⟩ := List.mem_map.1 hj'
        obtain ⟨q, hq⟩ := Option.isSome_iff_exists.1 (h3 j hj)
        simp only [hq, Option.getD_some]
        rcases after_cases hq with ⟨a, -⟩ | ⟨-, a, -⟩ | ⟨-, -, a⟩
        · exact absurd a hn
        · cases a
        · have hg : j.guarded l.calls = true := hg
          rw [hg] at a
          exact (foreign_guarded a (s.imm j hj hg)).2.2.1
    · rename_i hp
      rw [if_neg hp]
      split at h
      · rename_i hc
        rw [if_pos hc]
        exact s.add (by simp [hc.1]) (Loc.has_iff.1 hc.2).2 fun h => absurd hc.1 h
      · simp [Loc.bad] at h

end Miniserde.TB
