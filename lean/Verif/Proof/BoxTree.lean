import Verif.Model.BoxTree
import Verif.Proof.TreeReturns

/-!
# The builder of `Box<T>` follows Tree Borrows
-/

namespace Miniserde.TB

/-- Everything is allowed through `t`; `h` is an ancestor. -/
structure Open (h : Tag) (l : Loc) (t : Tag) : Prop where
  live : l.live = true
  ub : l.ub = false
  fresh : Fresh l
  has : ∃ i ∈ l.items, i.tag = t
  hasH : ∃ i ∈ l.items, i.tag = h
  le : h <:+ t
  path : ∀ i ∈ l.items, i.tag <:+ t → i.perm.ok (i.guarded l.calls)
  off : ∀ i ∈ l.items, ¬ i.tag <:+ t → i.guarded l.calls = false

variable {h : Tag} {l : Loc} {t : Tag}

theorem Open.after (o : Open h l t) {e w : Bool} {p : Tag} (hp : p <:+ t) (he : e = true ∨ p = t) {i : Item} (hi : i ∈ l.items) :
    ∃ q, i.after e w p l.calls = some q ∧ (i.tag <:+ t → q.ok (i.guarded l.calls)) := by
  unfold Item.after
  by_cases h1 : i.tag <:+ p
  · rw [if_pos (List.isSuffixOf_iff_suffix.2 h1)]
    obtain ⟨q, e1, e2⟩ := Perm.child_ok (w := w) (o.path i hi (h1.trans hp))
    exact ⟨q, e1, fun _ => e2⟩
  · rw [if_neg (fun k => h1 (List.isSuffixOf_iff_suffix.1 k))]
    by_cases h2 : e = true ∧ p <:+ i.tag
    · rw [if_pos (by simp [h2.1, h2.2])]
      exact ⟨_, rfl, o.path i hi⟩
    · rw [if_neg (by simpa using h2)]
      have n : ¬ i.tag <:+ t := fun k => by
        rcases List.suffix_or_suffix_of_suffix k hp with k' | k'
        · exact h1 k'
        · rcases he with he | he
          · exact h2 ⟨he, k'⟩
          · subst he; exact h1 k
      obtain ⟨q, e1⟩ := Perm.foreign_free w i.perm
      rw [o.off i hi n]
      exact ⟨q, e1, fun k => absurd k n⟩

theorem Open.access (o : Open h l t) {e w : Bool} {p : Tag} (hp : p <:+ t) (he : e = true ∨ p = t) (hm : ∃ i ∈ l.items, i.tag = p) :
    Open h (l.access e w p) t ∧ (l.access e w p).calls = l.calls ∧ (l.access e w p).next = l.next ∧ (l.access e w p).im = l.im ∧
      (∀ i ∈ (l.access e w p).items, ∃ j ∈ l.items, i.tag = j.tag ∧ i.prot = j.prot) ∧ ∀ j ∈ l.items, ∃ i ∈ (l.access e w p).items, i.tag = j.tag ∧ i.prot = j.prot := by
  have e1 := Loc.access_ok (e := e) (w := w) (Loc.has_iff.2 ⟨o.live, hm⟩) (fun i hi => by
    obtain ⟨q, e1, -⟩ := o.after (w := w) hp he hi
    rw [e1]; rfl)
  rw [e1]
  have hf : ∀ t', (∃ i ∈ l.items, i.tag = t') → ∃ i ∈ l.items.map (fun i => { i with perm := (i.after e w p l.calls).getD i.perm }), i.tag = t' := by
    rintro t' ⟨i, hi, rfl⟩
    exact ⟨_, List.mem_map_of_mem hi, rfl⟩
  refine ⟨⟨o.live, o.ub, ⟨?_, ?_, o.fresh.calls⟩, hf _ o.has, hf _ o.hasH, o.le, ?_, ?_⟩, rfl, rfl, rfl, ?_, fun j hj => ⟨_, List.mem_map_of_mem hj, rfl, rfl⟩⟩
  · intro i hi
    obtain ⟨j, hj, rfl⟩ := List.mem_map.1 hi
    exact o.fresh.tags j hj
  · intro i hi
    obtain ⟨j, hj, rfl⟩ := List.mem_map.1 hi
    exact o.fresh.prots j hj
  · intro i hi
    obtain ⟨j, hj, rfl⟩ := List.mem_map.1 hi
    intro k
    obtain ⟨q, e2, e3⟩ := o.after (w := w) hp he hj
    simp only [e2, Option.getD_some]
    exact e3 k
  · intro i hi
    obtain ⟨j, hj, rfl⟩ := List.mem_map.1 hi
    exact o.off j hj
  · intro i hi
    obtain ⟨j, hj, rfl⟩ := List.mem_map.1 hi
    exact ⟨j, hj, rfl, rfl⟩

theorem Open.read (o : Open h l t) : Open h (l.act (.read t)) t ∧ (l.act (.read t)).calls = l.calls ∧ (l.act (.read t)).im = l.im := by
  obtain ⟨h1, h2, -, h3, -⟩ := o.access (e := false) (w := false) (List.suffix_refl t) (.inr rfl) o.has
  exact ⟨h1, h2, h3⟩

theorem Open.write (o : Open h l t) : Open h (l.act (.write t)) t ∧ (l.act (.write t)).calls = l.calls ∧ (l.act (.write t)).im = l.im := by
  obtain ⟨h1, h2, -, h3, -⟩ := o.access (e := false) (w := true) (List.suffix_refl t) (.inr rfl) o.has
  exact ⟨h1, h2, h3⟩

theorem Open.reborrow (o : Open h l t) {p : Perm} (hp : p = l.mutPerm) (prot : Bool) :
    Open h (l.act (.reborrow p t prot)) (l.next :: t) ∧ (l.act (.reborrow p t prot)).calls = l.calls ∧ (l.act (.reborrow p t prot)).im = l.im ∧
      ∀ i ∈ (l.act (.reborrow p t prot)).items, i.tag = l.next :: t ∨ ∃ j ∈ l.items, i.prot = j.prot := by
  obtain ⟨k, kc, kn, ki, kf, kb⟩ := o.access (e := false) (w := false) (List.suffix_refl t) (.inr rfl) o.has
  have hp2 : p = .reserved false ∨ p = .reservedIM := by
    subst hp; unfold Loc.mutPerm; split <;> simp
  have e : l.act (.reborrow p t prot) = (l.access false false t).add p t prot := by
    simp only [Loc.act]
    rw [if_pos (hp2.elim .inl fun e => .inr (.inl e))]
  rw [e]
  generalize l.access false false t = m at *
  have suf : ∀ i ∈ m.items, i.tag <:+ l.next :: t → i.tag <:+ t := by
    intro i hi hs
    rcases List.suffix_cons_iff.1 hs with hs | hs
    · have := k.fresh.tags i hi l.next (by rw [hs]; simp)
      omega
    · exact hs
  refine ⟨⟨k.live, k.ub, ⟨?_, ?_, k.fresh.calls⟩, ⟨_, List.mem_cons_self .., by rw [kn]⟩, ?_, k.le.trans (List.suffix_cons ..), ?_, ?_⟩, kc, ki, ?_⟩
  · intro i hi
    show ∀ c ∈ i.tag, c < m.next + 1
    rcases List.mem_cons.1 hi with rfl | hi
    · intro c hc
      rcases List.mem_cons.1 hc with rfl | hc
      · exact Nat.lt_succ_self _
      · obtain ⟨j, hj, rfl⟩ := k.has
        exact Nat.lt_succ_of_lt (k.fresh.tags j hj c hc)
    · exact fun c hc => Nat.lt_succ_of_lt (k.fresh.tags i hi c hc)
  · intro i hi
    rcases List.mem_cons.1 hi with rfl | hi
    · intro c hc
      cases prot with
      | false => cases hc
      | true => exact k.fresh.calls c (List.mem_of_mem_head? (by simpa using hc))
    · exact k.fresh.prots i hi
  · obtain ⟨i, hi, e⟩ := k.hasH
    exact ⟨i, List.mem_cons_of_mem _ hi, e⟩
  · intro i hi hs
    rcases List.mem_cons.1 hi with rfl | hi
    · rcases hp2 with rfl | rfl <;> cases prot <;> simp [Perm.ok]
    · exact k.path i hi (suf i hi hs)
  · intro i hi hs
    rcases List.mem_cons.1 hi with rfl | hi
    · exact absurd (show m.next :: t <:+ l.next :: t by rw [kn]; exact List.suffix_refl _) hs
    · exact k.off i hi fun k' => hs (k'.trans (List.suffix_cons ..))
  · intro i hi
    rcases List.mem_cons.1 hi with rfl | hi
    · exact .inl (by rw [kn])
    · obtain ⟨j, hj, -, e⟩ := kf i hi
      exact .inr ⟨j, hj, e⟩

theorem Open.enter (o : Open h l t) : Open h (l.act .enter) t ∧ (l.act .enter).calls = l.call :: l.calls ∧ (l.act .enter).im = l.im := by
  have g : ∀ i ∈ l.items, i.guarded (l.call :: l.calls) = i.guarded l.calls := by
    intro i hi
    rw [Bool.eq_iff_iff, guarded_iff, guarded_iff]
    constructor
    · rintro ⟨c, hc, e⟩
      rcases List.mem_cons.1 hc with rfl | hc
      · have := o.fresh.prots i hi _ e
        omega
      · exact ⟨c, hc, e⟩
    · rintro ⟨c, hc, e⟩
      exact ⟨c, List.mem_cons_of_mem _ hc, e⟩
  refine ⟨⟨o.live, o.ub, ⟨o.fresh.tags, fun i hi c e => Nat.lt_succ_of_lt (o.fresh.prots i hi c e), fun c hc => ?_⟩, o.has, o.hasH, o.le, fun i hi hs => ?_, fun i hi hs => ?_⟩, rfl, rfl⟩
  · rcases List.mem_cons.1 hc with rfl | hc
    · exact Nat.lt_succ_self _
    · exact Nat.lt_succ_of_lt (o.fresh.calls c hc)
  · show i.perm.ok (i.guarded (l.call :: l.calls))
    rw [g i hi]; exact o.path i hi hs
  · show i.guarded (l.call :: l.calls) = false
    rw [g i hi]; exact o.off i hi hs

theorem Open.ends (o : Open h l t) {p : Tag} (hp : p <:+ t) :
    Open h (l.ends p) t ∧ (l.ends p).calls = l.calls ∧ (l.ends p).im = l.im ∧ (∀ i ∈ (l.ends p).items, ∃ j ∈ l.items, i.tag = j.tag ∧ i.prot = j.prot) ∧
      ∀ j ∈ l.items, ∃ i ∈ (l.ends p).items, i.tag = j.tag ∧ i.prot = j.prot := by
  have same : Open h l t ∧ l.calls = l.calls ∧ l.im = l.im ∧ (∀ i ∈ l.items, ∃ j ∈ l.items, i.tag = j.tag ∧ i.prot = j.prot) ∧
      ∀ j ∈ l.items, ∃ i ∈ l.items, i.tag = j.tag ∧ i.prot = j.prot := ⟨o, rfl, rfl, fun i hi => ⟨i, hi, rfl, rfl⟩, fun i hi => ⟨i, hi, rfl, rfl⟩⟩
  have acc : ∀ w, (∃ i ∈ l.items, i.tag = p) → Open h (l.access true w p) t ∧ (l.access true w p).calls = l.calls ∧ (l.access true w p).im = l.im ∧
      (∀ i ∈ (l.access true w p).items, ∃ j ∈ l.items, i.tag = j.tag ∧ i.prot = j.prot) ∧ ∀ j ∈ l.items, ∃ i ∈ (l.access true w p).items, i.tag = j.tag ∧ i.prot = j.prot := by
    intro w hm
    obtain ⟨h1, h2, -, h3, h4, h5⟩ := o.access (w := w) hp (.inl rfl) hm
    exact ⟨h1, h2, h3, h4, h5⟩
  unfold Loc.ends
  cases hf : l.items.find? (·.tag == p) with
  | none => exact same
  | some i =>
    have hm : ∃ i ∈ l.items, i.tag = p := ⟨i, List.mem_of_find?_eq_some hf, by simpa using List.find?_some hf⟩
    simp only [Option.map_some]
    split
    · exact same
    · exact same
    · exact same
    · exact acc true hm
    · exact acc false hm

theorem Open.endsAll : ∀ (is : List Item) {l : Loc}, Open h l t → (∀ i ∈ is, i.tag <:+ t) →
    Open h (is.foldl (fun l i => l.ends i.tag) l) t ∧ (is.foldl (fun l i => l.ends i.tag) l).calls = l.calls ∧ (is.foldl (fun l i => l.ends i.tag) l).im = l.im
  | [], l, o, _ => ⟨o, rfl, rfl⟩
  | i :: is, l, o, hi => by
    obtain ⟨h1, h2, h3, -, -⟩ := o.ends (hi i (List.mem_cons_self ..))
    obtain ⟨k1, k2, k3⟩ := Open.endsAll is h1 fun j hj => hi j (List.mem_cons_of_mem _ hj)
    exact ⟨k1, k2.trans h2, k3.trans h3⟩

/-- Fewer calls in progress. -/
theorem Open.fewer (o : Open h l t) {cs : List Nat} (hs : ∀ c ∈ cs, c ∈ l.calls) : Open h { l with calls := cs } t := by
  have g : ∀ i : Item, i.guarded cs = true → i.guarded l.calls = true := by
    intro i hi
    obtain ⟨c, hc, e⟩ := guarded_iff.1 hi
    exact guarded_iff.2 ⟨c, hs c hc, e⟩
  refine ⟨o.live, o.ub, ⟨o.fresh.tags, o.fresh.prots, fun c hc => o.fresh.calls c (hs c hc)⟩, o.has, o.hasH, o.le, fun i hi k => Perm.ok_mono (g i) (o.path i hi k), fun i hi k => ?_⟩
  show i.guarded cs = false
  cases e : i.guarded cs with
  | false => rfl
  | true => have := g i e; rw [o.off i hi k] at this; cases this

theorem Open.leave (o : Open h l t) {c : Nat} {cs : List Nat} (hc : l.calls = c :: cs) : Open h (l.act .leave) t ∧ (l.act .leave).calls = cs ∧ (l.act .leave).im = l.im := by
  simp only [Loc.act]
  rw [hc]
  obtain ⟨h1, h2, h3⟩ := o.endsAll (l.items.filter (·.prot == some c)) (fun i hi => by
    obtain ⟨hi, e⟩ := List.mem_filter.1 hi
    refine Classical.byContradiction fun n => ?_
    have := o.off i hi n
    rw [guarded_iff.2 ⟨c, by rw [hc]; simp, by simpa using e⟩] at this
    cases this)
  exact ⟨h1.fewer (by rw [h2, hc]; exact fun x hx => List.mem_cons_of_mem _ hx), rfl, h3⟩

theorem Open.up (o : Open h l t) (hc : l.calls = []) : Open h l h := by
  have ng : ∀ i : Item, i.guarded l.calls = false := fun i => by
    cases e : i.guarded l.calls with
    | false => rfl
    | true => obtain ⟨c, hc', -⟩ := guarded_iff.1 e; rw [hc] at hc'; cases hc'
  exact ⟨o.live, o.ub, o.fresh, o.hasH, o.hasH, List.suffix_refl _, fun i hi k => o.path i hi (k.trans o.le), fun i _ _ => ng i⟩

theorem Open.free (o : Open h l t) (hc : l.calls = []) : (l.free t).ub = false ∧ (l.free t).live = false := by
  obtain ⟨h1, h2, -⟩ := o.access (e := false) (w := true) (List.suffix_refl t) (.inr rfl) o.has
  have ng : (l.access false true t).items.any (·.guarded (l.access false true t).calls) = false := by
    rw [List.any_eq_false]
    intro i _ e
    obtain ⟨c, hc', -⟩ := guarded_iff.1 e
    rw [h2, hc] at hc'; cases hc'
  simp only [Loc.free, ng]
  exact ⟨h1.ub, rfl⟩

/-! ## Safe code -/

/-- The location, and as safe code knows it that was given `ρ`. -/
structure Rel (ρ h : Tag) (r v : Loc) : Prop where
  view : v = { r with items := below ρ r.items }
  live : r.live = true
  ub : r.ub = false
  fresh : Fresh r
  hasH : ∃ i ∈ r.items, i.tag = h
  le : h <:+ ρ
  hρ : h ≠ ρ
  tag : ∀ k ∈ ρ, k < r.next
  path : ∀ i ∈ r.items, ¬ ρ <:+ i.tag → i.tag <:+ ρ → i.perm.ok false
  off : ∀ i ∈ r.items, ¬ ρ <:+ i.tag → i.guarded r.calls = false

theorem mem_below {ρ : Tag} {is : List Item} {i : Item} : i ∈ below ρ is ↔ i ∈ is ∧ ρ <:+ i.tag := by simp [below]

variable {ρ : Tag} {r v : Loc}

theorem Rel.after (o : Rel ρ h r v) {e w : Bool} {p : Tag} (hp : ρ <:+ p) (hv : ∀ i ∈ v.items, (i.after e w p v.calls).isSome = true) {i : Item} (hi : i ∈ r.items) :
    ∃ q, i.after e w p r.calls = some q ∧ (¬ ρ <:+ i.tag → i.tag <:+ ρ → q.ok false) := by
  by_cases hd : ρ <:+ i.tag
  · have := hv i (by rw [o.view]; exact mem_below.2 ⟨hi, hd⟩)
    rw [show v.calls = r.calls by rw [o.view]] at this
    obtain ⟨q, e⟩ := Option.isSome_iff_exists.1 this
    exact ⟨q, e, fun n => absurd hd n⟩
  · unfold Item.after
    rw [o.off i hi hd]
    by_cases h1 : i.tag <:+ p
    · rw [if_pos (List.isSuffixOf_iff_suffix.2 h1)]
      have h2 : i.tag <:+ ρ := (List.suffix_or_suffix_of_suffix h1 hp).resolve_right hd
      obtain ⟨q, e1, e2⟩ := Perm.child_ok (w := w) (o.path i hi hd h2)
      exact ⟨q, e1, fun _ _ => e2⟩
    · rw [if_neg (fun k => h1 (List.isSuffixOf_iff_suffix.1 k))]
      have h2 : ¬ p <:+ i.tag := fun k => hd (hp.trans k)
      rw [if_neg (by simp [h2])]
      obtain ⟨q, e1⟩ := Perm.foreign_free w i.perm
      exact ⟨q, e1, fun _ k => absurd (k.trans hp) h1⟩

theorem Rel.access (o : Rel ρ h r v) {e w : Bool} {p : Tag} (hv : (v.access e w p).ub = false) : Rel ρ h (r.access e w p) (v.access e w p) ∧
    (r.access e w p).calls = r.calls ∧ (r.access e w p).next = r.next ∧ ρ <:+ p ∧ (∃ i ∈ r.items, i.tag = p) := by
  obtain ⟨-, v2, v3, v4⟩ := Loc.access_spec hv
  obtain ⟨-, j, hj, rfl⟩ := Loc.has_iff.1 v2
  have hj' := mem_below.1 (show j ∈ below ρ r.items by rw [o.view] at hj; exact hj)
  have e1 := Loc.access_ok (e := e) (w := w) (Loc.has_iff.2 ⟨o.live, j, hj'.1, rfl⟩) (fun i hi => by
    obtain ⟨q, e1, -⟩ := o.after hj'.2 v3 hi
    rw [e1]; rfl)
  rw [v4, e1]
  refine ⟨⟨?_, o.live, o.ub, ⟨?_, ?_, o.fresh.calls⟩, ?_, o.le, o.hρ, o.tag, ?_, ?_⟩, rfl, rfl, hj'.2, j, hj'.1, rfl⟩
  · rw [o.view]
    simp only [below, List.filter_map, Function.comp_def]
  · intro i hi
    obtain ⟨j, hj, rfl⟩ := List.mem_map.1 hi
    exact o.fresh.tags j hj
  · intro i hi
    obtain ⟨j, hj, rfl⟩ := List.mem_map.1 hi
    exact o.fresh.prots j hj
  · obtain ⟨i, hi, e⟩ := o.hasH
    exact ⟨_, List.mem_map_of_mem hi, e⟩
  · intro i hi
    obtain ⟨k, hk, rfl⟩ := List.mem_map.1 hi
    intro h1 h2
    obtain ⟨q, e2, e3⟩ := o.after hj'.2 v3 hk
    simp only [e2, Option.getD_some]
    exact e3 h1 h2
  · intro i hi
    obtain ⟨j, hj, rfl⟩ := List.mem_map.1 hi
    exact o.off j hj

theorem Rel.add (o : Rel ρ h r v) {p : Perm} {t : Tag} {prot : Bool} (ht : ρ <:+ t) (hm : ∃ i ∈ r.items, i.tag = t) : Rel ρ h (r.add p t prot) (v.add p t prot) := by
  have hd : ρ <:+ r.next :: t := ht.trans (List.suffix_cons ..)
  refine ⟨?_, o.live, o.ub, ⟨?_, ?_, o.fresh.calls⟩, ?_, o.le, o.hρ, fun k hk => Nat.lt_succ_of_lt (o.tag k hk), ?_, ?_⟩
  · rw [o.view]
    simp [Loc.add, below, hd]
  · intro i hi
    show ∀ c ∈ i.tag, c < r.next + 1
    rcases List.mem_cons.1 hi with rfl | hi
    · intro c hc
      rcases List.mem_cons.1 hc with rfl | hc
      · exact Nat.lt_succ_self _
      · obtain ⟨j, hj, rfl⟩ := hm
        exact Nat.lt_succ_of_lt (o.fresh.tags j hj c hc)
    · exact fun c hc => Nat.lt_succ_of_lt (o.fresh.tags i hi c hc)
  · intro i hi
    rcases List.mem_cons.1 hi with rfl | hi
    · intro c hc
      cases prot with
      | false => cases hc
      | true => exact o.fresh.calls c (List.mem_of_mem_head? (by simpa using hc))
    · exact o.fresh.prots i hi
  · obtain ⟨i, hi, e⟩ := o.hasH
    exact ⟨i, List.mem_cons_of_mem _ hi, e⟩
  · intro i hi
    rcases List.mem_cons.1 hi with rfl | hi
    · exact fun n => absurd hd n
    · exact o.path i hi
  · intro i hi
    rcases List.mem_cons.1 hi with rfl | hi
    · exact fun n => absurd hd n
    · exact o.off i hi

theorem ends_ub {p : Tag} (hv : (v.ends p).ub = false) : v.ub = false := by
  unfold Loc.ends at hv
  split at hv
  · exact hv
  · exact hv
  · exact hv
  · exact (Loc.access_spec hv).1
  · exact (Loc.access_spec hv).1

theorem endsAll_ub : ∀ (is : List Item) {v : Loc}, (is.foldl (fun l i => l.ends i.tag) v).ub = false → v.ub = false
  | [], _, h => h
  | _ :: is, _, h => ends_ub (endsAll_ub is h)

theorem Rel.ends (o : Rel ρ h r v) {p : Tag} (hp : ρ <:+ p) (hv : (v.ends p).ub = false) : Rel ρ h (r.ends p) (v.ends p) ∧ (r.ends p).calls = r.calls := by
  have ef : v.items.find? (·.tag == p) = r.items.find? (·.tag == p) := by
    rw [o.view]
    show (below ρ r.items).find? _ = _
    rw [below, List.find?_filter]
    congr 1
    funext _
    rw [Bool.eq_iff_iff]
    simp only [beq_iff_eq, List.isSuffixOf_iff_suffix, decide_eq_true_eq]
    exact ⟨fun k => k.2, fun k => ⟨by rw [k]; exact hp, k⟩⟩
  unfold Loc.ends at hv ⊢
  rw [ef] at hv ⊢
  have acc : ∀ w, (v.access true w p).ub = false → Rel ρ h (r.access true w p) (v.access true w p) ∧ (r.access true w p).calls = r.calls := by
    intro w hv
    obtain ⟨h1, h2, -⟩ := o.access hv
    exact ⟨h1, h2⟩
  revert hv
  generalize (r.items.find? (·.tag == p)).map Item.perm = x
  intro hv
  cases x with
  | none => exact ⟨o, rfl⟩
  | some q =>
    cases q with
    | cell | disabled => exact ⟨o, rfl⟩
    | active => exact acc true hv
    | reserved | reservedIM | frozen => exact acc false hv

theorem Rel.endsAll : ∀ (is : List Item) {r v : Loc}, Rel ρ h r v → (∀ i ∈ is, ρ <:+ i.tag) → (is.foldl (fun l i => l.ends i.tag) v).ub = false →
    Rel ρ h (is.foldl (fun l i => l.ends i.tag) r) (is.foldl (fun l i => l.ends i.tag) v) ∧ (is.foldl (fun l i => l.ends i.tag) r).calls = r.calls
  | [], _, _, o, _, _ => ⟨o, rfl⟩
  | i :: is, r, v, o, hi, hv => by
    obtain ⟨h1, h2⟩ := o.ends (hi i (List.mem_cons_self ..)) (endsAll_ub is hv)
    obtain ⟨k1, k2⟩ := Rel.endsAll is h1 (fun j hj => hi j (List.mem_cons_of_mem _ hj)) hv
    exact ⟨k1, k2.trans h2⟩

theorem Rel.fewer (o : Rel ρ h r v) {cs : List Nat} (hs : ∀ c ∈ cs, c ∈ r.calls) : Rel ρ h { r with calls := cs } { v with calls := cs } := by
  refine ⟨by rw [o.view], o.live, o.ub, ⟨o.fresh.tags, o.fresh.prots, fun c hc => o.fresh.calls c (hs c hc)⟩, o.hasH, o.le, o.hρ, o.tag, o.path, fun i hi k => ?_⟩
  show i.guarded cs = false
  cases e : i.guarded cs with
  | false => rfl
  | true =>
    obtain ⟨c, hc, e⟩ := guarded_iff.1 e
    have := o.off i hi k
    rw [guarded_iff.2 ⟨c, hs c hc, e⟩] at this
    cases this

/-- Whatever is allowed in the view is allowed. -/
theorem Rel.act (o : Rel ρ h r v) {a : Acc} (hv : (v.act a).ub = false) : Rel ρ h (r.act a) (v.act a) := by
  cases a with
  | read t => exact (o.access hv).1
  | write t => exact (o.access hv).1
  | reborrow p t prot =>
    simp only [Loc.act] at hv ⊢
    split at hv
    · rename_i hp
      rw [if_pos hp, if_pos hp]
      obtain ⟨h1, -, -, h4, h5⟩ := o.access (show (v.access false false t).ub = false from hv)
      refine h1.add h4 ?_
      obtain ⟨i, hi, e⟩ := h5
      rw [(Loc.access_spec h1.ub).2.2.2]
      exact ⟨_, List.mem_map_of_mem hi, e⟩
    · rename_i hp
      rw [if_neg hp, if_neg hp]
      split at hv
      · rename_i hc
        obtain ⟨-, i, hi, e⟩ := Loc.has_iff.1 hc.2
        have hi' := mem_below.1 (show i ∈ below ρ r.items by rw [o.view] at hi; exact hi)
        rw [if_pos hc, if_pos ⟨hc.1, Loc.has_iff.2 ⟨o.live, i, hi'.1, e⟩⟩]
        exact o.add (by rw [← e]; exact hi'.2) ⟨i, hi'.1, e⟩
      · simp [Loc.bad] at hv
  | enter =>
    have g : ∀ i ∈ r.items, i.guarded r.calls = false → i.guarded (r.call :: r.calls) = false := by
      intro i hi hg
      cases e : i.guarded (r.call :: r.calls) with
      | false => rfl
      | true =>
        obtain ⟨c, hc, e⟩ := guarded_iff.1 e
        rcases List.mem_cons.1 hc with rfl | hc
        · have := o.fresh.prots i hi _ e
          omega
        · rw [guarded_iff.2 ⟨c, hc, e⟩] at hg; cases hg
    refine ⟨by rw [o.view]; rfl, o.live, o.ub, ⟨o.fresh.tags, fun i hi c e => Nat.lt_succ_of_lt (o.fresh.prots i hi c e), fun c hc => ?_⟩, o.hasH, o.le, o.hρ, o.tag, o.path, fun i hi k => g i hi (o.off i hi k)⟩
    rcases List.mem_cons.1 hc with rfl | hc
    · exact Nat.lt_succ_self _
    · exact Nat.lt_succ_of_lt (o.fresh.calls c hc)
  | leave =>
    have ec : v.calls = r.calls := by rw [o.view]
    simp only [Loc.act] at hv ⊢
    rw [ec] at hv ⊢
    cases hc : r.calls with
    | nil => simp only [hc] at hv; simp [Loc.bad] at hv
    | cons c cs =>
      simp only [hc] at hv ⊢
      have ei : r.items.filter (·.prot == some c) = v.items.filter (·.prot == some c) := by
        rw [o.view]
        show _ = (below ρ r.items).filter _
        rw [below, List.filter_filter]
        refine List.filter_congr fun i hi => ?_
        rw [Bool.eq_iff_iff]
        simp only [Bool.and_eq_true, beq_iff_eq, List.isSuffixOf_iff_suffix]
        refine ⟨fun k => ⟨k, Classical.byContradiction fun n => ?_⟩, fun k => k.1⟩
        have := o.off i hi n
        rw [guarded_iff.2 ⟨c, by rw [hc]; simp, k⟩] at this
        cases this
      rw [ei]
      have hin : ∀ i ∈ v.items.filter (·.prot == some c), ρ <:+ i.tag := by
        intro i hi
        have := (List.mem_filter.1 hi).1
        rw [o.view] at this
        exact (mem_below.1 this).2
      obtain ⟨h1, h2⟩ := o.endsAll _ hin hv
      exact h1.fewer (by rw [h2, hc]; exact fun x hx => List.mem_cons_of_mem _ hx)

theorem Rel.steps : ∀ (as : List Acc) {r v : Loc}, Rel ρ h r v → Sound r → Rel ρ h (as.foldl safeStep (r, v)).1 (as.foldl safeStep (r, v)).2 ∧ Sound (as.foldl safeStep (r, v)).1
  | [], _, _, o, s => ⟨o, s⟩
  | a :: as, r, v, o, s => by
    simp only [List.foldl_cons, safeStep]
    split
    · exact Rel.steps as o s
    · rename_i hn
      have k := o.act (a := a) (by simpa using hn)
      exact Rel.steps as k (s.act (fun _ => o.live) o.ub k.ub)

theorem leave_calls : (v.act .leave).ub = false → (v.act .leave).calls = v.calls.drop 1 := by
  simp only [Loc.act]
  cases v.calls with
  | nil => intro h; simp [Loc.bad] at h
  | cons c cs => intro _; rfl

theorem Rel.returns : ∀ (n : Nat) {r v : Loc}, Rel ρ h r v → Sound r → v.calls.length = n →
    Rel ρ h (safeReturns n (r, v)).1 (safeReturns n (r, v)).2 ∧ (safeReturns n (r, v)).2.calls = [] ∧ Sound (safeReturns n (r, v)).1
  | 0, _, v, o, s, e => ⟨o, List.eq_nil_of_length_eq_zero e, s⟩
  | n + 1, r, v, o, s, e => by
    simp only [safeReturns]
    have hs : Sound v := by
      rw [o.view]
      exact s.sub (is := below ρ r.items) (fun i hi => (mem_below.1 hi).1) r.live r.ub
    have hn : (v.act .leave).ub = false := (hs.leave (fun _ => by rw [o.view]; exact o.live) (by rw [o.view]; exact o.ub) (fun h => by rw [h] at e; simp at e)).1
    have k := o.act hn
    exact Rel.returns n k (s.act (fun _ => o.live) o.ub k.ub) (by rw [leave_calls hn]; simp [e])

theorem Rel.run (o : Rel ρ h r v) (s : Sound r) (as : List Acc) : Rel ρ h (safeRun as (r, v)).1 (safeRun as (r, v)).2 ∧ (safeRun as (r, v)).2.calls = [] ∧ Sound (safeRun as (r, v)).1 :=
  Rel.returns _ (Rel.steps as o s).1 (Rel.steps as o s).2 rfl

/-- Safe code has returned. -/
theorem Rel.open (o : Rel ρ h r v) (hc : v.calls = []) : Open h r h := by
  have ec : r.calls = [] := by rw [← hc, o.view]
  have ng : ∀ i : Item, i.guarded r.calls = false := fun i => by
    cases e : i.guarded r.calls with
    | false => rfl
    | true => obtain ⟨c, hc', -⟩ := guarded_iff.1 e; rw [ec] at hc'; cases hc'
  refine ⟨o.live, o.ub, o.fresh, o.hasH, o.hasH, List.suffix_refl _, fun i hi k => ?_, fun i _ _ => ng i⟩
  rw [ng i]
  refine o.path i hi (fun k' => o.hρ ?_) (k.trans o.le)
  exact o.le.eq_of_length (Nat.le_antisymm o.le.length_le (k'.trans k).length_le)

/-- `t` is lent; `k`: what it comes from. -/
theorem Open.lend (o : Open h l t) (hc : l.calls = []) : Rel (l.next :: t) h (TB.lend t l).1 (TB.lend t l).2 ∧ Rel (l.next :: t) t (TB.lend t l).1 (TB.lend t l).2 := by
  obtain ⟨h1, c1, i1⟩ := o.enter
  obtain ⟨h2, c2, -, f2⟩ := h1.reborrow (p := l.mutPerm) (by simp only [Loc.mutPerm, i1]) true
  have em : (l.act .enter).next = l.next := rfl
  have hasT : ∃ i ∈ ((l.act .enter).act (.reborrow l.mutPerm t true)).items, i.tag = t := by
    have o' : Open t l t := ⟨o.live, o.ub, o.fresh, o.has, o.has, List.suffix_refl _, o.path, o.off⟩
    obtain ⟨h1, -, i1⟩ := o'.enter
    exact (h1.reborrow (p := l.mutPerm) (by simp only [Loc.mutPerm, i1]) true).1.hasH
  simp only [TB.lend]
  rw [em] at h2 f2
  rw [c1, hc] at c2
  have base : ∀ {x : Tag}, (∃ i ∈ ((l.act .enter).act (.reborrow l.mutPerm t true)).items, i.tag = x) → x <:+ t →
      Rel (l.next :: t) x ((l.act .enter).act (.reborrow l.mutPerm t true))
        { (l.act .enter).act (.reborrow l.mutPerm t true) with
          items := ((l.act .enter).act (.reborrow l.mutPerm t true)).items.filter (fun i => (l.next :: t).isSuffixOf i.tag)
          calls := ((l.act .enter).act (.reborrow l.mutPerm t true)).calls.take 1 } := by
    intro x hx hle
    generalize (l.act .enter).act (.reborrow l.mutPerm t true) = m at *
    refine ⟨by simp [below, c2], h2.live, h2.ub, h2.fresh, hx, hle.trans (List.suffix_cons ..), ?_, ?_, ?_, ?_⟩
    · rintro rfl
      have := hle.length_le
      simp at this
      omega
    · obtain ⟨i, hi, e⟩ := h2.has
      rw [← e]; exact h2.fresh.tags i hi
    · intro i hi _ k
      exact Perm.ok_mono (by simp) (h2.path i hi k)
    · intro i hi n
      cases e : i.guarded m.calls with
      | false => rfl
      | true =>
        obtain ⟨c, hc', e⟩ := guarded_iff.1 e
        rw [c2, List.mem_singleton] at hc'
        rcases f2 i hi with e' | ⟨j, hj, e'⟩
        · exact absurd (by rw [e']; exact List.suffix_refl _) n
        · have := o.fresh.prots j hj c (by rw [← e', e])
          omega
  exact ⟨base h2.hasH o.le, base hasT (List.suffix_refl _)⟩

end Miniserde.TB

namespace Miniserde.BoxTree

open TB

variable {h : Tag} {l : Loc} {t : Tag}

/-! ## The library -/

/-- What the driver and the library have: `t` can be used, `cs` are the calls in progress. -/
structure At (h : Tag) (cs : List Nat) (x : Loc × Tag) : Prop where
  op : Open h x.1 x.2
  calls : x.1.calls = cs
  snd : Sound x.1

theorem At.reborrow {cs : List Nat} (o : At h cs (l, t)) : At h cs (reborrow t l) := by
  obtain ⟨h1, h2, -⟩ := o.op.reborrow (p := l.mutPerm) rfl false
  exact ⟨h1, h2.trans o.calls, o.snd.act (fun _ => o.op.live) o.op.ub h1.ub⟩

theorem At.enter {cs : List Nat} (o : At h cs (l, t)) : At h (l.call :: cs) (l.act .enter, t) := by
  obtain ⟨h1, h2, -⟩ := o.op.enter
  exact ⟨h1, h2.trans (congrArg _ o.calls), o.snd.enter⟩

theorem At.leave {c : Nat} {cs : List Nat} (o : At h (c :: cs) (l, t)) : At h cs (leave l, t) := by
  obtain ⟨h1, h2, -⟩ := o.op.leave o.calls
  exact ⟨h1, h2, o.snd.act (fun _ => o.op.live) o.op.ub h1.ub⟩

theorem At.argument {cs : List Nat} (o : At h cs (l, t)) : At h (l.call :: cs) (argument t l) := by
  obtain ⟨h1, h2, hi⟩ := o.op.enter
  obtain ⟨k1, k2, -⟩ := h1.reborrow (p := l.mutPerm) (by simp only [Loc.mutPerm, hi]) true
  exact ⟨k1, k2.trans (h2.trans (congrArg _ o.calls)), o.snd.enter.act (fun _ => h1.live) h1.ub k1.ub⟩

theorem At.up {cs : List Nat} (o : At h cs (l, t)) (hc : cs = []) : At h [] (l, h) := by
  subst hc
  exact ⟨o.op.up o.calls, o.calls, o.snd⟩

theorem derefMut_at (o : At h [] (l, h)) : At h [] (derefMut h l) := by
  simp only [derefMut]
  exact (At.reborrow (At.leave (At.reborrow (At.leave (At.reborrow o.enter.enter)))))

theorem take_at (o : At h [] (l, h)) : At h [] (take h l, h) := by
  have h1 := derefMut_at o
  simp only [take]
  generalize derefMut h l = x at *
  have h2 := At.reborrow h1
  generalize BoxTree.reborrow x.2 x.1 = x at *
  have h3 := At.argument h2
  generalize BoxTree.argument x.2 x.1 = x at *
  have h4 := At.argument h3
  generalize BoxTree.argument x.2 x.1 = x at *
  obtain ⟨k1, k2, -⟩ := h4.op.read
  obtain ⟨m1, m2, -⟩ := k1.write
  have h5 : At h _ ((x.1.act (.read x.2)).act (.write x.2), x.2) := ⟨m1, m2.trans (k2.trans h4.calls), (h4.snd.act (fun _ => h4.op.live) h4.op.ub k1.ub).act (fun _ => k1.live) k1.ub m1.ub⟩
  exact h5.leave.leave.up rfl

/-- The user's code runs on what it has been lent. -/
theorem lend_run (o : At h [] (l, t)) (as : List Acc) :
    ∃ ρ, Rel ρ h (safeRun as (lend t l)).1 (safeRun as (lend t l)).2 ∧ Rel ρ t (safeRun as (lend t l)).1 (safeRun as (lend t l)).2 ∧ (safeRun as (lend t l)).2.calls = [] ∧ Sound (safeRun as (lend t l)).1 := by
  obtain ⟨h1, h2⟩ := o.op.lend o.calls
  have s1 : Sound (lend t l).1 := o.snd.enter.act (fun _ => o.op.enter.1.live) o.op.enter.1.ub h1.ub
  exact ⟨_, (h1.run s1 as).1, (h2.run s1 as).1, (h1.run s1 as).2⟩

theorem Rel.at {ρ : Tag} {r v : Loc} (o : Rel ρ h r v) (hc : v.calls = [] ∧ Sound r) : At h [] (r, h) := ⟨o.open hc.1, by rw [← hc.1, o.view], hc.2⟩

theorem dropBox_ok (o : At h [] (l, h)) (vacts : List Acc) : (dropBox vacts h l).ub = false ∧ (dropBox vacts h l).live = false := by
  simp only [dropBox]
  have h1 := At.reborrow (At.leave (At.reborrow o.enter))
  obtain ⟨ρ, -, h2, h3⟩ := lend_run h1 vacts
  exact (h2.open h3.1).free (Rel.at h2 h3).calls

theorem sound_fresh (im : Bool) : Sound (Loc.fresh im) := by
  refine ⟨⟨?_, ?_, fun c hc => nomatch hc⟩, ?_, ?_, ?_, ?_⟩
  · intro i hi
    obtain rfl := List.mem_singleton.1 hi
    simp [Loc.fresh]
  · intro i hi c e
    obtain rfl := List.mem_singleton.1 hi
    cases e
  · intro i hi j hj _
    rw [List.mem_singleton.1 hi, List.mem_singleton.1 hj]
  · intro i hi hg
    obtain rfl := List.mem_singleton.1 hi
    cases hg
  · intro i hi j _ hg
    obtain rfl := List.mem_singleton.1 hi
    cases hg
  · intro i hi k _ hg
    obtain rfl := List.mem_singleton.1 hi
    cases hg

theorem newBox_at (im : Bool) : At (newBox im).2 [] (newBox im) := by
  have h0 : At [0] [] (Loc.fresh im, [0]) := by
    refine ⟨⟨rfl, rfl, ⟨?_, ?_, ?_⟩, ⟨_, List.mem_singleton.2 rfl, rfl⟩, ⟨_, List.mem_singleton.2 rfl, rfl⟩, List.suffix_refl _, ?_, ?_⟩, rfl, sound_fresh im⟩
    · intro i hi
      obtain rfl := List.mem_singleton.1 hi
      simp [Loc.fresh]
    · intro i hi c e
      obtain rfl := List.mem_singleton.1 hi
      cases e
    · intro c hc
      cases hc
    · intro i hi _
      obtain rfl := List.mem_singleton.1 hi
      trivial
    · intro i hi n
      obtain rfl := List.mem_singleton.1 hi
      exact absurd (List.suffix_refl _) n
  simp only [newBox]
  have h1 := At.argument (At.argument (At.reborrow h0))
  have h2 := (At.leave (At.leave h1))
  have o := h2.op
  exact ⟨⟨o.live, o.ub, o.fresh, o.has, o.has, List.suffix_refl _, o.path, o.off⟩, h2.calls, h2.snd⟩

/-! ## Programs -/

/-- What the builder's fields are like between two calls. -/
structure Inv (b : Bld) : Prop where
  held : At b.ptr [] (b.loc, b.ptr)
  inner : ∀ v, b.inner = some v → ∃ ρ, Rel ρ b.ptr b.loc v ∧ v.calls = []

theorem Inv.user {b : Bld} (h : Inv b) (as : List Acc) : Inv (b.user as) ∧ (b.user as).ptr = b.ptr ∧ (b.user as).inner.isSome = b.inner.isSome := by
  unfold Bld.user
  cases hb : b.inner with
  | none => exact ⟨h, rfl, by rw [hb]⟩
  | some v =>
    obtain ⟨ρ, hv, hc⟩ := h.inner v hb
    obtain ⟨k1, k2⟩ := hv.run h.held.snd as
    exact ⟨⟨Rel.at k1 k2, fun w hw => by
      obtain rfl := Option.some.inj hw
      exact ⟨ρ, k1, k2.1⟩⟩, rfl, rfl⟩

theorem Inv.gone {b : Bld} (h : Inv b) : Inv { b with inner := none } := ⟨h.held, fun v hv => by simp at hv⟩

theorem Inv.finish {b : Bld} (h : Inv b) (acts : List Acc) (res : Res) (dacts : List Acc) (panics : Bool) : Inv (b.finish acts res dacts panics) := by
  unfold Bld.finish
  split
  · exact (h.user acts).1
  · have h1 := ((h.user acts).1.user dacts).1.gone
    split
    · exact h1
    · exact ⟨take_at h1.held, fun v hv => by simp at hv⟩

theorem Inv.drop {b : Bld} (h : Inv b) (dacts : List Acc) (abort : Bool) (vacts : List Acc) : (b.drop dacts abort vacts).ub = false := by
  unfold Bld.drop
  have h1 := (h.user dacts).1
  split
  · exact h1.held.op.ub
  · exact (dropBox_ok h1.held vacts).1

theorem start_ok (im : Bool) (acts : List Acc) (res : Res) (vacts : List Acc) :
    (∃ l, start false im acts res vacts = .inl l ∧ l.ub = false ∧ l.live = false) ∨ ∃ b, start false im acts res vacts = .inr b ∧ Inv b := by
  have h0 := newBox_at im
  simp only [start, move, Bool.false_eq_true, if_false]
  generalize newBox im = nb at *
  have h1 := derefMut_at h0
  generalize derefMut nb.2 nb.1 = x at *
  have h2 := At.reborrow h1
  generalize BoxTree.reborrow x.2 x.1 = x at *
  have h3 := At.argument h2
  generalize BoxTree.argument x.2 x.1 = x at *
  have h4 := At.reborrow h3.leave
  generalize BoxTree.reborrow x.2 (BoxTree.leave x.1) = x at *
  obtain ⟨ρ, k1, -, k3⟩ := lend_run h4 acts
  split
  · exact .inr ⟨_, rfl, Rel.at k1 k3, fun w hw => by
      obtain rfl := Option.some.inj hw
      exact ⟨ρ, k1, k3.1⟩⟩
  · exact .inl ⟨_, rfl, (dropBox_ok (Rel.at k1 k3) vacts)⟩

/-- The invariant of programs. -/
def WInv (w : World) : Prop := w.ub = false ∧ ∀ b, w.bld = some b → Inv b

theorem WInv.step {w : World} (h : WInv w) (c : BoxCall) : WInv (w.step false c) := by
  obtain ⟨bld, ub⟩ := w
  obtain ⟨rfl, hb⟩ := h
  have some_inv : ∀ {b' : Bld}, Inv b' → WInv ⟨some b', false⟩ := fun {b'} hb' => ⟨rfl, fun x hx => by
    obtain rfl : b' = x := by simpa using hx
    exact hb'⟩
  have none_inv : ∀ {u : Bool}, u = false → WInv ⟨none, u⟩ := fun hu => ⟨hu, fun x hx => by simp at hx⟩
  cases bld with
  | none =>
    cases c with
    | start im acts res vacts =>
      rcases start_ok im acts res vacts with ⟨l, e, hl, -⟩ | ⟨b, e, hi⟩
      · simp only [World.step, e]
        exact none_inv (by simpa using hl)
      · simp only [World.step, e]
        exact some_inv hi
    | child | finish | drop | forget => exact none_inv rfl
  | some b =>
    have hi := hb b rfl
    cases c with
    | start im acts res vacts => exact some_inv hi
    | child acts => exact some_inv (hi.user acts).1
    | finish acts res dacts panics => exact some_inv (hi.finish acts res dacts panics)
    | drop dacts abort vacts => exact none_inv (by simpa using hi.drop dacts abort vacts)
    | forget => exact none_inv (by simpa using hi.held.op.ub)

theorem WInv.foldl : ∀ (prog : List BoxCall) {w : World}, WInv w → WInv (prog.foldl (World.step false) w)
  | [], _, h => h
  | c :: prog, _, h => WInv.foldl prog (h.step c)

theorem WInv.run (prog : List BoxCall) : WInv (World.run false prog) := WInv.foldl prog ⟨rfl, fun b hb => by simp at hb⟩

end Miniserde.BoxTree
