import Verif.Proof.BoxAlias
import Verif.Spec.DriverBorrows

/-!
# The driver of `from_str` follows Stacked Borrows
-/

namespace Miniserde.SB

namespace Loc

/-- The location, given what a call on a visitor or builder knows of it: more entries below, the call of `from_str_impl` itself in progress. -/
def overC (B : List Item) (lv : Bool) (v : Loc) : Loc := ⟨v.items ++ B, v.calls ++ [0], v.tag, v.call, lv, v.ub⟩

end Loc

theorem guarded_zero {i : Item} (h : i.prot ≠ some 0) (cs : List Nat) : i.guarded (cs ++ [0]) = i.guarded cs := by
  unfold Item.guarded
  cases hp : i.prot with
  | none => rfl
  | some c =>
    have : c ≠ 0 := fun e => h (by rw [hp, e])
    simp [this]

theorem any_guarded_zero {s : List Item} (h : ∀ i ∈ s, i.prot ≠ some 0) (cs : List Nat) :
    s.any (·.guarded (cs ++ [0])) = s.any (·.guarded cs) := by
  rw [Bool.eq_iff_iff, List.any_eq_true, List.any_eq_true]
  exact exists_congr fun i => and_congr_right fun hi => by rw [guarded_zero (h i hi)]

theorem any_unique_guarded_zero {s : List Item} (h : ∀ i ∈ s, i.prot ≠ some 0) (cs : List Nat) :
    (s.any fun i => i.perm == .unique && i.guarded (cs ++ [0])) = s.any fun i => i.perm == .unique && i.guarded cs := by
  rw [Bool.eq_iff_iff, List.any_eq_true, List.any_eq_true]
  exact exists_congr fun i => and_congr_right fun hi => by rw [guarded_zero (h i hi)]

namespace Loc

variable {B : List Item} {lv : Bool} {t : Nat} {v : Loc}

theorem write_overC (h : (v.write t).ub = false) (hp : ∀ i ∈ v.items, i.prot ≠ some 0) (hlv : v.items ≠ [] → lv = true) :
    (v.overC B lv).write t = (v.write t).overC B lv := by
  unfold write at h ⊢
  simp only [overC]
  cases hl : v.live with
  | false => simp [hl, bad] at h
  | true =>
    cases hg : locate true t v.items with
    | none => simp [hl, hg, bad] at h
    | some x =>
      obtain ⟨a, g, b⟩ := x
      have hs := (locate_spec hg).1
      obtain rfl : lv = true := hlv (by rw [hs]; simp)
      rw [locate_append hg]
      simp only [hl, hg] at h ⊢
      have e0 := any_guarded_zero (s := popped g a) (fun i hi => hp i (by rw [hs]; exact List.mem_append_left _ (popped_sub _ _ i hi))) v.calls
      split at h
      · simp [bad] at h
      · rename_i hn
        have hn2 : ¬((popped g a).any fun x => Item.guarded (v.calls ++ [0]) x) = true := fun e => hn (e0.symm.trans e)
        simp only [hn2, hn]
        simp

theorem read_overC (h : (v.read t).ub = false) (hp : ∀ i ∈ v.items, i.prot ≠ some 0) (hlv : v.items ≠ [] → lv = true) :
    (v.overC B lv).read t = (v.read t).overC B lv := by
  unfold read at h ⊢
  simp only [overC]
  cases hl : v.live with
  | false => simp [hl, bad] at h
  | true =>
    cases hg : locate false t v.items with
    | none => simp [hl, hg, bad] at h
    | some x =>
      obtain ⟨a, g, b⟩ := x
      have hs := (locate_spec hg).1
      obtain rfl : lv = true := hlv (by rw [hs]; simp)
      rw [locate_append hg]
      simp only [hl, hg] at h ⊢
      have e0 := any_unique_guarded_zero (s := a) (fun i hi => hp i (by rw [hs]; exact List.mem_append_left _ hi)) v.calls
      split at h
      · simp [bad] at h
      · rename_i hn
        have hn2 : ¬(a.any fun i => i.perm == .unique && i.guarded (v.calls ++ [0])) = true := fun e => hn (e0.symm.trans e)
        simp only [hn2, hn]
        simp

theorem raw_overC {i : Item} (h : (v.raw t i).ub = false) (hlv : v.items ≠ [] → lv = true) :
    (v.overC B lv).raw t i = (v.raw t i).overC B lv := by
  unfold raw at h ⊢
  simp only [overC]
  cases hl : v.live with
  | false => simp [hl, bad] at h
  | true =>
    cases hg : locate true t v.items with
    | none => simp [hl, hg, bad] at h
    | some x =>
      obtain ⟨a, g, b⟩ := x
      have hs := (locate_spec hg).1
      obtain rfl : lv = true := hlv (by rw [hs]; simp)
      rw [locate_append hg]
      simp

theorem act_overC {a : Acc} (h : (v.act a).ub = false) (hp : ∀ i ∈ v.items, i.prot ≠ some 0) (hlv : v.items ≠ [] → lv = true)
    (hc : ∀ p t, a = .reborrow p t true → v.calls ≠ []) : (v.overC B lv).act a = (v.act a).overC B lv := by
  cases a with
  | read t => exact read_overC h hp hlv
  | write t => exact write_overC h hp hlv
  | enter => rfl
  | leave =>
    simp only [act, overC] at h ⊢
    cases hc : v.calls with
    | nil => simp [hc, bad] at h
    | cons c cs => rfl
  | reborrow p t prot =>
    have hd : (if prot = true then (v.overC B lv).calls.head? else none) = if prot = true then v.calls.head? else none := by
      cases prot with
      | false => rfl
      | true =>
        have := hc p t rfl
        cases hv : v.calls with
        | nil => exact absurd hv this
        | cons c cs => simp [overC, hv]
    have ht : (v.overC B lv).tag = v.tag := rfl
    cases p with
    | unique =>
      simp only [act] at h ⊢
      rw [hd, ht]
      have h' : (v.write t).ub = false := h
      rw [write_overC h' hp hlv]
      rfl
    | sharedRO =>
      simp only [act] at h ⊢
      rw [hd, ht]
      have h' : (v.read t).ub = false := h
      rw [read_overC h' hp hlv]
      rfl
    | sharedRW =>
      simp only [act] at h ⊢
      rw [hd, ht]
      rw [raw_overC h hlv]
      rfl
    | disabled => simp [act, bad] at h

theorem write_items : ∀ i ∈ (v.write t).items, i ∈ v.items := by
  unfold write
  split
  · rename_i a g b hl hg
    split
    · exact fun i hi => hi
    · intro i hi
      rw [(locate_spec hg).1]
      rcases List.mem_append.1 hi with hi | hi
      · exact List.mem_append_left _ (keep_sub _ _ i hi)
      · exact List.mem_append_right _ hi
  · exact fun i hi => hi

theorem write_meta : (v.write t).calls = v.calls ∧ (v.write t).tag = v.tag ∧ (v.write t).call = v.call ∧ (v.write t).live = v.live := by
  unfold write
  (repeat' split) <;> exact ⟨rfl, rfl, rfl, by simp_all [bad]⟩

theorem read_items : ∀ i ∈ (v.read t).items, ∃ j ∈ v.items, i.tag = j.tag ∧ i.prot = j.prot := by
  unfold read
  split
  · rename_i a g b hl hg
    split
    · exact fun i hi => ⟨i, hi, rfl, rfl⟩
    · intro i hi
      rw [(locate_spec hg).1]
      rcases List.mem_append.1 hi with hi | hi
      · obtain ⟨j, hj, rfl⟩ := List.mem_map.1 hi
        refine ⟨j, List.mem_append_left _ hj, ?_⟩
        split <;> exact ⟨rfl, rfl⟩
      · exact ⟨i, List.mem_append_right _ hi, rfl, rfl⟩
  · exact fun i hi => ⟨i, hi, rfl, rfl⟩

theorem read_meta : (v.read t).calls = v.calls ∧ (v.read t).tag = v.tag ∧ (v.read t).call = v.call ∧ (v.read t).live = v.live := by
  unfold read
  (repeat' split) <;> exact ⟨rfl, rfl, rfl, by simp_all [bad]⟩

/-- Where the entries come from. -/
theorem act_items (a : Acc) : ∀ i ∈ (v.act a).items,
    (∃ j ∈ v.items, i.tag = j.tag ∧ i.prot = j.prot) ∨ i.tag = v.tag ∧ (i.prot = none ∨ i.prot = v.calls.head?) := by
  have old : ∀ i ∈ v.items, (∃ j ∈ v.items, i.tag = j.tag ∧ i.prot = j.prot) := fun i hi => ⟨i, hi, rfl, rfl⟩
  have hd : ∀ prot : Bool, (if prot = true then v.calls.head? else none) = none ∨ (if prot = true then v.calls.head? else none) = v.calls.head? := by
    intro prot; cases prot <;> simp
  cases a with
  | read t => exact fun i hi => .inl (read_items i hi)
  | write t => exact fun i hi => .inl (old i (write_items i hi))
  | enter => exact fun i hi => .inl (old i hi)
  | leave =>
    intro i hi
    refine .inl (old i ?_)
    simp only [act] at hi
    split at hi <;> exact hi
  | reborrow p t prot =>
    cases p with
    | unique =>
      intro i hi
      rcases List.mem_cons.1 hi with rfl | hi
      · exact .inr ⟨rfl, hd prot⟩
      · exact .inl (old i (write_items i hi))
    | sharedRO =>
      intro i hi
      rcases List.mem_cons.1 hi with rfl | hi
      · exact .inr ⟨rfl, hd prot⟩
      · exact .inl (read_items i hi)
    | disabled => exact fun i hi => .inl (old i hi)
    | sharedRW =>
      intro i hi
      simp only [act, raw] at hi
      split at hi
      · rename_i a g b hl hg
        have hs := (locate_spec hg).1
        rcases List.mem_append.1 hi with hi | hi
        · exact .inl (old i (by rw [hs]; exact List.mem_append_left _ (popped_sub _ _ i hi)))
        · rcases List.mem_cons.1 hi with rfl | hi
          · exact .inr ⟨rfl, hd prot⟩
          · refine .inl (old i ?_)
            rw [hs]
            rcases List.mem_append.1 hi with hi | hi
            · exact List.mem_append_left _ (keep_sub _ _ i hi)
            · exact List.mem_append_right _ hi
      · exact .inl (old i hi)

theorem act_meta (a : Acc) : (∀ c ∈ (v.act a).calls, c ∈ v.calls ∨ c = v.call ∧ c < (v.act a).call) ∧ v.tag ≤ (v.act a).tag ∧ v.call ≤ (v.act a).call ∧ (v.act a).live = v.live := by
  cases a with
  | read t => obtain ⟨h1, h2, h3, h4⟩ := read_meta (v := v) (t := t); simp only [act, h1, h2, h3, h4]; exact ⟨fun c h => .inl h, Nat.le_refl _, Nat.le_refl _, trivial⟩
  | write t => obtain ⟨h1, h2, h3, h4⟩ := write_meta (v := v) (t := t); simp only [act, h1, h2, h3, h4]; exact ⟨fun c h => .inl h, Nat.le_refl _, Nat.le_refl _, trivial⟩
  | enter =>
    refine ⟨fun c h => ?_, Nat.le_refl _, Nat.le_succ _, rfl⟩
    rcases List.mem_cons.1 h with rfl | h
    · exact .inr ⟨rfl, Nat.lt_succ_self _⟩
    · exact .inl h
  | leave =>
    simp only [act]
    split
    · rename_i c cs hc
      exact ⟨fun d h => .inl (by rw [hc]; exact List.mem_cons_of_mem _ h), Nat.le_refl _, Nat.le_refl _, rfl⟩
    · exact ⟨fun c h => .inl h, Nat.le_refl _, Nat.le_refl _, rfl⟩
  | reborrow p t prot =>
    cases p with
    | unique =>
      obtain ⟨h1, h2, h3, h4⟩ := write_meta (v := v) (t := t)
      simp only [act, push, h1, h3, h4]; exact ⟨fun c h => .inl h, Nat.le_succ _, Nat.le_refl _, trivial⟩
    | sharedRO =>
      obtain ⟨h1, h2, h3, h4⟩ := read_meta (v := v) (t := t)
      simp only [act, push, h1, h3, h4]; exact ⟨fun c h => .inl h, Nat.le_succ _, Nat.le_refl _, trivial⟩
    | disabled => exact ⟨fun c h => .inl h, Nat.le_succ _, Nat.le_refl _, rfl⟩
    | sharedRW =>
      simp only [act, raw]
      split
      · exact ⟨fun c h => .inl h, Nat.le_succ _, Nat.le_refl _, by simp_all⟩
      · exact ⟨fun c h => .inl h, Nat.le_succ _, Nat.le_refl _, rfl⟩

end Loc

/-! ## A call -/

/-- How the location is related to the view of the running method; `B`: the entries that are not in the view. -/
structure Rel (B : List Item) (r : Run) : Prop where
  real : r.real = r.view.overC B r.real.live
  vlive : r.view.live = true
  ub : r.view.ub = false
  live : r.view.items ≠ [] → r.real.live = true
  prots : ∀ i ∈ r.view.items, ∀ c, i.prot = some c → 1 ≤ c ∧ c < r.view.call
  calls : ∀ c ∈ r.view.calls, 1 ≤ c ∧ c < r.view.call
  call : 1 ≤ r.view.call
  unused : r.unused = true → r.view.items = [] ∧ B = [] ∧ r.mine = false
  mine : r.mine = true → B = []

/-- What only grows. -/
structure Steps (r r' : Run) : Prop where
  newer : ∀ h, h < r.view.tag → (∀ i ∈ r.view.items, i.tag ≠ h) → ∀ i ∈ r'.view.items, i.tag ≠ h
  tag : r.view.tag ≤ r'.view.tag
  call : r.view.call ≤ r'.view.call
  mine : r'.mine = true → r.mine = true ∨ r.unused = true
  unused : r'.unused = true → r.unused = true
  live : r.mine = false → r.unused = false → r'.real.live = r.real.live
  empty : r.view.items = [] → r.unused = false → r'.view.items = []

theorem Steps.refl (r : Run) : Steps r r := ⟨fun _ _ h => h, Nat.le_refl _, Nat.le_refl _, .inl, id, fun _ _ => rfl, fun h _ => h⟩

theorem Steps.trans {a b c : Run} (h : Steps a b) (k : Steps b c) : Steps a c := by
  have nu : a.unused = false → b.unused = false := fun hu => by
    cases e : b.unused with
    | false => rfl
    | true => rw [h.unused e] at hu; cases hu
  refine ⟨fun x hx hi => k.newer x (Nat.lt_of_lt_of_le hx h.tag) (h.newer x hx hi), Nat.le_trans h.tag k.tag, Nat.le_trans h.call k.call,
    fun e => (k.mine e).elim h.mine fun e => .inr (h.unused e), fun e => h.unused (k.unused e), fun hm hu => (k.live ?_ (nu hu)).trans (h.live hm hu),
    fun he hu => k.empty (h.empty he hu) (nu hu)⟩
  cases e : b.mine with
  | false => rfl
  | true => rcases h.mine e with e | e <;> simp_all

theorem Rel.no0 {B : List Item} {r : Run} (h : Rel B r) : ∀ i ∈ r.view.items, i.prot ≠ some 0 := fun i hi e => by
  have := (h.prots i hi 0 e).1
  omega

theorem Rel.lib {B : List Item} {r : Run} (h : Rel B r) {a : Acc} (ha : (r.view.act a).ub = false) (hc : ∀ p t, a = .reborrow p t true → r.view.calls ≠ []) :
    Rel B (r.lib a) ∧ Steps r (r.lib a) ∧ (r.lib a).mine = r.mine := by
  have e : r.real.act a = (r.view.act a).overC B r.real.live := by
    have := Loc.act_overC (B := B) (lv := r.real.live) ha h.no0 h.live hc
    rw [← this, ← h.real]
  obtain ⟨m1, m2, m3, m4⟩ := Loc.act_meta (v := r.view) a
  have mi := Loc.act_items (v := r.view) a
  have el : (r.lib a).real.live = r.real.live := by
    show (r.real.act a).live = _
    rw [e]; rfl
  have nonempty : (r.view.act a).items ≠ [] → r.view.items ≠ [] ∨ ∃ p t b, a = .reborrow p t b := by
    intro hne
    obtain ⟨i, hi⟩ := List.exists_mem_of_ne_nil _ hne
    rcases mi i hi with ⟨j, hj, -⟩ | -
    · exact .inl (List.ne_nil_of_mem hj)
    · cases a with
      | read t => obtain ⟨j, hj, -⟩ := Loc.read_items i hi; exact .inl (List.ne_nil_of_mem hj)
      | write t => exact .inl (List.ne_nil_of_mem (Loc.write_items i hi))
      | enter => exact .inl hne
      | leave =>
        refine .inl (List.ne_nil_of_mem (a := i) ?_)
        simp only [Loc.act] at hi
        split at hi <;> exact hi
      | reborrow p t b => exact .inr ⟨p, t, b, rfl⟩
  have ne' : (r.view.act a).items ≠ [] → r.view.items ≠ [] := by
    intro hne
    rcases nonempty hne with h' | ⟨p, t, b, rfl⟩
    · exact h'
    · intro e0
      cases p <;> simp [Loc.act, Loc.write, Loc.read, Loc.raw, Loc.push, e0, locate, Loc.bad] at ha
  refine ⟨⟨?_, ?_, ha, ?_, ?_, ?_, ?_, ?_, h.mine⟩, ⟨?_, m2, m3, .inl, id, fun _ _ => el, fun he _ => Classical.byContradiction fun hn => ne' hn he⟩, rfl⟩
  · rw [el]; exact e
  · show (r.view.act a).live = true
    rw [m4]; exact h.vlive
  · intro hne
    rw [el]
    exact h.live (ne' hne)
  · intro i hi c hc
    show 1 ≤ c ∧ c < (r.view.act a).call
    rcases mi i hi with ⟨j, hj, -, ep⟩ | ⟨-, ep | ep⟩
    · obtain ⟨h1, h2⟩ := h.prots j hj c (by rw [← ep]; exact hc)
      exact ⟨h1, Nat.lt_of_lt_of_le h2 m3⟩
    · rw [ep] at hc; cases hc
    · rw [ep] at hc
      obtain ⟨h1, h2⟩ := h.calls c (List.mem_of_mem_head? (by rw [hc]; rfl))
      exact ⟨h1, Nat.lt_of_lt_of_le h2 m3⟩
  · intro c hc
    show 1 ≤ c ∧ c < (r.view.act a).call
    rcases m1 c hc with hc | ⟨rfl, h2⟩
    · obtain ⟨h1, h2⟩ := h.calls c hc
      exact ⟨h1, Nat.lt_of_lt_of_le h2 m3⟩
    · exact ⟨h.call, h2⟩
  · exact Nat.le_trans h.call m3
  · intro hu
    obtain ⟨h1, h2, h3⟩ := h.unused hu
    refine ⟨?_, h2, h3⟩
    cases hne : (r.view.act a).items with
    | nil => exact hne
    | cons i s => exact absurd h1 (ne' (by rw [hne]; simp))
  · intro x hx hi i hi'
    rcases mi i hi' with ⟨j, hj, et, -⟩ | ⟨et, -⟩
    · rw [et]; exact hi j hj
    · rw [et]; exact Nat.ne_of_gt hx

theorem Rel.step {B : List Item} {r : Run} (h : Rel B r) (hc : r.view.calls ≠ []) (u : UAct) :
    Rel B (r.step u) ∧ Steps r (r.step u) ∧ (r.step u).view.calls ≠ [] := by
  cases u with
  | acc a =>
    simp only [Run.step]
    split
    · exact ⟨h, .refl r, hc⟩
    · rename_i hn
      simp only [Bool.or_eq_true, not_or, Bool.not_eq_true] at hn
      obtain ⟨h1, h2, -⟩ := h.lib hn.1 fun _ _ _ => hc
      exact ⟨h1, h2, fun e => by have := hn.2; rw [show (r.view.act a).calls = [] from e] at this; simp at this⟩
  | alloc =>
    simp only [Run.step]
    split
    · rename_i hu
      obtain ⟨h1, rfl, h3⟩ := h.unused hu
      have e := h.real
      refine ⟨⟨?_, rfl, h.ub, fun _ => rfl, ?_, h.calls, h.call, fun e => (by cases e), fun _ => rfl⟩, ⟨?_, Nat.le_succ _, Nat.le_refl _, fun _ => .inr hu, fun e => (by cases e), fun _ e => (by rw [hu] at e; cases e), fun _ e => (by rw [hu] at e; cases e)⟩, hc⟩
      · have ec : r.real.calls = r.view.calls ++ [0] := by rw [e]; rfl
        have et : r.real.tag = r.view.tag := by rw [e]; rfl
        have ek : r.real.call = r.view.call := by rw [e]; rfl
        have eu : r.real.ub = r.view.ub := by rw [e]; rfl
        simp [Loc.alloc, Loc.overC, ec, et, ek, eu]
      · intro i hi c hc
        simp only [Loc.alloc, List.mem_singleton] at hi
        subst hi
        cases hc
      · intro x hx _ i hi
        simp only [Loc.alloc, List.mem_singleton] at hi
        subst hi
        exact Nat.ne_of_gt hx
    · exact ⟨h, .refl r, hc⟩
  | free t =>
    simp only [Run.step]
    split
    · rename_i hm
      simp only [Bool.and_eq_true, Bool.not_eq_true'] at hm
      obtain ⟨hm, hf⟩ := hm
      obtain rfl := h.mine hm
      have hw : (r.view.write t).ub = false ∧ (r.view.write t).items.any (·.guarded (r.view.write t).calls) = false := by
        simp only [Loc.free] at hf
        split at hf
        · simp [Loc.bad] at hf
        · rename_i hn
          exact ⟨hf, by simpa using hn⟩
      have e : r.real.write t = (r.view.write t).overC [] r.real.live := by
        have := Loc.write_overC (B := []) (lv := r.real.live) hw.1 h.no0 h.live
        rw [← this, ← h.real]
      obtain ⟨w1, w2, w3, w4⟩ := Loc.write_meta (v := r.view) (t := t)
      have g : ((r.view.write t).items ++ []).any (·.guarded ((r.view.write t).calls ++ [0])) = false := by
        rw [List.append_nil, any_guarded_zero fun i hi => h.no0 i (Loc.write_items i hi)]
        exact hw.2
      refine ⟨⟨?_, h.vlive, h.ub, fun hn => absurd rfl hn, fun i hi => (List.not_mem_nil hi).elim, h.calls, h.call, fun hu => ?_, fun e => by cases e⟩,
        ⟨fun _ _ _ i hi => (List.not_mem_nil hi).elim, Nat.le_refl _, Nat.le_refl _, fun e => (by cases e), id, fun e _ => (by rw [hm] at e; cases e), fun _ _ => rfl⟩, hc⟩
      · rw [w1] at g
        simp only [Loc.free, e, Loc.overC, w1, w2, w3, g]
        simp [hw.1, h.ub]
      · exact absurd (h.unused hu).2.2 (by rw [hm]; simp)
    · exact ⟨h, .refl r, hc⟩

theorem Rel.user {B : List Item} : ∀ (us : List UAct) {r : Run}, Rel B r → r.view.calls ≠ [] → Rel B (r.user us) ∧ Steps r (r.user us)
  | [], r, h, _ => ⟨h, .refl r⟩
  | u :: us, r, h, hc => by
    obtain ⟨h1, h2, h3⟩ := h.step hc u
    obtain ⟨k1, k2⟩ := Rel.user us h1 h3
    exact ⟨k1, h2.trans k2⟩

/-- A method whose argument points to the location leaves alone what is below. -/
theorem Rel.userSelf {B : List Item} (us : List UAct) {r : Run} (h : Rel B r) (hc : r.view.calls ≠ []) {i : Item} {s : List Item} (hi : r.view.items = i :: s) :
    Rel B (r.userSelf us) ∧ Steps r (r.userSelf us) ∧ (r.userSelf us).mine = r.mine ∧
      ∃ up, (r.userSelf us).view.items = up ++ s ∧ ∀ x, x < r.view.tag → i.tag ≠ x → ∀ j ∈ up, j.tag ≠ x := by
  have nu : r.unused = false := by
    cases hu : r.unused with
    | false => rfl
    | true => have := (h.unused hu).1; rw [hi] at this; cases this
  have h0 : Rel (s ++ B) { r with view := { r.view with items := r.view.items.take 1 }, mine := false } := by
    refine ⟨?_, h.vlive, h.ub, fun _ => h.live (by rw [hi]; simp), fun j hj => ?_, h.calls, h.call, fun e => ?_, fun e => by cases e⟩
    · have := h.real
      simp only [hi, Loc.overC] at this ⊢
      rw [this]
      simp
    · exact h.prots j (List.mem_of_mem_take hj)
    · rw [nu] at e; cases e
  obtain ⟨h1, h2⟩ := Rel.user us h0 hc
  have ed : r.view.items.drop 1 = s := by rw [hi]; rfl
  have et : r.view.items.take 1 = [i] := by rw [hi]; rfl
  have hmem : ∀ j ∈ s, j ∈ r.view.items := fun j hj => by rw [hi]; exact List.mem_cons_of_mem _ hj
  simp only [Run.userSelf, ed]
  generalize hx : Run.user us { r with view := { r.view with items := r.view.items.take 1 }, mine := false } = x at h1 h2 ⊢
  have n1 : x.unused = false := by
    cases hu : x.unused with
    | false => rfl
    | true => have := h2.unused hu; rw [nu] at this; cases this
  refine ⟨⟨?_, h1.vlive, h1.ub, fun _ => ?_, fun j hj => ?_, h1.calls, h1.call, fun e => ?_, h.mine⟩, ⟨?_, h2.tag, h2.call, .inl, fun e => ?_, fun _ hu => h2.live rfl hu, fun he _ => (by rw [hi] at he; cases he)⟩, trivial, x.view.items, rfl, ?_⟩
  · have := h1.real
    simp only [Loc.overC] at this ⊢
    rw [this]
    simp
  · show x.real.live = true
    rw [h2.live rfl nu]
    exact h.live (by rw [hi]; simp)
  · rcases List.mem_append.1 hj with hj | hj
    · exact h1.prots j hj
    · intro c e
      obtain ⟨a1, a2⟩ := h.prots j (hmem j hj) c e
      exact ⟨a1, Nat.lt_of_lt_of_le a2 h2.call⟩
  · have e' : x.unused = true := e
    rw [n1] at e'; cases e'
  · intro y hy hall j hj
    rcases List.mem_append.1 hj with hj | hj
    · exact h2.newer y hy (fun k hk => hall k (List.mem_of_mem_take hk)) j hj
    · exact hall j (hmem j hj)
  · have e' : x.unused = true := e
    rw [n1] at e'; cases e'
  · intro y hy hyi j hj
    refine h2.newer y hy (fun k hk => ?_) j hj
    have hk' : k ∈ [i] := by rw [← et]; exact hk
    rw [List.mem_singleton.1 hk']
    exact hyi

end Miniserde.SB
