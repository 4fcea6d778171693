import Verif.Spec.DriverTree
import Verif.Proof.BoxTree

/-!
# The driver of `from_str` follows Tree Borrows: one operation at the location
-/

namespace Miniserde.TB

theorem Perm.child_spec {w g : Bool} {p q : Perm} (h : p.child w g = some q) : q ≠ .disabled ∧ ((p = .frozen ∨ p = .disabled) → q = .frozen) := by
  cases p <;> cases w <;> cases g <;> simp_all [Perm.child]
  all_goals first | (subst h; simp) | (split at h <;> simp_all) | (obtain ⟨h1, rfl⟩ := h; simp) | skip

/-- Of the calls in progress, `from_str_impl` (0) is the outermost. -/
def CallsOk (l : Loc) : Prop := ∃ us, l.calls = us ++ [0] ∧ 0 ∉ us

/-- How a node changes; `p`: it is an ancestor of what is used. -/
structure Evo (p : Prop) (cs cs' : List Nat) (i i' : Item) : Prop where
  tag : i'.tag = i.tag
  prot : i'.prot = i.prot
  ok : p → i.perm.ok (i.guarded cs) → i'.perm.ok (i'.guarded cs')
  dis : p → i.perm ≠ .disabled → i'.perm ≠ .disabled
  frz : p → (i.perm = .frozen ∨ i.perm = .disabled) → i'.perm = .frozen ∨ i'.perm = .disabled

theorem Evo.refl (p : Prop) (cs : List Nat) (i : Item) : Evo p cs cs i i := ⟨rfl, rfl, fun _ => id, fun _ => id, fun _ => id⟩

theorem Evo.trans {p : Prop} {cs cs' cs'' : List Nat} {i i' i'' : Item} (h : Evo p cs cs' i i') (k : Evo p cs' cs'' i' i'') : Evo p cs cs'' i i'' :=
  ⟨k.tag.trans h.tag, k.prot.trans h.prot, fun a b => k.ok a (h.ok a b), fun a b => k.dis a (h.dis a b), fun a b => k.frz a (h.frz a b)⟩

/-- What an operation through something below `f` does. -/
structure Upd (f : Tag) (l l' : Loc) : Prop where
  ub : l'.ub = false
  live : l'.live = l.live
  im : l'.im = l.im
  fresh : Fresh l'
  next : l.next ≤ l'.next
  call : l.call ≤ l'.call
  calls : ∀ c ∈ l'.calls, c ∈ l.calls ∨ l.call ≤ c
  old : ∀ i' ∈ l'.items, (f <:+ i'.tag ∧ i'.prot ≠ some 0 ∧ ∃ k ∈ i'.tag, l.next ≤ k) ∨ ∃ i ∈ l.items, Evo (i.tag <:+ f) l.calls l'.calls i i'
  keep : ∀ i ∈ l.items, ∃ i' ∈ l'.items, i'.tag = i.tag ∧ i'.prot = i.prot

theorem Upd.refl {f : Tag} {l : Loc} (h : l.ub = false) (hf : Fresh l) : Upd f l l :=
  ⟨h, rfl, rfl, hf, Nat.le_refl _, Nat.le_refl _, fun _ => .inl, fun i hi => .inr ⟨i, hi, .refl ..⟩, fun i hi => ⟨i, hi, rfl, rfl⟩⟩

theorem Upd.trans {f : Tag} {l l' l'' : Loc} (h : Upd f l l') (k : Upd f l' l'') : Upd f l l'' := by
  refine ⟨k.ub, k.live.trans h.live, k.im.trans h.im, k.fresh, Nat.le_trans h.next k.next, Nat.le_trans h.call k.call, fun c hc => ?_, fun i'' hi'' => ?_, fun i hi => ?_⟩
  · rcases k.calls c hc with hc | hc
    · exact h.calls c hc
    · exact .inr (Nat.le_trans h.call hc)
  · rcases k.old i'' hi'' with k1 | ⟨i', hi', e'⟩
    · obtain ⟨k1, k2, c, hc, k3⟩ := k1
      exact .inl ⟨k1, k2, c, hc, Nat.le_trans h.next k3⟩
    · rcases h.old i' hi' with k1 | ⟨i, hi, e⟩
      · exact .inl (by rw [e'.tag, e'.prot]; exact k1)
      · have : Evo (i.tag <:+ f) l'.calls l''.calls i' i'' := by rw [← e.tag]; exact e'
        exact .inr ⟨i, hi, e.trans this⟩
  · obtain ⟨i', hi', e1, e2⟩ := h.keep i hi
    obtain ⟨i'', hi'', e3, e4⟩ := k.keep i' hi'
    exact ⟨i'', hi'', e3.trans e1, e4.trans e2⟩

/-- The operation is made through something below `f`. -/
def Via (f : Tag) (l : Loc) : Acc → Prop
  | .read t | .write t => f <:+ t
  | .reborrow _ t prot => f <:+ t ∧ (prot = true → ∀ c, l.calls.head? = some c → c ≠ 0)
  | .enter => 1 ≤ l.call
  | .leave => ∃ c cs, l.calls = c :: cs ∧ ∀ i ∈ l.items, i.prot = some c → f <:+ i.tag

variable {f : Tag} {l : Loc}

theorem Upd.access {e w : Bool} {t : Tag} (ht : f <:+ t) (hf : Fresh l) (h : (l.access e w t).ub = false) :
    Upd f l (l.access e w t) ∧ (l.access e w t).calls = l.calls ∧ (l.access e w t).next = l.next := by
  obtain ⟨h1, h2, h3, h4⟩ := Loc.access_spec h
  rw [h4]
  refine ⟨⟨h1, rfl, rfl, ⟨?_, ?_, hf.calls⟩, Nat.le_refl _, Nat.le_refl _, fun _ => .inl, ?_, fun i hi => ⟨_, List.mem_map_of_mem hi, rfl, rfl⟩⟩, rfl, rfl⟩
  · intro i hi
    obtain ⟨j, hj, rfl⟩ := List.mem_map.1 hi
    exact hf.tags j hj
  · intro i hi
    obtain ⟨j, hj, rfl⟩ := List.mem_map.1 hi
    exact hf.prots j hj
  · intro i hi
    obtain ⟨j, hj, rfl⟩ := List.mem_map.1 hi
    refine .inr ⟨j, hj, rfl, rfl, ?_, ?_, ?_⟩
    all_goals
      intro hs hk
      have h5 := h3 j hj
      unfold Item.after at h5 ⊢
      rw [if_pos (List.isSuffixOf_iff_suffix.2 (hs.trans ht))] at h5 ⊢
      obtain ⟨q, e1⟩ := Option.isSome_iff_exists.1 h5
      simp only [e1, Option.getD_some]
    · obtain ⟨q', e2, e3⟩ := Perm.child_ok (w := w) hk
      rw [e1] at e2
      obtain rfl := Option.some.inj e2
      exact e3
    · exact (Perm.child_spec e1).1
    · exact .inl ((Perm.child_spec e1).2 hk)

theorem Upd.ends {p : Tag} (ht : f <:+ p) (hf : Fresh l) (h : (l.ends p).ub = false) : Upd f l (l.ends p) ∧ (l.ends p).calls = l.calls := by
  have same : l.ub = false → Upd f l l ∧ l.calls = l.calls := fun h => ⟨.refl h hf, rfl⟩
  have acc : ∀ w, (l.access true w p).ub = false → Upd f l (l.access true w p) ∧ (l.access true w p).calls = l.calls := fun w h => by
    obtain ⟨h1, h2, -⟩ := Upd.access ht hf h
    exact ⟨h1, h2⟩
  revert h
  unfold Loc.ends
  generalize (l.items.find? (·.tag == p)).map Item.perm = x
  intro h
  cases x with
  | none => exact same h
  | some q =>
    cases q with
    | cell | disabled => exact same h
    | active => exact acc true h
    | reserved | reservedIM | frozen => exact acc false h

theorem Upd.endsAll : ∀ (is : List Item) {l : Loc}, (∀ i ∈ is, f <:+ i.tag) → Fresh l → (is.foldl (fun l i => l.ends i.tag) l).ub = false →
    Upd f l (is.foldl (fun l i => l.ends i.tag) l) ∧ (is.foldl (fun l i => l.ends i.tag) l).calls = l.calls
  | [], _, _, hf, h => ⟨.refl h hf, rfl⟩
  | i :: is, l, hi, hf, h => by
    obtain ⟨h1, h2⟩ := Upd.ends (hi i (List.mem_cons_self ..)) hf (endsAll_ub is h)
    obtain ⟨k1, k2⟩ := Upd.endsAll is (fun j hj => hi j (List.mem_cons_of_mem _ hj)) h1.fresh h
    exact ⟨h1.trans k1, k2.trans h2⟩

/-- Other calls in progress, which protect nothing new. -/
theorem Upd.setCalls (h : l.ub = false) (hf : Fresh l) {cs : List Nat} {k : Nat} (hk : l.call ≤ k) (h1 : ∀ c ∈ cs, c ∈ l.calls ∨ l.call ≤ c) (h2 : ∀ c ∈ cs, c < k) :
    Upd f l { l with calls := cs, call := k } := by
  have g : ∀ i ∈ l.items, i.guarded cs = true → i.guarded l.calls = true := by
    intro i hi e
    obtain ⟨c, hc, e⟩ := guarded_iff.1 e
    rcases h1 c hc with hc | hc
    · exact guarded_iff.2 ⟨c, hc, e⟩
    · have := hf.prots i hi c e
      omega
  refine ⟨h, rfl, rfl, ⟨hf.tags, fun i hi c e => Nat.lt_of_lt_of_le (hf.prots i hi c e) hk, h2⟩, Nat.le_refl _, hk, h1, fun i hi => .inr ⟨i, hi, rfl, rfl, fun _ => Perm.ok_mono (g i hi), fun _ => id, fun _ => id⟩,
    fun i hi => ⟨i, hi, rfl, rfl⟩⟩

theorem Upd.add {p : Perm} {t : Tag} {prot : Bool} (ht : f <:+ t) (hf : Fresh l) (h : l.ub = false) (hm : ∃ i ∈ l.items, i.tag = t) (hp : prot = true → ∀ c, l.calls.head? = some c → c ≠ 0) :
    Upd f l (l.add p t prot) := by
  have hfr : Fresh (l.add p t prot) := by
    refine ⟨?_, ?_, hf.calls⟩
    · intro i hi
      show ∀ c ∈ i.tag, c < l.next + 1
      rcases List.mem_cons.1 hi with rfl | hi
      · intro c hc
        rcases List.mem_cons.1 hc with rfl | hc
        · exact Nat.lt_succ_self _
        · obtain ⟨j, hj, rfl⟩ := hm
          exact Nat.lt_succ_of_lt (hf.tags j hj c hc)
      · exact fun c hc => Nat.lt_succ_of_lt (hf.tags i hi c hc)
    · intro i hi
      rcases List.mem_cons.1 hi with rfl | hi
      · intro c hc
        cases prot with
        | false => cases hc
        | true => exact hf.calls c (List.mem_of_mem_head? (by simpa using hc))
      · exact hf.prots i hi
  refine ⟨h, rfl, rfl, hfr, Nat.le_succ _, Nat.le_refl _, fun _ => .inl, fun i hi => ?_, fun i hi => ⟨i, List.mem_cons_of_mem _ hi, rfl, rfl⟩⟩
  rcases List.mem_cons.1 hi with rfl | hi
  · refine .inl ⟨ht.trans (List.suffix_cons ..), ?_, l.next, List.mem_cons_self .., Nat.le_refl _⟩
    cases prot with
    | false => simp
    | true => simpa using fun e => hp rfl 0 e rfl
  · exact .inr ⟨i, hi, .refl ..⟩

theorem Upd.act {a : Acc} (hv : Via f l a) (hf : Fresh l) (h : (l.act a).ub = false) (h0 : l.ub = false) : Upd f l (l.act a) := by
  cases a with
  | read t => exact (Upd.access hv hf h).1
  | write t => exact (Upd.access hv hf h).1
  | enter => exact Upd.setCalls h0 hf (Nat.le_succ _) (fun c hc => (List.mem_cons.1 hc).elim (fun e => .inr (Nat.le_of_eq e.symm)) .inl) (fun c hc => by
      rcases List.mem_cons.1 hc with rfl | hc
      · exact Nat.lt_succ_self _
      · exact Nat.lt_succ_of_lt (hf.calls c hc))
  | leave =>
    obtain ⟨c, cs, e, hi⟩ := hv
    simp only [Loc.act] at h ⊢
    rw [e] at h ⊢
    simp only at h ⊢
    obtain ⟨h1, h2⟩ := Upd.endsAll (f := f) (l.items.filter (·.prot == some c)) (fun i hi' => by
      obtain ⟨h1, h2⟩ := List.mem_filter.1 hi'
      exact hi i h1 (by simpa using h2)) hf h
    refine h1.trans (Upd.setCalls h1.ub h1.fresh (Nat.le_refl _) (fun x hx => .inl ?_) fun x hx => h1.fresh.calls x ?_) <;>
    · rw [h2, e]; exact List.mem_cons_of_mem _ hx
  | reborrow p t prot =>
    obtain ⟨ht, hp⟩ := hv
    simp only [Loc.act] at h ⊢
    split at h
    · rename_i hc
      rw [if_pos hc]
      obtain ⟨h1, h2, h3⟩ := Upd.access ht hf (show (l.access false false t).ub = false from h)
      refine h1.trans (Upd.add ht h1.fresh h1.ub ?_ (by rw [h2]; exact hp))
      obtain ⟨-, i, hi, e⟩ := Loc.has_iff.1 (Loc.access_spec h1.ub).2.1
      obtain ⟨i', hi', e', -⟩ := h1.keep i hi
      exact ⟨i', hi', e'.trans e⟩
    · rename_i hc
      rw [if_neg hc]
      split at h
      · rename_i hc2
        rw [if_pos hc2]
        exact Upd.add ht hf h0 (Loc.has_iff.1 hc2.2).2 hp
      · simp [Loc.bad] at h

/-! ## Views -/

/-- The part below `ρ`. -/
def V (ρ : Tag) (l : Loc) : Loc := { l with items := below ρ l.items, live := true, ub := false }

theorem V.access {ρ : Tag} {e w : Bool} {t : Tag} (ht : ρ <:+ t) (h : (l.access e w t).ub = false) : (V ρ l).access e w t = V ρ (l.access e w t) := by
  obtain ⟨h1, h2, h3, h4⟩ := Loc.access_spec h
  obtain ⟨-, i, hi, rfl⟩ := Loc.has_iff.1 h2
  rw [h4, Loc.access_ok (l := V ρ l) (Loc.has_iff.2 ⟨rfl, i, mem_below.2 ⟨hi, ht⟩, rfl⟩) (fun j hj => h3 j (mem_below.1 hj).1)]
  simp only [V, below, List.filter_map, Function.comp_def]

theorem find_below {ρ p : Tag} (hp : ρ <:+ p) (is : List Item) : (below ρ is).find? (·.tag == p) = is.find? (·.tag == p) := by
  rw [below, List.find?_filter]
  congr 1
  funext _
  rw [Bool.eq_iff_iff]
  simp only [beq_iff_eq, List.isSuffixOf_iff_suffix, decide_eq_true_eq]
  exact ⟨fun k => k.2, fun k => ⟨by rw [k]; exact hp, k⟩⟩

theorem V.ends {ρ p : Tag} (hp : ρ <:+ p) (h : (l.ends p).ub = false) : (V ρ l).ends p = V ρ (l.ends p) := by
  revert h
  unfold Loc.ends
  rw [show (V ρ l).items = below ρ l.items from rfl, find_below hp]
  generalize (l.items.find? (·.tag == p)).map Item.perm = x
  intro h
  cases x with
  | none => rfl
  | some q =>
    cases q with
    | cell | disabled => rfl
    | active => exact V.access hp h
    | reserved | reservedIM | frozen => exact V.access hp h

theorem V.endsAll {ρ : Tag} : ∀ (is : List Item) {l : Loc}, (∀ i ∈ is, ρ <:+ i.tag) → (is.foldl (fun l i => l.ends i.tag) l).ub = false →
    is.foldl (fun l i => l.ends i.tag) (V ρ l) = V ρ (is.foldl (fun l i => l.ends i.tag) l)
  | [], _, _, _ => rfl
  | i :: is, l, hi, h => by
    simp only [List.foldl_cons]
    rw [V.ends (hi i (List.mem_cons_self ..)) (endsAll_ub is h)]
    exact V.endsAll is (fun j hj => hi j (List.mem_cons_of_mem _ hj)) h

theorem V.act {ρ : Tag} {a : Acc} (hv : Via f l a) (hρ : ρ <:+ f) (h : (l.act a).ub = false) : (V ρ l).act a = V ρ (l.act a) := by
  cases a with
  | read t => exact V.access (hρ.trans hv) h
  | write t => exact V.access (hρ.trans hv) h
  | enter => rfl
  | leave =>
    obtain ⟨c, cs, e, hi⟩ := hv
    simp only [Loc.act] at h ⊢
    rw [e] at h
    rw [show (V ρ l).calls = l.calls from rfl, e]
    simp only at h ⊢
    have hin : ∀ i ∈ l.items.filter (·.prot == some c), ρ <:+ i.tag := fun i hi' => by
      obtain ⟨h1, h2⟩ := List.mem_filter.1 hi'
      exact hρ.trans (hi i h1 (by simpa using h2))
    have ei : (V ρ l).items.filter (·.prot == some c) = l.items.filter (·.prot == some c) := by
      show (below ρ l.items).filter _ = _
      rw [below, List.filter_filter]
      refine List.filter_congr fun i hi' => ?_
      rw [Bool.eq_iff_iff]
      simp only [Bool.and_eq_true, beq_iff_eq, List.isSuffixOf_iff_suffix]
      exact ⟨fun k => k.1, fun k => ⟨k, hρ.trans (hi i hi' k)⟩⟩
    rw [ei, V.endsAll _ hin h]
    rfl
  | reborrow p t prot =>
    obtain ⟨ht, -⟩ := hv
    have hd : ρ <:+ l.next :: t := (hρ.trans ht).trans (List.suffix_cons ..)
    have ad : ∀ m : Loc, m.next = l.next → (V ρ m).add p t prot = V ρ (m.add p t prot) := by
      intro m e
      have hd' : ρ <:+ m.next :: t := by rw [e]; exact hd
      simp [Loc.add, V, below, hd']
    simp only [Loc.act] at h ⊢
    split at h
    · rename_i hc
      have h' : (l.access false false t).ub = false := h
      rw [if_pos hc, if_pos hc, V.access (hρ.trans ht) h', ad]
      rw [(Loc.access_spec h').2.2.2]
    · rename_i hc
      split at h
      · rename_i hc2
        obtain ⟨-, i, hi, e⟩ := Loc.has_iff.1 hc2.2
        rw [if_neg hc, if_neg hc, if_pos hc2, if_pos ⟨hc2.1, Loc.has_iff.2 ⟨rfl, i, mem_below.2 ⟨hi, by rw [e]; exact hρ.trans ht⟩, e⟩⟩, ad _ rfl]
      · simp [Loc.bad] at h

/-- Where there is nothing, nothing comes into being. -/
theorem act_nil {a : Acc} {l : Loc} (hl : l.items = []) (h : (l.act a).ub = false) : (l.act a).items = [] ∧ (a = .enter ∨ a = .leave) := by
  have hh : ∀ t, l.has t = false := fun t => by simp [Loc.has, hl]
  have ha : ∀ e w t, l.access e w t = l.bad := fun e w t => by
    unfold Loc.access
    rw [if_neg (by simp [hh t])]
  cases a with
  | read t => simp only [Loc.act, ha] at h; simp [Loc.bad] at h
  | write t => simp only [Loc.act, ha] at h; simp [Loc.bad] at h
  | enter => exact ⟨hl, .inl rfl⟩
  | leave =>
    refine ⟨?_, .inr rfl⟩
    simp only [Loc.act, hl] at h ⊢
    split
    · exact hl
    · exact hl
  | reborrow p t prot =>
    simp only [Loc.act, ha, hh] at h
    split at h
    · simp [Loc.add, Loc.bad] at h
    · simp [Loc.bad] at h

/-! ## What is allowed in the view is allowed -/

/-- The ancestors of `f` allow what `f` allows. -/
def Cond (f : Tag) (l : Loc) : Prop :=
  (∀ i ∈ l.items, i.tag <:+ f → i.tag ≠ f → i.perm.ok (i.guarded l.calls)) ∨
  ∀ i ∈ l.items, i.tag <:+ f → if i.tag = f then i.perm = .frozen ∨ i.perm = .disabled else i.perm ≠ .disabled

/-- `f` is all that is used at the moment. -/
structure Foc (f : Tag) (l : Loc) : Prop where
  has : ∃ i ∈ l.items, i.tag = f
  cond : Cond f l
  off : ∀ i ∈ l.items, ¬ f <:+ i.tag → ¬ i.tag <:+ f → i.guarded l.calls = false
  calls : ∀ i ∈ l.items, ¬ f <:+ i.tag → ∀ c ∈ l.calls, c ≠ 0 → i.prot ≠ some c

theorem Upd.before {l' : Loc} (u : Upd f l l') {ρ : Tag} (hρ : ∃ i ∈ l.items, i.tag = ρ) (hf : Fresh l) {i' : Item} (hi' : i' ∈ l'.items) (h : i'.tag <:+ ρ) :
    ∃ i ∈ l.items, Evo (i.tag <:+ f) l.calls l'.calls i i' := by
  rcases u.old i' hi' with ⟨-, -, k, hk, hn⟩ | k
  · obtain ⟨j, hj, rfl⟩ := hρ
    have := hf.tags j hj k (h.subset hk)
    omega
  · exact k

theorem Cond.upd {ρ : Tag} {l' : Loc} (h : Cond ρ l) (u : Upd f l l') (hρ : ρ <:+ f) (he : ∃ i ∈ l.items, i.tag = ρ) (hf : Fresh l) : Cond ρ l' := by
  rcases h with h | h
  · refine .inl fun i' hi' h1 h2 => ?_
    obtain ⟨i, hi, e⟩ := u.before he hf hi' h1
    rw [e.tag] at h1 h2
    exact e.ok (h1.trans hρ) (h i hi h1 h2)
  · refine .inr fun i' hi' h1 => ?_
    obtain ⟨i, hi, e⟩ := u.before he hf hi' h1
    rw [e.tag] at h1 ⊢
    have := h i hi h1
    split at this
    · rename_i k
      rw [if_pos k]
      exact e.frz (h1.trans hρ) this
    · rename_i k
      rw [if_neg k]
      exact e.dis (h1.trans hρ) this

theorem Upd.guarded {l' : Loc} (u : Upd f l l') (hf : Fresh l) {i i' : Item} (hi : i ∈ l.items) (e : i'.prot = i.prot) {c : Nat} (hc : c ∈ l'.calls) (hp : i'.prot = some c) : c ∈ l.calls := by
  rcases u.calls c hc with k | k
  · exact k
  · have := hf.prots i hi c (by rw [← e, hp])
    omega

theorem Foc.upd {l' : Loc} (o : Foc f l) (u : Upd f l l') (hf : Fresh l) : Foc f l' := by
  refine ⟨?_, o.cond.upd u (List.suffix_refl _) o.has hf, fun i' hi' h1 h2 => ?_, fun i' hi' h1 c hc h2 h3 => ?_⟩
  · obtain ⟨i, hi, e⟩ := o.has
    obtain ⟨i', hi', e', -⟩ := u.keep i hi
    exact ⟨i', hi', e'.trans e⟩
  · rcases u.old i' hi' with ⟨k, -⟩ | ⟨i, hi, e⟩
    · exact absurd k h1
    · cases hg : i'.guarded l'.calls with
      | false => rfl
      | true =>
        obtain ⟨c, hc, hp⟩ := guarded_iff.1 hg
        have hc' := u.guarded hf hi e.prot hc hp
        rw [e.tag] at h1 h2
        have := o.off i hi h1 h2
        rw [guarded_iff.2 ⟨c, hc', by rw [← e.prot, hp]⟩] at this
        cases this
  · rcases u.old i' hi' with ⟨k, -⟩ | ⟨i, hi, e⟩
    · exact absurd k h1
    · rw [e.tag] at h1
      exact o.calls i hi h1 c (u.guarded hf hi e.prot hc h3) h2 (by rw [← e.prot, h3])

/-- One access. -/
theorem Foc.access (o : Foc f l) (hl : l.live = true) {e w : Bool} {t : Tag} (h : ((V f l).access e w t).ub = false) : (l.access e w t).ub = l.ub ∧ f <:+ t := by
  obtain ⟨-, h2, h3, -⟩ := Loc.access_spec h
  obtain ⟨-, i0, hi0, e0⟩ := Loc.has_iff.1 h2
  have hi0' := mem_below.1 (show i0 ∈ below f l.items from hi0)
  have ht : f <:+ t := by rw [← e0]; exact hi0'.2
  refine ⟨?_, ht⟩
  rw [Loc.access_ok (Loc.has_iff.2 ⟨hl, i0, hi0'.1, e0⟩)]
  intro i hi
  by_cases hd : f <:+ i.tag
  · exact h3 i (mem_below.2 ⟨hi, hd⟩)
  · unfold Item.after
    by_cases h1 : i.tag <:+ t
    · rw [if_pos (List.isSuffixOf_iff_suffix.2 h1)]
      have h4 : i.tag <:+ f := (List.suffix_or_suffix_of_suffix h1 ht).resolve_right hd
      have h5 : i.tag ≠ f := fun k => hd (by rw [k]; exact List.suffix_refl _)
      rcases o.cond with hc | hc
      · obtain ⟨q, e1, -⟩ := Perm.child_ok (w := w) (hc i hi h4 h5)
        rw [e1]; rfl
      · have h6 := hc i hi h4
        rw [if_neg h5] at h6
        cases w with
        | false => revert h6; cases i.perm <;> simp [Perm.child]
        | true =>
          obtain ⟨j, hj, e1⟩ := o.has
          have h7 := h3 j (mem_below.2 ⟨hj, by rw [e1]; exact List.suffix_refl _⟩)
          have h8 := hc j hj (by rw [e1]; exact List.suffix_refl _)
          rw [if_pos e1] at h8
          unfold Item.after at h7
          rw [if_pos (List.isSuffixOf_iff_suffix.2 (by rw [e1]; exact ht))] at h7
          rcases h8 with h8 | h8 <;> rw [h8] at h7 <;> simp [Perm.child] at h7
    · rw [if_neg (fun k => h1 (List.isSuffixOf_iff_suffix.1 k))]
      have h2 : ¬ t <:+ i.tag := fun k => hd (ht.trans k)
      rw [if_neg (by simp [h2])]
      obtain ⟨q, e1⟩ := Perm.foreign_free w i.perm
      rw [o.off i hi hd (fun k => h1 (k.trans ht)), e1]
      rfl

theorem Foc.ends (o : Foc f l) (hl : l.live = true) (h0 : l.ub = false) {p : Tag} (hp : f <:+ p) (h : ((V f l).ends p).ub = false) : (l.ends p).ub = false := by
  revert h
  unfold Loc.ends
  rw [show (V f l).items = below f l.items from rfl, find_below hp]
  generalize (l.items.find? (·.tag == p)).map Item.perm = x
  intro h
  cases x with
  | none => exact h0
  | some q =>
    cases q with
    | cell | disabled => exact h0
    | active => exact (o.access hl h).1.trans h0
    | reserved | reservedIM | frozen => exact (o.access hl h).1.trans h0

theorem Foc.endsAll : ∀ (is : List Item) {l : Loc}, Foc f l → l.live = true → l.ub = false → Fresh l → (∀ i ∈ is, f <:+ i.tag) → (is.foldl (fun l i => l.ends i.tag) (V f l)).ub = false →
    (is.foldl (fun l i => l.ends i.tag) l).ub = false
  | [], _, _, _, h0, _, _, _ => h0
  | i :: is, l, o, hl, h0, hf, hi, h => by
    simp only [List.foldl_cons] at h ⊢
    have hi0 := hi i (List.mem_cons_self ..)
    have h1 := o.ends hl h0 hi0 (endsAll_ub is h)
    have u := (Upd.ends hi0 hf h1).1
    rw [V.ends hi0 h1] at h
    exact Foc.endsAll is (o.upd u hf) (u.live.trans hl) h1 u.fresh (fun j hj => hi j (List.mem_cons_of_mem _ hj)) h

/-- Whatever is allowed in the view is allowed. -/
theorem Foc.act (o : Foc f l) (hl : l.live = true) (h0 : l.ub = false) (hf : Fresh l) (hc : ∃ c us, l.calls = c :: us ∧ c ≠ 0) {a : Acc} (h : ((V f l).act a).ub = false) :
    (l.act a).ub = false ∧ Via f l a := by
  obtain ⟨c, us, hcs, hc⟩ := hc
  cases a with
  | read t =>
    obtain ⟨h1, h2⟩ := o.access hl h
    exact ⟨h1.trans h0, h2⟩
  | write t =>
    obtain ⟨h1, h2⟩ := o.access hl h
    exact ⟨h1.trans h0, h2⟩
  | enter => exact ⟨h0, by have := hf.calls c (by rw [hcs]; simp); simp only [Via]; omega⟩
  | leave =>
    have hin : ∀ i ∈ l.items, i.prot = some c → f <:+ i.tag := fun i hi e => Classical.byContradiction fun n => o.calls i hi n c (by rw [hcs]; simp) hc e
    refine ⟨?_, c, us, hcs, hin⟩
    simp only [Loc.act] at h ⊢
    rw [show (V f l).calls = l.calls from rfl] at h
    rw [hcs] at h ⊢
    simp only at h ⊢
    have ei : (V f l).items.filter (·.prot == some c) = l.items.filter (·.prot == some c) := by
      show (below f l.items).filter _ = _
      rw [below, List.filter_filter]
      refine List.filter_congr fun i hi' => ?_
      rw [Bool.eq_iff_iff]
      simp only [Bool.and_eq_true, beq_iff_eq, List.isSuffixOf_iff_suffix]
      exact ⟨fun k => k.1, fun k => ⟨k, hin i hi' k⟩⟩
    rw [ei] at h
    exact o.endsAll _ hl h0 hf (fun i hi' => by
      obtain ⟨h1, h2⟩ := List.mem_filter.1 hi'
      exact hin i h1 (by simpa using h2)) h
  | reborrow p t prot =>
    have hp : prot = true → ∀ x, l.calls.head? = some x → x ≠ 0 := fun _ x e => by
      rw [hcs] at e
      obtain rfl : c = x := by simpa using e
      exact hc
    simp only [Loc.act] at h ⊢
    split at h
    · rename_i hcond
      rw [if_pos hcond]
      obtain ⟨h1, h2⟩ := o.access hl (show ((V f l).access false false t).ub = false from h)
      exact ⟨h1.trans h0, h2, hp⟩
    · rename_i hcond
      rw [if_neg hcond]
      split at h
      · rename_i hc2
        obtain ⟨-, i, hi, e⟩ := Loc.has_iff.1 hc2.2
        have hi' := mem_below.1 (show i ∈ below f l.items from hi)
        rw [if_pos ⟨hc2.1, Loc.has_iff.2 ⟨hl, i, hi'.1, e⟩⟩]
        exact ⟨h0, by rw [← e]; exact hi'.2, hp⟩
      · simp [Loc.bad] at h

end Miniserde.TB
