import Verif.Proof.ClientChain

/-!
# Arbitrary programs on the library's visitors: the invariant
-/

namespace Miniserde

/-- What is borrowed from a variable `root : Option<T>`; `fp` are the addresses of all objects involved. -/
inductive Stack (E : Env) (m : Mem) (g : Nat → Ty) (root : Nat) (T : Ty) : List Hold → List Nat → Prop
  | nil {c} (hm : m root = some (.slot c)) (hc : Content E T c) (hg : g root = T) (hT : T.Small) : Stack E m g root T [] [root]
  | root {fp} (h : Stack E m g root T [] fp) : Stack E m g root T [.visitor (.place T ⟨root, 0, 0⟩)] fp
  | build {t p refs fp k q fp' fin} (h : Stack E m g root T (.visitor (.place t p) :: refs) fp) (hl : Live' E m g t k p q fp' fin)
      (hn : (fp' ++ fp).Nodup) : Stack E m g root T (.builder q k fin :: .visitor (.place t p) :: refs) (fp' ++ fp)
  | child {t p refs fp k q a fp' fin out core f t'} (h : Stack E m g root T (.visitor (.place t p) :: refs) fp) (hl : Chain E m g t k p q a fp')
      (hn : (fp' ++ fp).Nodup) (ha : m a = some (.builder out core)) (hf : core.fieldTy E f = some t') :
      Stack E m g root T (.visitor (.place t' ⟨a, f, 0⟩) :: .builder q k fin :: .visitor (.place t p) :: refs) (fp' ++ fp)
  | ignV {q k fin refs fp} (h : Stack E m g root T (.builder q k fin :: refs) fp) : Stack E m g root T (.visitor .ignore :: .builder q k fin :: refs) fp
  | ignB {k fin refs fp} (h : Stack E m g root T (.visitor .ignore :: refs) fp) :
      Stack E m g root T (.builder .ignore k fin :: .visitor .ignore :: refs) fp

namespace Stack
variable {E : Env} {m : Mem} {g : Nat → Ty} {root : Nat} {T : Ty} {refs : List Hold} {fp : List Nat}

theorem nodup (h : Stack E m g root T refs fp) : fp.Nodup := by
  induction h with
  | nil => simp
  | root _ ih => exact ih
  | build _ _ hn => exact hn
  | child _ _ hn => exact hn
  | ignV _ ih => exact ih
  | ignB _ ih => exact ih

theorem root_mem (h : Stack E m g root T refs fp) : root ∈ fp ∧ T.Small := by
  induction h with
  | nil _ _ _ hT => exact ⟨by simp, hT⟩
  | root _ ih => exact ih
  | build _ _ _ ih => exact ⟨by simp [ih.1], ih.2⟩
  | child _ _ _ _ _ ih => exact ⟨by simp [ih.1], ih.2⟩
  | ignV _ ih => exact ih
  | ignB _ ih => exact ih

theorem live (h : Stack E m g root T refs fp) : ∀ x ∈ fp, m x ≠ none := by
  induction h with
  | nil hm => intro x hx; cases List.mem_singleton.1 hx; rw [hm]; simp
  | root _ ih => exact ih
  | build _ hl _ ih => intro x hx; rcases List.mem_append.1 hx with h | h; exact hl.live x h; exact ih x h
  | child _ hl _ _ _ ih => intro x hx; rcases List.mem_append.1 hx with h | h; exact hl.live x h; exact ih x h
  | ignV _ ih => exact ih
  | ignB _ ih => exact ih

/-- The variable itself. -/
theorem content (h : Stack E m g root T refs fp) : ∃ c, m root = some (.slot c) ∧ Content E T c := by
  induction h with
  | nil hm hc => exact ⟨_, hm, hc⟩
  | root _ ih => exact ih
  | build _ _ _ ih => exact ih
  | child _ _ _ _ _ ih => exact ih
  | ignV _ ih => exact ih
  | ignB _ ih => exact ih

/-- The place of the innermost visitor. -/
theorem top (hE : E.Lawful) (h : Stack E m g root T refs fp) : ∀ {t p r}, refs = .visitor (.place t p) :: r → PlaceOk E m g p t ∧ t.Small ∧ p.addr ∈ fp := by
  induction h with
  | nil => intro _ _ _ e; cases e
  | root h ih =>
    intro _ _ _ e; cases e
    cases h with
    | nil hm hc hg hT => exact ⟨⟨_, _, _, hm, by simp [Obj.fieldTy, optN, hg], rfl, hc, rfl⟩, hT, by simp⟩
  | build => intro _ _ _ e; cases e
  | @child t p refs fp k q a fp' fin out core f t' h hl hn ha hf ih =>
    intro _ _ _ e; cases e
    obtain ⟨ha', T', out', core', e1, e2, e3⟩ := hl.at_base
    rw [ha] at e1; cases e1
    obtain ⟨c, hc1, hc2⟩ := core_get e2 hf
    exact ⟨⟨_, _, _, ha, hf, hc1, hc2, rfl⟩, field_small hE e2 (e3 (ih rfl).2.1) hf, List.mem_append_left _ ha'⟩
  | ignV => intro _ _ _ e; cases e
  | ignB => intro _ _ _ e; cases e

theorem congr (hE : E.Lawful) (h : Stack E m g root T refs fp) {m' : Mem} {g' : Nat → Ty} (h1 : ∀ x ∈ fp, m' x = m x ∧ g' x = g x) :
    Stack E m' g' root T refs fp := by
  induction h with
  | nil hm hc hg hT => exact .nil (by rw [(h1 _ (by simp)).1, hm]) hc (by rw [(h1 _ (by simp)).2, hg]) hT
  | root _ ih => exact .root (ih h1)
  | build h hl hn ih =>
    exact .build (ih fun x hx => h1 x (List.mem_append_right _ hx))
      (hl.congr (fun x hx => h1 x (List.mem_append_left _ hx)) (h1 _ (List.mem_append_right _ (h.top hE rfl).2.2))) hn
  | child h hl hn ha hf ih =>
    exact .child (ih fun x hx => h1 x (List.mem_append_right _ hx))
      (hl.congr (fun x hx => h1 x (List.mem_append_left _ hx)) (h1 _ (List.mem_append_right _ (h.top hE rfl).2.2))) hn
      (by rw [(h1 _ (List.mem_append_left _ hl.at_base.1)).1, ha]) hf
  | ignV _ ih => exact .ignV (ih h1)
  | ignB _ ih => exact .ignB (ih h1)

theorem nodup_out {fp' : List Nat} (hn : (fp' ++ fp).Nodup) {x : Nat} (hx : x ∈ fp) : x ∉ fp' := by
  intro h
  exact (List.nodup_append.1 hn).2.2 x h x hx rfl

/-- A write through the innermost visitor. -/
theorem write (hE : E.Lawful) {t : Ty} {p : Ptr} (h : Stack E m g root T (.visitor (.place t p) :: refs) fp) {c : Option Val} (hc : Content E t c) {m1 : Mem}
    (hw : m.write p c = some m1) : Stack E m1 g root T (.visitor (.place t p) :: refs) fp ∧ ∀ x, x ≠ p.addr → m1 x = m x := by
  cases h with
  | root h =>
    cases h with
    | nil hm hc' hg hT =>
      rw [slot_write c hm] at hw; cases hw
      exact ⟨.root (.nil (Mem.set_same ..) hc hg hT), fun x hx => Mem.set_ne _ _ hx⟩
  | @child t0 p0 refs fp k q a fp' fin out core f t' h hl hn ha hf =>
    obtain ⟨ha', T', out', core', e1, e2, e3⟩ := hl.at_base
    rw [ha] at e1; cases e1
    obtain ⟨c0, hc1, hc2⟩ := core_get e2 hf
    have : m.write ⟨a, f, 0⟩ c = some (m.set a (some (.builder out (core.put f c)))) := write_intro (p := ⟨a, f, 0⟩) (o := .builder out core) (c := c) ha hc1 rfl
    rw [this] at hw; cases hw
    have hpa := (h.top hE rfl).2.2
    refine ⟨.child (out := out) (core := core.put f c) (h.congr hE fun x hx => ⟨Mem.set_ne _ _ ?_, rfl⟩)
      (hl.update (List.nodup_append.1 hn).1 (nodup_out hn hpa) ha e2 fun T hT => (core_put hT hf hc).1) hn (Mem.set_same ..) ?_, fun x hx => Mem.set_ne _ _ hx⟩
    · rintro rfl; exact nodup_out hn hx ha'
    · rw [(core_put e2 hf hc).2]; exact hf

end Stack

/-- The step of one variable: what it means for the rest of the heap. -/
structure Local (E : Env) (root : Nat) (T : Ty) (h : Heap) (g : Nat → Ty) (fp : List Nat) (h' : Heap) (refs' : List Hold) (gone : List Nat) : Prop where
  intro ::
  ok : h'.fault = false
  next : h.next ≤ h'.next
  ex : ∃ g' fp', Stack E h'.mem g' root T refs' fp' ∧ (∀ x, x < h.next → g' x = g x) ∧ (∀ x ∈ fp', (x ∈ fp ∧ x ∉ gone) ∨ (h.next ≤ x ∧ x < h'.next)) ∧
    (∀ x, x ∉ fp' → x ∉ gone → (x ∈ fp ∨ h.next ≤ x) → h'.mem x = none) ∧ (∀ x ∈ gone, h'.mem x ≠ none ∧ x ∈ fp)
  frame : ∀ x, x ∉ fp → x < h.next → h'.mem x = h.mem x

section
variable {E : Env} {h : Heap} {g : Nat → Ty} {root : Nat} {T : Ty} {refs : List Hold} {fp : List Nat}

/-- Nothing happens but the references. -/
theorem Local.same (hf : h.fault = false) (hfr : ∀ x, h.next ≤ x → h.mem x = none) (hs : Stack E h.mem g root T refs fp) : Local E root T h g fp h refs [] :=
  ⟨hf, Nat.le_refl _, ⟨g, fp, hs, fun _ _ => rfl, fun x hx => .inl ⟨hx, by simp⟩, fun x hx _ h' => by
    rcases h' with h' | h'
    · exact absurd h' hx
    · exact hfr x h', by simp⟩, fun _ _ _ => rfl⟩

/-- The content of the live addresses changes. -/
theorem Local.change (hfr : ∀ x, h.next ≤ x → h.mem x = none) (_hs : Stack E h.mem g root T refs fp) {h' : Heap} {refs' : List Hold} (hf : h'.fault = false)
    (hn : h'.next = h.next) (hs' : Stack E h'.mem g root T refs' fp) (hfm : ∀ x, x ∉ fp → h'.mem x = h.mem x) : Local E root T h g fp h' refs' [] :=
  ⟨hf, Nat.le_of_eq hn.symm, ⟨g, fp, hs', fun _ _ => rfl, fun x hx => .inl ⟨hx, by simp⟩, fun x hx _ h' => by
    rcases h' with h' | h'
    · exact absurd h' hx
    · rw [hfm x hx]; exact hfr x h', by simp⟩, fun x hx _ => hfm x hx⟩

/-- `null`, `boolean`, ... -/
theorem local_leaf (hE : E.Lawful) (hf : h.fault = false) (hfr : ∀ x, h.next ≤ x → h.mem x = none) {v : VH}
    (hs : Stack E h.mem g root T (.visitor v :: refs) fp) {ev : Event} (he : ev.Legal) :
    (leafAt E v ev h).1 ≠ .panic ∧ Local E root T h g fp (leafAt E v ev h).2 (.visitor v :: refs) [] := by
  cases v with
  | ignore => exact ⟨by simp [leafAt], .same hf hfr hs⟩
  | place t p =>
    obtain ⟨hp, ht, hpa⟩ := hs.top hE rfl
    obtain ⟨x, hx1, hx2⟩ := hp.read
    obtain ⟨l1, l2, l3⟩ := leafOn_typed he t ht x hx2
    obtain ⟨o, c0, T', -, -, -, hw, -⟩ := hp.write l1
    obtain ⟨s1, s2⟩ := hs.write hE l1 hw
    simp only [leafAt, hx1]
    refine ⟨l2, ?_⟩
    rw [heap_write_eq hw]
    exact .change hfr hs hf rfl s1 fun x hx => s2 x (by rintro rfl; exact hx hpa)

/-- `seq`, `map` -/
theorem local_open (hE : E.Lawful) (hf : h.fault = false) (hfr : ∀ x, h.next ≤ x → h.mem x = none) {v : VH}
    (hs : Stack E h.mem g root T (.visitor v :: refs) fp) (isMap : Bool) :
    (openV E v isMap h).1 ≠ .panic ∧
      Local E root T h g fp (openV E v isMap h).2 (handOut (fun q => .builder q isMap false) (.visitor v :: refs) (openV E v isMap h).1) [] := by
  cases v with
  | ignore => exact ⟨by simp [openV], .same hf hfr (.ignB hs)⟩
  | place t p =>
    obtain ⟨hp, ht, hpa⟩ := hs.top hE rfl
    obtain ⟨r, h', g', c, m1, e1, e2, e3, e4, e5, e6, e7, e8⟩ := chain_open isMap t hf hfr hp
    obtain ⟨s1, s2⟩ := hs.write hE e4 e5
    simp only [openV, e1]
    refine ⟨e7, ?_⟩
    have hlt : ∀ x ∈ fp, x < h.next := fun x hx => by
      rcases Nat.lt_or_ge x h.next with h1 | h1
      · exact h1
      · exact absurd (hfr x h1) (hs.live x hx)
    have hm1 : ∀ x, x ∉ fp → m1 x = h.mem x := fun x hx => s2 x (by rintro rfl; exact hx hpa)
    rcases e8 with ⟨rfl, rfl⟩ | ⟨q, a, fp', rfl, ch, f1, f2, f3⟩
    · refine ⟨e2, e3, ⟨g, fp, s1, fun _ _ => rfl, fun x hx => .inl ⟨hx, by simp⟩, ?_, by simp⟩, fun x hx _ => hm1 x hx⟩
      intro x hx _ h'
      rcases h' with h' | h'
      · exact absurd h' hx
      · rw [hm1 x hx]; exact hfr x h'
    · have hdis : ∀ x ∈ fp, x ∉ fp' := fun x hx hx' => by have := hlt x hx; have := f2 x hx'; omega
      have s3 : Stack E h'.mem g' root T (.visitor (.place t p) :: refs) fp := s1.congr hE fun x hx => ⟨f3 x (hdis x hx), e6 x (hlt x hx)⟩
      have hn : (fp' ++ fp).Nodup := List.nodup_append.2 ⟨f1, hs.nodup, fun x hx y hy e => hdis y hy (e ▸ hx)⟩
      refine ⟨e2, e3, ⟨g', fp' ++ fp, .build s3 (.chain ch false) hn, e6, ?_, ?_, by simp⟩, ?_⟩
      · intro x hx
        rcases List.mem_append.1 hx with hx | hx
        · exact .inr (f2 x hx)
        · exact .inl ⟨hx, by simp⟩
      · intro x hx _ h'
        simp only [List.mem_append, not_or] at hx
        rw [f3 x hx.1, hm1 x hx.2]
        rcases h' with h' | h'
        · exact absurd h' hx.2
        · exact hfr x h'
      · intro x hx hx'
        rw [f3 x (fun h1 => by have := f2 x h1; omega), hm1 x hx]

/-- `element`, `key` -/
theorem local_child (hE : E.Lawful) (hf : h.fault = false) (hfr : ∀ x, h.next ≤ x → h.mem x = none) {q : BH} {isMap fin : Bool}
    (hs : Stack E h.mem g root T (.builder q isMap fin :: refs) fp) (k : Option Bytes) (hk : k.isSome = isMap) (hu : ∀ s, k = some s → ValidUtf8 s) :
    (childB E q k h).1 ≠ .panic ∧
      Local E root T h g fp (childB E q k h).2 (handOut .visitor (.builder q isMap fin :: refs) (childB E q k h).1) [] := by
  cases hs with
  | ignB hs => exact ⟨by simp [childB], .same hf hfr (.ignV (.ignB hs))⟩
  | @build t p refs fp _ _ fp' _ hs hl hn =>
    cases hl with
    | closed hl =>
      rw [closed_child hl k rfl]
      exact ⟨by simp, .same hf hfr (.ignV (.build hs (.closed hl) hn))⟩
    | @chain a _ hl =>
      obtain ⟨ha', T', out, core, e1, e2, e3⟩ := hl.at_base
      obtain ⟨r, core', c1, c2, c3, c4⟩ := core_child hE e2 k hk hu
      rw [chain_child hl k e1 c1 rfl]
      have hpa := (hs.top hE rfl).2.2
      have hl' : Chain E (h.set a (.builder out core')).mem g t isMap p q a fp' := by
        refine hl.update (List.nodup_append.1 hn).1 (Stack.nodup_out hn hpa) e1 e2 fun T hT => ?_
        obtain ⟨r', core'', d1, d2, -⟩ := core_child hE hT k hk hu
        rw [c1] at d1; cases d1; exact d2
      have hs' : Stack E (h.set a (.builder out core')).mem g root T (.visitor (.place t p) :: refs) fp :=
        hs.congr hE fun x hx => ⟨Mem.set_ne _ _ (by rintro rfl; exact Stack.nodup_out hn hx ha'), rfl⟩
      have hfm : ∀ x, x ∉ fp' ++ fp → (h.set a (.builder out core')).mem x = h.mem x := fun x hx =>
        Mem.set_ne _ _ (by rintro rfl; exact hx (List.mem_append_left _ ha'))
      have hsb : Stack E (h.set a (.builder out core')).mem g root T (.builder q isMap fin :: .visitor (.place t p) :: refs) (fp' ++ fp) :=
        .build hs' (.chain hl' fin) hn
      rcases r with (_ | ⟨f, t'⟩) | _ | _
      · exact ⟨by simp [Res.map], .change hfr (.build hs (.chain hl fin) hn) hf rfl (.ignV hsb) hfm⟩
      · exact ⟨by simp [Res.map], .change hfr (.build hs (.chain hl fin) hn) hf rfl (.child hs' hl' hn (Mem.set_same ..) (c4 f t' rfl)) hfm⟩
      · exact ⟨by simp [Res.map], .change hfr (.build hs (.chain hl fin) hn) hf rfl hsb hfm⟩
      · exact absurd rfl c3

/-- `finish` -/
theorem local_finish (hE : E.Lawful) (hf : h.fault = false) (hfr : ∀ x, h.next ≤ x → h.mem x = none) {q : BH} {isMap fin : Bool}
    (hs : Stack E h.mem g root T (.builder q isMap fin :: refs) fp) :
    ((finishB E q h).1 = .panic → fin = true ∧ (finishB E q h).2 = h) ∧
      Local E root T h g fp (finishB E q h).2 (markFinished (.builder q isMap fin :: refs) (finishB E q h).1) [] := by
  cases hs with
  | ignB hs => exact ⟨by simp [finishB], .same hf hfr (.ignB hs)⟩
  | @build t p refs fp _ _ fp' _ hs hl hn =>
    cases hl with
    | closed hl =>
      rw [closed_finish hl (List.nodup_append.1 hn).1 rfl]
      exact ⟨by simp, .same hf hfr (.build hs (.closed hl) hn)⟩
    | @chain a _ hl =>
      have hpa := (hs.top hE rfl).2.2
      obtain ⟨r, h', fp'', c, m1, e1, e2, e3, e4, e5, e6, e7, e8, e9, e10, e11, e12, e13⟩ :=
        chain_finish hE hl (List.nodup_append.1 hn).1 (Stack.nodup_out hn hpa) rfl hf
      obtain ⟨s1, s2⟩ := hs.write hE e5 e6
      rw [e1]
      refine ⟨fun e => absurd e e2, ?_⟩
      have hs' : Stack E h'.mem g root T (.visitor (.place t p) :: refs) fp :=
        s1.congr hE fun x hx => ⟨e12 x (Stack.nodup_out hn hx), rfl⟩
      have hn' : (fp'' ++ fp).Nodup := List.nodup_append.2 ⟨e10, (List.nodup_append.1 hn).2.1, fun x hx y hy e => Stack.nodup_out hn hy (e ▸ e11 x hx)⟩
      have hm1 : ∀ x, x ∉ fp → m1 x = h.mem x := fun x hx => s2 x (by rintro rfl; exact hx hpa)
      have key : ∀ fin', Live' E h'.mem g t isMap p q fp'' fin' →
          Local E root T h g (fp' ++ fp) h' (.builder q isMap fin' :: .visitor (.place t p) :: refs) [] := by
        intro fin' hl'
        refine ⟨e3, Nat.le_of_eq e4.symm, ⟨g, fp'' ++ fp, .build hs' hl' hn', fun _ _ => rfl, ?_, ?_, by simp⟩, ?_⟩
        · intro x hx
          rcases List.mem_append.1 hx with hx | hx
          · exact .inl ⟨List.mem_append_left _ (e11 x hx), by simp⟩
          · exact .inl ⟨List.mem_append_right _ hx, by simp⟩
        · intro x hx _ h1
          simp only [List.mem_append, not_or] at hx
          by_cases hx' : x ∈ fp'
          · exact e13 x hx' hx.1
          · rw [e12 x hx', hm1 x hx.2]
            rcases h1 with h1 | h1
            · rcases List.mem_append.1 h1 with h1 | h1
              · exact absurd h1 hx'
              · exact absurd h1 hx.2
            · exact hfr x h1
        · intro x hx _
          simp only [List.mem_append, not_or] at hx
          rw [e12 x hx.1, hm1 x hx.2]
      cases r with
      | ok u => exact key true e9
      | panic => exact absurd rfl e2
      | err =>
        obtain ⟨k1, k2⟩ := e8 (by simp)
        exact key fin (.chain (k2 ▸ k1) fin)

/-- A visitor is used no more. -/
theorem local_release (hf : h.fault = false) (hfr : ∀ x, h.next ≤ x → h.mem x = none) {v : VH}
    (hs : Stack E h.mem g root T (.visitor v :: refs) fp) : Local E root T h g fp h refs [] := by
  refine .same hf hfr ?_
  cases hs with
  | root h => exact h
  | child h hl hn => exact .build h (.chain hl _) hn
  | ignV h => exact h

/-- `drop` of a builder -/
theorem local_drop (hE : E.Lawful) (hf : h.fault = false) (hfr : ∀ x, h.next ≤ x → h.mem x = none) {q : BH} {isMap fin : Bool}
    (hs : Stack E h.mem g root T (.builder q isMap fin :: refs) fp) : Local E root T h g fp (dropB q h) refs [] := by
  cases hs with
  | ignB hs => exact .same hf hfr hs
  | @build t p refs fp _ _ fp' _ hs hl hn =>
    obtain ⟨d1, d2, d3⟩ := live_drop hl (List.nodup_append.1 hn).1 rfl hf
    have hm : ∀ x, x ∉ fp' → (dropB q h).mem x = h.mem x := fun x hx => by rw [d1, Mem.without, if_neg hx]
    refine ⟨d2, Nat.le_of_eq d3.symm, ⟨g, fp, hs.congr hE fun x hx => ⟨hm x (Stack.nodup_out hn hx), rfl⟩, fun _ _ => rfl,
      fun x hx => .inl ⟨List.mem_append_right _ hx, by simp⟩, ?_, by simp⟩, ?_⟩
    · intro x hx _ h1
      by_cases hx' : x ∈ fp'
      · rw [d1, Mem.without, if_pos hx']
      · rw [hm x hx']
        rcases h1 with h1 | h1
        · rcases List.mem_append.1 h1 with h1 | h1
          · exact absurd h1 hx'
          · exact absurd h1 hx
        · exact hfr x h1
    · intro x hx _
      simp only [List.mem_append, not_or] at hx
      exact hm x hx.1

/-- `mem::forget` of a builder -/
theorem local_forget (hf : h.fault = false) (hfr : ∀ x, h.next ≤ x → h.mem x = none) {q : BH} {isMap fin : Bool}
    (hs : Stack E h.mem g root T (.builder q isMap fin :: refs) fp) : ∃ gone, gone.Nodup ∧ Local E root T h g fp h refs gone := by
  cases hs with
  | ignB hs => exact ⟨[], by simp, .same hf hfr hs⟩
  | @build t p refs fp _ _ fp' _ hs hl hn =>
    refine ⟨fp', (List.nodup_append.1 hn).1, hf, Nat.le_refl _, ⟨g, fp, hs, fun _ _ => rfl,
      fun x hx => .inl ⟨List.mem_append_right _ hx, Stack.nodup_out hn hx⟩, ?_, ?_⟩, fun _ _ _ => rfl⟩
    · intro x hx hx' h1
      rcases h1 with h1 | h1
      · rcases List.mem_append.1 h1 with h1 | h1
        · exact absurd h1 hx'
        · exact absurd h1 hx
      · exact hfr x h1
    · intro x hx; exact ⟨hl.live x hx, List.mem_append_left _ hx⟩

end

/-! ## All variables -/

/-- All variables; `F` are the addresses of all objects they use. -/
inductive Vars (E : Env) (m : Mem) (g : Nat → Ty) : List OutVar → List Nat → Prop
  | nil : Vars E m g [] []
  | cons {x rest fp F} (hx : Stack E m g x.addr x.ty x.refs fp) (hr : Vars E m g rest F) : Vars E m g (x :: rest) (fp ++ F)

namespace Vars
variable {E : Env} {m : Mem} {g : Nat → Ty} {vars pre post : List OutVar} {x : OutVar} {F : List Nat}

theorem split (h : Vars E m g (pre ++ x :: post) F) :
    ∃ F1 fp F2, F = F1 ++ (fp ++ F2) ∧ Vars E m g pre F1 ∧ Stack E m g x.addr x.ty x.refs fp ∧ Vars E m g post F2 := by
  induction pre generalizing F with
  | nil =>
    cases h with
    | cons hx hr => exact ⟨[], _, _, rfl, .nil, hx, hr⟩
  | cons y pre ih =>
    cases h with
    | cons hy hr =>
      obtain ⟨F1, fp, F2, e, h1, h2, h3⟩ := ih hr
      exact ⟨_ ++ F1, fp, F2, by rw [e, List.append_assoc], .cons hy h1, h2, h3⟩

theorem join {F1 F2 : List Nat} (h1 : Vars E m g pre F1) (h3 : Vars E m g post F2) : Vars E m g (pre ++ post) (F1 ++ F2) := by
  induction h1 with
  | nil => exact h3
  | cons hx _ ih => rw [List.append_assoc]; exact .cons hx ih

theorem congr (hE : E.Lawful) (h : Vars E m g vars F) {m' : Mem} {g' : Nat → Ty} (h1 : ∀ x ∈ F, m' x = m x ∧ g' x = g x) : Vars E m' g' vars F := by
  induction h with
  | nil => exact .nil
  | cons hx _ ih => exact .cons (hx.congr hE fun x hx => h1 x (List.mem_append_left _ hx)) (ih fun x hx => h1 x (List.mem_append_right _ hx))

theorem live (h : Vars E m g vars F) : ∀ x ∈ F, m x ≠ none := by
  induction h with
  | nil => simp
  | cons hx _ ih => intro y hy; rcases List.mem_append.1 hy with h | h; exact hx.live y h; exact ih y h

theorem mem (h : Vars E m g vars F) {v : OutVar} (hv : v ∈ vars) : ∃ fp, Stack E m g v.addr v.ty v.refs fp ∧ ∀ x ∈ fp, x ∈ F := by
  induction h with
  | nil => cases hv
  | cons hx _ ih =>
    rcases List.mem_cons.1 hv with rfl | hv
    · exact ⟨_, hx, fun x hx => List.mem_append_left _ hx⟩
    · obtain ⟨fp, h1, h2⟩ := ih hv
      exact ⟨fp, h1, fun x hx => List.mem_append_right _ (h2 x hx)⟩

/-- With nothing borrowed, the variables are all there is. -/
theorem bare (h : Vars E m g vars F) (hb : ∀ v ∈ vars, v.refs = []) : F = vars.map OutVar.addr := by
  induction h with
  | nil => rfl
  | @cons x _ _ _ hx _ ih =>
    have hb' := hb x (by simp)
    rw [hb'] at hx
    cases hx with
    | nil => simp [ih fun v hv => hb v (by simp [hv])]

end Vars

/-- The invariant of all programs.  `L`: leaked objects. -/
structure CInv (E : Env) (c : Client) (F L : List Nat) (g : Nat → Ty) : Prop where
  ok : c.heap.fault = false
  fresh : ∀ x, c.heap.next ≤ x → c.heap.mem x = none
  vars : Vars E c.heap.mem g c.vars F
  nodup : (F ++ L).Nodup
  all : ∀ x, c.heap.mem x ≠ none ↔ x ∈ F ++ L

theorem inv_local_at {E : Env} (hE : E.Lawful) {h h' : Heap} {pre post : List OutVar} {x : OutVar} {refs' : List Hold} {F1 fp F2 L : List Nat} {g : Nat → Ty}
    (hI : CInv E ⟨h, pre ++ x :: post⟩ (F1 ++ (fp ++ F2)) L g) (v1 : Vars E h.mem g pre F1) (v2 : Stack E h.mem g x.addr x.ty x.refs fp)
    (v3 : Vars E h.mem g post F2) {gone : List Nat} (hgn : gone.Nodup) (hl : Local E x.addr x.ty h g fp h' refs' gone) :
    ∃ F' g', CInv E ⟨h', pre ++ { x with refs := refs' } :: post⟩ F' (gone ++ L) g' := by
  obtain ⟨hok, hfr, -, hnd, hall⟩ := hI
  dsimp only at hok hfr hall
  obtain ⟨l1, l2, ⟨g', fp', s1, s2, s3, s4, s5⟩, l4⟩ := hl
  have hlt : ∀ y, h.mem y ≠ none → y < h.next := fun y hy => by
    rcases Nat.lt_or_ge y h.next with h1 | h1
    · exact h1
    · exact absurd (hfr y h1) hy
  have d1 : ∀ y ∈ F1, y ∉ fp := fun y h1 h2 => by
    simp only [List.nodup_append, List.mem_append] at hnd
    exact hnd.1.2.2 y h1 y (.inl h2) rfl
  have d2 : ∀ y ∈ F2, y ∉ fp := fun y h1 h2 => by
    simp only [List.nodup_append, List.mem_append] at hnd
    exact hnd.1.2.1.2.2 y h2 y h1 rfl
  have d3 : ∀ y ∈ L, y ∉ fp := fun y h1 h2 => by
    simp only [List.nodup_append, List.mem_append] at hnd
    exact hnd.2.2 y (.inr (.inl h2)) y h1 rfl
  have d4 : ∀ y ∈ L, y < h.next := fun y hy => hlt y ((hall y).2 (List.mem_append_right _ hy))
  have hout : ∀ y, y ∉ fp → y < h.next → h'.mem y = h.mem y ∧ g' y = g y := fun y h1 h2 => ⟨l4 y h1 h2, s2 y h2⟩
  refine ⟨F1 ++ (fp' ++ F2), g', l1, ?_, ?_, ?_, ?_⟩
  · intro y hy
    dsimp only at hy
    have : y ∉ fp := fun h1 => by have := hlt y (v2.live y h1); omega
    refine s4 y ?_ ?_ (.inr (by omega))
    · intro h1
      rcases s3 y h1 with ⟨h2, -⟩ | h2
      · exact this h2
      · omega
    · intro h1; exact this (s5 y h1).2
  · exact Vars.join (v1.congr hE fun y hy => hout y (d1 y hy) (hlt y (v1.live y hy)))
      (.cons s1 (v3.congr hE fun y hy => hout y (d2 y hy) (hlt y (v3.live y hy))))
  · have b1 : ∀ y ∈ F1, y < h.next := fun y hy => hlt y (v1.live y hy)
    have b2 : ∀ y ∈ F2, y < h.next := fun y hy => hlt y (v3.live y hy)
    have dd : ∀ y, y ∉ fp → y < h.next → y ∉ fp' := fun y h1 h2 h3 => by
      rcases s3 y h3 with ⟨h4, -⟩ | h4
      · exact h1 h4
      · omega
    have n1 := s1.nodup
    simp only [List.nodup_append, List.mem_append] at hnd ⊢
    obtain ⟨⟨na, ⟨-, nc, nd⟩, ne⟩, nf, ng⟩ := hnd
    refine ⟨⟨na, ⟨n1, nc, ?_⟩, ?_⟩, ⟨hgn, nf, ?_⟩, ?_⟩
    · rintro y hy z hz rfl; exact dd y (d2 y hz) (b2 y hz) hy
    · rintro y hy z (hz | hz) rfl
      · exact dd y (d1 y hy) (b1 y hy) hz
      · exact ne y hy y (.inr hz) rfl
    · rintro y hy z hz rfl; exact d3 y hz (s5 y hy).2
    · rintro y hy z (hz | hz) rfl
      · rcases hy with hy | hy | hy
        · exact d1 y hy (s5 y hz).2
        · rcases s3 y hy with ⟨h1, h2⟩ | h1
          · exact h2 hz
          · have := hlt y (v2.live y (s5 y hz).2); omega
        · exact d2 y hy (s5 y hz).2
      · rcases hy with hy | hy | hy
        · exact ng y (.inl hy) y hz rfl
        · exact dd y (d3 y hz) (d4 y hz) hy
        · exact ng y (.inr (.inr hy)) y hz rfl
  · intro y
    simp only [List.mem_append] at hall ⊢
    by_cases hy : y ∈ fp ∨ h.next ≤ y
    · constructor
      · intro h1
        by_cases h2 : y ∈ fp'
        · exact .inl (.inr (.inl h2))
        · by_cases h3 : y ∈ gone
          · exact .inr (.inl h3)
          · exact absurd (s4 y h2 h3 hy) h1
      · rintro ((h1 | h1 | h1) | h1 | h1)
        · rcases hy with hy | hy
          · exact absurd hy (d1 y h1)
          · have := hlt y (v1.live y h1); omega
        · exact s1.live y h1
        · rcases hy with hy | hy
          · exact absurd hy (d2 y h1)
          · have := hlt y (v3.live y h1); omega
        · exact (s5 y h1).1
        · rcases hy with hy | hy
          · exact absurd hy (d3 y h1)
          · have := d4 y h1; omega
    · simp only [not_or, Nat.not_le] at hy
      rw [l4 y hy.1 hy.2, hall y]
      constructor
      · rintro ((h1 | h1 | h1) | h1)
        · exact .inl (.inl h1)
        · exact absurd h1 hy.1
        · exact .inl (.inr (.inr h1))
        · exact .inr (.inr h1)
      · rintro ((h1 | h1 | h1) | h1 | h1)
        · exact .inl (.inl h1)
        · rcases s3 y h1 with ⟨h2, -⟩ | h2
          · exact absurd h2 hy.1
          · omega
        · exact .inl (.inr (.inr h1))
        · exact absurd (s5 y h1).2 hy.1
        · exact .inr h1


theorem inv_local {E : Env} (hE : E.Lawful) {h h' : Heap} {pre post : List OutVar} {x : OutVar} {refs' : List Hold} {F L : List Nat} {g : Nat → Ty}
    (hI : CInv E ⟨h, pre ++ x :: post⟩ F L g) (hl : ∀ fp, Stack E h.mem g x.addr x.ty x.refs fp → Local E x.addr x.ty h g fp h' refs' []) :
    ∃ F' g', CInv E ⟨h', pre ++ { x with refs := refs' } :: post⟩ F' L g' := by
  obtain ⟨F1, fp, F2, rfl, v1, v2, v3⟩ := hI.vars.split
  exact inv_local_at hE hI v1 v2 v3 List.nodup_nil (hl fp v2)

/-- One step. -/
theorem inv_step {E : Env} (hE : E.Lawful) {c c' : Client} {p : Bool} (hs : CStep E c p c') {F L : List Nat} {g : Nat → Ty} (hI : CInv E c F L g) :
    ∃ F' g', CInv E c' F' L g' := by
  cases hs with
  | @declare h vars t ht c hc =>
    obtain ⟨hok, hfr, hv, hnd, hall⟩ := hI
    dsimp only at hok hfr hv hall
    have hne : ∀ y ∈ F ++ L, y ≠ h.next := fun y hy e => (hall y).2 hy (hfr y (by omega))
    refine ⟨[h.next] ++ F, fun x => if x = h.next then t else g x, hok, ?_, .cons (.nil (Mem.set_same ..) hc (by simp [Heap.alloc]) ht) ?_, ?_, ?_⟩
    · intro x hx
      simp only [Heap.alloc] at hx ⊢
      rw [Mem.set_ne _ _ (by omega)]; exact hfr x (by omega)
    · exact hv.congr hE fun y hy => ⟨Mem.set_ne _ _ (hne y (List.mem_append_left _ hy)), if_neg (hne y (List.mem_append_left _ hy))⟩
    · rw [List.append_assoc]
      refine List.nodup_cons.2 ⟨fun h1 => hne _ h1 rfl, hnd⟩
    · intro y
      simp only [Heap.alloc]
      rw [List.append_assoc, List.singleton_append, List.mem_cons]
      by_cases hy : y = h.next
      · subst hy; simp [Mem.set_same]
      · rw [Mem.set_ne _ _ hy, hall y]; simp [hy]
  | @assign h pre t a post c hc =>
    refine inv_local hE (x := ⟨t, a, []⟩) (refs' := []) hI ?_
    intro fp hs
    cases hs with
    | nil hm hc' hg hT =>
      dsimp only at hm hg hT
      rw [heap_write_eq (slot_write c hm)]
      exact .change hI.fresh (.nil hm hc' hg hT) hI.ok rfl (.nil (Mem.set_same ..) hc hg hT) fun x hx => Mem.set_ne _ _ (by simpa using hx)
  | @scope h pre t a post =>
    obtain ⟨hok, hfr, hv, hnd, hall⟩ := hI
    dsimp only at hok hfr hv hall
    obtain ⟨F1, fp, F2, rfl, v1, v2, v3⟩ := hv.split
    dsimp only at v2
    cases v2 with
    | nil hm hc' hg hT =>
      have hfree : h.free a = { h with mem := h.mem.set a none } := by simp only [Heap.free, hm]
      have hnd' : (F1 ++ F2 ++ L).Nodup ∧ a ∉ F1 ++ F2 ++ L := by
        simp only [List.nodup_append, List.mem_append, List.mem_singleton] at hnd ⊢
        obtain ⟨⟨na, ⟨-, nc, nd⟩, ne⟩, nf, ng⟩ := hnd
        refine ⟨⟨⟨na, nc, fun y hy z hz => ne y hy z (.inr hz)⟩, nf, ?_⟩, ?_⟩
        · rintro y (hy | hy) z hz
          · exact ng y (.inl hy) z hz
          · exact ng y (.inr (.inr hy)) z hz
        · rintro ((h1 | h1) | h1)
          · exact ne a h1 a (.inl rfl) rfl
          · exact nd a rfl a h1 rfl
          · exact ng a (.inr (.inl rfl)) a h1 rfl
      rw [hfree]
      refine ⟨F1 ++ F2, g, hok, ?_, ?_, hnd'.1, ?_⟩
      · intro x hx
        show h.mem.set a none x = none
        by_cases h1 : x = a
        · rw [h1, Mem.set_same]
        · rw [Mem.set_ne _ _ h1]; exact hfr x hx
      · refine Vars.congr hE (v1.join v3) fun y hy => ⟨Mem.set_ne _ _ ?_, rfl⟩
        rintro rfl; exact hnd'.2 (List.mem_append_left _ hy)
      · intro y
        show h.mem.set a none y ≠ none ↔ _
        by_cases h1 : y = a
        · rw [h1, Mem.set_same]; simpa using hnd'.2
        · rw [Mem.set_ne _ _ h1, hall y]
          simp only [List.mem_append, List.mem_singleton, h1, false_or]
  | begin => exact inv_local hE hI fun fp hs => .same hI.ok hI.fresh (.root hs)
  | leaf ev he => exact inv_local hE hI fun fp hs => (local_leaf hE hI.ok hI.fresh hs he).2
  | «open» k => exact inv_local hE hI fun fp hs => (local_open hE hI.ok hI.fresh hs k).2
  | element => exact inv_local hE hI fun fp hs => (local_child hE hI.ok hI.fresh hs none rfl (by simp)).2
  | key k hk => exact inv_local hE hI fun fp hs => (local_child hE hI.ok hI.fresh hs (some k) rfl (by simpa using hk)).2
  | finish => exact inv_local hE hI fun fp hs => (local_finish hE hI.ok hI.fresh hs).2
  | release => exact inv_local hE hI fun fp hs => local_release hI.ok hI.fresh hs
  | drop => exact inv_local hE hI fun fp hs => local_drop hE hI.ok hI.fresh hs

theorem inv_forget {E : Env} (hE : E.Lawful) {c c' : Client} (hs : CForget c c') {F L : List Nat} {g : Nat → Ty} (hI : CInv E c F L g) :
    ∃ F' L' g', CInv E c' F' L' g' := by
  cases hs with
  | @forget h pre t a q k fin refs post =>
    obtain ⟨F1, fp, F2, rfl, v1, v2, v3⟩ := hI.vars.split
    obtain ⟨gone, hgn, hl⟩ := local_forget hI.ok hI.fresh v2
    obtain ⟨F', g', h'⟩ := inv_local_at hE (x := ⟨t, a, .builder q k fin :: refs⟩) hI v1 v2 v3 hgn hl
    exact ⟨F', _, g', h'⟩

theorem inv_reach {E : Env} (hE : E.Lawful) {leaky : Bool} {c : Client} (hr : CReach E leaky c) :
    ∃ F L g, CInv E c F L g ∧ (leaky = false → L = []) := by
  induction hr with
  | start => exact ⟨[], [], fun _ => .bool, ⟨rfl, fun _ _ => rfl, .nil, by simp, by simp [Client.start]⟩, fun _ => rfl⟩
  | step _ s ih =>
    obtain ⟨F, L, g, hI, hL⟩ := ih
    obtain ⟨F', g', hI'⟩ := inv_step hE s hI
    exact ⟨F', L, g', hI', hL⟩
  | forget _ s ih =>
    obtain ⟨F, L, g, hI, -⟩ := ih
    obtain ⟨F', L', g', hI'⟩ := inv_forget hE s hI
    exact ⟨F', L', g', hI', by simp⟩

end Miniserde
