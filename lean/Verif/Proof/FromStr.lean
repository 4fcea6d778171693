import Verif.Proof.Refine
import Verif.Proof.Decode
import Verif.Proof.Complete

/-!
# Assembling `from_str`
-/

namespace Miniserde

/-! ## No panic -/

mutual
/-- No panic flag and only scalar events at the leaves. -/
def PT.Calm : PT → Prop
  | .leaf ev => ev.isLeaf = true
  | .bad p => p = false
  | .seq xs e => PT.CalmL xs ∧ e ≠ .stop true
  | .map ms e => PT.CalmM ms ∧ e ≠ .stop true

def PT.CalmL : List PT → Prop
  | [] => True
  | x :: xs => x.Calm ∧ PT.CalmL xs

def PT.CalmM : List (Bytes × PT) → Prop
  | [] => True
  | (_, x) :: xs => x.Calm ∧ PT.CalmM xs
end

theorem PVal.rem {d t d'} (h : PVal d t (some d')) : d'.rem ≤ d.rem := by
  obtain ⟨c, -, te⟩ := h.eats
  have := te.rem
  omega

mutual
theorem PVal.calm : ∀ {d t o} (_ : PVal d t o), d.rem < 2147483648 → t.Calm
  | _, _, _, .err _, _ => by simp [PT.Calm]
  | d, _, _, .panic h, hr => by
    rcases De.event_spec d with hb | ⟨_, _, _, _, he, _⟩
    · rcases hb with hb | ⟨-, hb⟩
      · rw [h] at hb; cases hb
      · omega
    · rw [h] at he; simp at he
  | _, _, _, .leaf _ hl, _ => by simpa [PT.Calm] using hl
  | _, _, _, .seq h hs, hr => by
    have := event_rem h
    simpa [PT.Calm] using hs.calm (by omega)
  | _, _, _, .map h hs, hr => by
    have := event_rem h
    simpa [PT.Calm] using hs.calm (by omega)

theorem PElems.calm : ∀ {ac d xs e o} (_ : PElems ac d xs e o), d.rem < 2147483648 → PT.CalmL xs ∧ e ≠ .stop true
  | _, _, _, _, _, .close _, _ => by simp [PT.CalmL]
  | _, _, _, _, _, .stop _, _ => by simp [PT.CalmL]
  | _, _, _, _, _, .child h hx hs, hr => by
    have h1 := sepStep_child_rem (.inl rfl) h
    have h2 := hx.rem
    have h3 := hs.calm (by omega)
    exact ⟨⟨hx.calm (by omega), h3.1⟩, h3.2⟩
  | _, _, _, _, _, .last h hx, hr => by
    have h1 := sepStep_child_rem (.inl rfl) h
    simpa [PT.CalmL] using hx.calm (by omega)

theorem PMembers.calm : ∀ {ac d xs e o} (_ : PMembers ac d xs e o), d.rem < 2147483648 → PT.CalmM xs ∧ e ≠ .stop true
  | _, _, _, _, _, .close _, _ => by simp [PT.CalmM]
  | _, _, _, _, _, .stop _, _ => by simp [PT.CalmM]
  | _, _, _, _, _, .keyStop (d1 := d1) h hk, hr => by
    rcases keyStep_spec d1 with ⟨_, _, _, _, _, k1, _⟩ | ⟨_, k1, _⟩ | k1 <;> rw [hk] at k1 <;> cases k1
    simp [PT.CalmM]
  | _, _, _, _, _, .noColon _ _, _ => by simp [PT.CalmM, PT.Calm]
  | _, _, _, _, _, .child h hk hx hs, hr => by
    have h1 := sepStep_child_rem (.inr rfl) h
    have h4 := keyStep_rem hk
    have h2 := hx.rem
    have h3 := hs.calm (by omega)
    exact ⟨⟨hx.calm (by omega), h3.1⟩, h3.2⟩
  | _, _, _, _, _, .last h hk hx, hr => by
    have h1 := sepStep_child_rem (.inr rfl) h
    have h4 := keyStep_rem hk
    simpa [PT.CalmM] using hx.calm (by omega)
end

theorem failure_calm {α : Type} {p : Bool} (h : p = false) : (failure p : Res α) ≠ .panic := by subst h; nofun

theorem bind_ne_panic {α β : Type} {x : Res α} {f : α → Res β} (hx : x ≠ .panic) (hf : ∀ a, f a ≠ .panic) :
    x.bind f ≠ .panic := by
  cases x with
  | ok a => exact hf a
  | err => nofun
  | panic => exact absurd rfl hx

mutual
theorem runIgnore_calm : ∀ (x : PT), x.Calm → runIgnore x ≠ .panic
  | .leaf ev, h => by simp only [PT.Calm] at h; simp [runIgnore, h]
  | .bad p, h => failure_calm h
  | .seq xs e, h => runIgnoreElems_calm xs e h.1 h.2
  | .map ms e, h => runIgnoreMembers_calm ms e h.1 h.2

theorem runIgnoreElems_calm : ∀ (xs : List PT) (e : End), PT.CalmL xs → e ≠ .stop true → runIgnoreElems xs e ≠ .panic
  | [], .closed, _, _ => nofun
  | [], .stop p, _, he => failure_calm (by cases p <;> simp at he ⊢)
  | x :: xs, e, h, he => bind_ne_panic (runIgnore_calm x h.1) fun _ => runIgnoreElems_calm xs e h.2 he

theorem runIgnoreMembers_calm : ∀ (ms : List (Bytes × PT)) (e : End), PT.CalmM ms → e ≠ .stop true →
    runIgnoreMembers ms e ≠ .panic
  | [], .closed, _, _ => nofun
  | [], .stop p, _, he => failure_calm (by cases p <;> simp at he ⊢)
  | (_, x) :: xs, e, h, he => bind_ne_panic (runIgnore_calm x h.1) fun _ => runIgnoreMembers_calm xs e h.2 he
end

variable (E : Env)

theorem finishCore_calm {isMap : Bool} {c : Core} (h : c.WF E isMap) : finishCore E c ≠ .panic := by
  obtain ⟨r, c', h1, -, h3⟩ := h.finish
  rw [finishCore, h1]; exact h3

theorem map_ne_panic {α β : Type} {x : Res α} {f : α → β} (hx : x ≠ .panic) : x.map f ≠ .panic :=
  bind_ne_panic hx fun _ => nofun

mutual
theorem run_calm : ∀ (x : PT) (t : Ty), x.Calm → run E x t ≠ .panic
  | .leaf ev, t, h => by
    simp only [PT.Calm] at h; rw [run, if_pos h]
    cases leafVal E t ev <;> simp
  | .bad p, _, h => failure_calm h
  | .seq xs e, t, h => by
    rw [run]
    cases hc : openCore E t false with
    | none => simp
    | some c => exact map_ne_panic (runElems_calm xs e c (openCore_wf E hc) h.1 h.2)
  | .map ms e, t, h => by
    rw [run]
    cases hc : openCore E t true with
    | none => simp
    | some c => exact map_ne_panic (runMembers_calm ms e c (openCore_wf E hc) h.1 h.2)

theorem runElems_calm : ∀ (xs : List PT) (e : End) (c : Core), c.WF E false → PT.CalmL xs → e ≠ .stop true →
    runElems E xs e c ≠ .panic
  | [], .closed, _, hc, _, _ => finishCore_calm E hc
  | [], .stop p, _, _, _, he => failure_calm (by cases p <;> simp at he ⊢)
  | x :: xs, e, c, hc, h, he => by
    obtain ⟨r, c', h1, h2, h3, -⟩ := hc.child E none rfl
    rw [runElems, h1]
    match r, h3 with
    | .ok (some (f, t)), _ =>
      exact bind_ne_panic (run_calm x t h.1) fun v => runElems_calm xs e _ (h2.put E f (some v)) h.2 he
    | .ok none, _ => exact bind_ne_panic (runIgnore_calm x h.1) fun _ => runElems_calm xs e _ h2 h.2 he
    | .err, _ => nofun
    | .panic, h3 => exact absurd rfl h3

theorem runMembers_calm : ∀ (ms : List (Bytes × PT)) (e : End) (c : Core), c.WF E true → PT.CalmM ms → e ≠ .stop true →
    runMembers E ms e c ≠ .panic
  | [], .closed, _, hc, _, _ => finishCore_calm E hc
  | [], .stop p, _, _, _, he => failure_calm (by cases p <;> simp at he ⊢)
  | (k, x) :: xs, e, c, hc, h, he => by
    obtain ⟨r, c', h1, h2, h3, -⟩ := hc.child E (some k) rfl
    rw [runMembers, h1]
    match r, h3 with
    | .ok (some (f, t)), _ =>
      exact bind_ne_panic (run_calm x t h.1) fun v => runMembers_calm xs e _ (h2.put E f (some v)) h.2 he
    | .ok none, _ => exact bind_ne_panic (runIgnore_calm x h.1) fun _ => runMembers_calm xs e _ h2 h.2 he
    | .err, _ => nofun
    | .panic, h3 => exact absurd rfl h3
end

/-! ## `from_str` -/

/-- The heap when `from_str` returns: no fault, and nothing is left but the local `out`. -/
structure Heap.Clean (h : Heap) : Prop where
  noFault : h.fault = false
  only : ∀ a, a ≠ 0 → h.mem a = none
  out : ∃ c, h.mem 0 = some (.slot c)

theorem init_good : Heap.init.Good := by
  refine ⟨rfl, fun a ha => ?_⟩
  have : a ≠ 0 := by simp [Heap.init] at ha; omega
  simp [Heap.init, Mem.set, this]

theorem init_valid : Valid Heap.init.mem ⟨0, 0, 0⟩ := by
  simp [Valid, Mem.read, Heap.init, Mem.set, Obj.get, readD]

theorem set_set (c c' : Option Val) : Mem.set (Mem.set (fun _ => none) 0 (some (.slot c))) 0 (some (.slot c')) =
    Mem.set (fun _ => none) 0 (some (.slot c')) := by
  funext b; by_cases hb : b = 0 <;> simp [Mem.set, hb]

theorem out_write (c c' : Option Val) : Mem.write (Mem.set (fun _ => none) 0 (some (.slot c))) ⟨0, 0, 0⟩ c' =
    some (Mem.set (fun _ => none) 0 (some (.slot c'))) := by
  rw [← set_set c c']
  simp [Mem.write, Mem.set, Obj.get, Obj.put, writeD]

/-- The heap after a traversal from the initial heap. -/
theorem post_init {r : Res Val} {h' : Heap} (hp : Post Heap.init Heap.init.mem ⟨0, 0, 0⟩ r h') :
    ∃ c, h'.mem = Mem.set (fun _ => none) 0 (some (.slot c)) ∧ h'.fault = false ∧ ∀ v, r = .ok v → c = some v := by
  obtain ⟨c, h1, h2⟩ := hp.mem
  have := out_write none c
  rw [show Heap.init.mem = Mem.set (fun _ => none) 0 (some (.slot none)) from rfl, this] at h1
  simp only [Option.some.injEq] at h1
  exact ⟨c, h1.symm, hp.noFault, h2⟩

theorem clean_of_mem {h : Heap} {c : Option Val} (hm : h.mem = Mem.set (fun _ => none) 0 (some (.slot c)))
    (hf : h.fault = false) : h.Clean :=
  ⟨hf, fun a ha => by simp [hm, Mem.set, ha], c, by simp [hm, Mem.set]⟩

/-- From the traversal to `from_str`. -/
theorem fromStr_of {s : Bytes} {t : Ty} {r : Res Val} {r' : Res Unit} {h' : Heap}
    (e : fromStrImpl (lib E) s (VH.place t ⟨0, 0, 0⟩) Heap.init = some (r', h'))
    (hr : r' = .ok () → ∃ v, r = .ok v)
    (hp : Post Heap.init Heap.init.mem ⟨0, 0, 0⟩ r h') :
    ∃ h, h.Clean ∧ fromStr E t s = some (r'.bind fun _ => r, h) := by
  obtain ⟨c, hm, hf, hc⟩ := post_init hp
  have hcl := clean_of_mem hm hf
  have hread : h'.mem.read ⟨0, 0, 0⟩ = some c := by simp [Mem.read, hm, Mem.set, Obj.get, readD]
  have hcl2 : (h'.write ⟨0, 0, 0⟩ none).Clean := by
    have := out_write c none
    rw [← hm] at this
    refine clean_of_mem (c := none) ?_ ?_ <;> simp only [Heap.write, this]
    exact hf
  rw [fromStr, e]
  cases r' with
  | err => exact ⟨h', hcl, rfl⟩
  | panic => exact ⟨h', hcl, rfl⟩
  | ok u =>
    obtain ⟨v, rfl⟩ := hr rfl
    have := hc v rfl
    subst this
    refine ⟨_, hcl2, ?_⟩
    simp only [Option.map_some, hread, Res.bind_ok']

/-- `from_str` on any input: it returns, does not panic, and leaves a clean heap. -/
theorem fromStr_any {s : Bytes} (hs : s.length < 2147483648) (t : Ty) :
    ∃ r h, h.Clean ∧ r ≠ .panic ∧ fromStr E t s = some (r, h) := by
  obtain ⟨x, o, p⟩ := (parse_total (initDe s).rem).1 (initDe s) (Nat.le_refl _)
  obtain ⟨h', e, hp⟩ := drive_place E x (t := t) (p := ⟨0, 0, 0⟩) init_good init_valid
  have hx := run_calm E x t (p.calm (by rw [initDe_rem]; exact hs))
  have e' : fromStrImpl (lib E) s (VH.place t ⟨0, 0, 0⟩) Heap.init =
      some (outcome o ((run E x t).map (fun _ => ()), h')) :=
    (fromStrImpl_eq (lib E) p (s.length + 1) (Nat.lt_succ_self _) _ _).trans (congrArg (fun z => some (outcome o z)) e)
  cases hr : run E x t with
  | panic => exact absurd hr hx
  | err =>
    rw [hr] at e' hp
    obtain ⟨h, h1, h2⟩ := fromStr_of E e' (by simp) hp
    exact ⟨.err, h, h1, nofun, h2⟩
  | ok v =>
    rw [hr] at e' hp
    cases o with
    | none =>
      obtain ⟨h, h1, h2⟩ := fromStr_of E e' (by simp) hp
      exact ⟨.err, h, h1, nofun, h2⟩
    | some d =>
      obtain ⟨h, h1, h2⟩ := fromStr_of E e' (fun _ => ⟨v, rfl⟩) hp
      refine ⟨_, h, h1, ?_, h2⟩
      refine bind_ne_panic ?_ fun _ => nofun
      unfold trailing
      split <;> simp

/-- `from_str` in a debug build, on any input of any length: it returns and leaves a clean heap (but may panic). -/
theorem fromStr_mem (s : Bytes) (t : Ty) : ∃ r h, h.Clean ∧ fromStr E t s = some (r, h) := by
  obtain ⟨x, o, p⟩ := (parse_total (initDe s).rem).1 (initDe s) (Nat.le_refl _)
  obtain ⟨h', e, hp⟩ := drive_place E x (t := t) (p := ⟨0, 0, 0⟩) init_good init_valid
  have e' : fromStrImpl (lib E) s (VH.place t ⟨0, 0, 0⟩) Heap.init =
      some (outcome o ((run E x t).map (fun _ => ()), h')) :=
    (fromStrImpl_eq (lib E) p (s.length + 1) (Nat.lt_succ_self _) _ _).trans (congrArg (fun z => some (outcome o z)) e)
  cases hr : run E x t with
  | panic =>
    rw [hr] at e' hp
    obtain ⟨h, h1, h2⟩ := fromStr_of E e' (by intro h; cases o <;> cases h) hp
    exact ⟨_, h, h1, h2⟩
  | err =>
    rw [hr] at e' hp
    obtain ⟨h, h1, h2⟩ := fromStr_of E e' (by simp) hp
    exact ⟨_, h, h1, h2⟩
  | ok v =>
    rw [hr] at e' hp
    cases o with
    | none =>
      obtain ⟨h, h1, h2⟩ := fromStr_of E e' (by simp) hp
      exact ⟨_, h, h1, h2⟩
    | some d =>
      obtain ⟨h, h1, h2⟩ := fromStr_of E e' (fun _ => ⟨v, rfl⟩) hp
      exact ⟨_, h, h1, h2⟩

/-- `from_str` on a JSON text, before the specification of decoding. -/
theorem fromStr_run {s : Bytes} {j : Json} (hj : JText s j) (t : Ty) :
    ∃ h, h.Clean ∧ fromStr E t s = some (run E (toPT j) t, h) := by
  obtain ⟨h', e, hp⟩ := drive_place E (toPT j) (t := t) (p := ⟨0, 0, 0⟩) init_good init_valid
  have e' : fromStrImpl (lib E) s (VH.place t ⟨0, 0, 0⟩) Heap.init = some ((run E (toPT j) t).map (fun _ => ()), h') := by
    refine (fromStrImpl_text hj (lib E) _ _ (s.length + 1) (Nat.lt_succ_self _)).trans ?_
    exact congrArg some ((drive_eq (lib E) _ j Heap.init).trans e)
  obtain ⟨h, h1, h2⟩ := fromStr_of E e' (by cases run E (toPT j) t <;> simp) hp
  refine ⟨h, h1, h2.trans ?_⟩
  cases run E (toPT j) t <;> rfl

/-- **`from_str` on a JSON text**: the decoding of its tree. -/
theorem fromStr_text {s : Bytes} {j : Json} (hj : JText s j) (hs : s.length < 2147483648) (t : Ty) :
    ∃ h, h.Clean ∧ fromStr E t s = some (match decode E j t with | some v => .ok v | none => .err, h) := by
  obtain ⟨h, h1, h2⟩ := fromStr_run E hj t
  obtain ⟨r, h', -, h3, h4⟩ := fromStr_any E hs t
  rw [h2] at h4
  simp only [Option.some.injEq, Prod.mk.injEq] at h4
  refine ⟨h, h1, h2.trans ?_⟩
  cases hr : run E (toPT j) t with
  | ok v => rw [(run_decode E _ _ _).1 hr]
  | panic => exact absurd (h4.1.symm.trans hr) h3
  | err =>
    cases hd : decode E j t with
    | none => rfl
    | some v => rw [(run_decode E _ _ _).2 hd] at hr; cases hr

/-- **`from_str` on anything else**: an error. -/
theorem fromStr_not_text {s : Bytes} (hj : ¬ ∃ j, JText s j) (hs : s.length < 2147483648) (t : Ty) :
    ∃ h, h.Clean ∧ fromStr E t s = some (.err, h) := by
  obtain ⟨r, h, h1, h2, h3⟩ := fromStr_any E hs t
  refine ⟨h, h1, h3.trans ?_⟩
  cases r with
  | err => rfl
  | panic => exact absurd rfl h2
  | ok v =>
    exfalso
    rw [fromStr] at h3
    obtain ⟨⟨r', h'⟩, e, e2⟩ := Option.map_eq_some_iff.1 h3
    cases r' with
    | ok u => exact hj (fromStrImpl_ok (P := lib E) (Nat.lt_succ_self _) e)
    | err => simp at e2
    | panic => simp at e2

end Miniserde
