import Verif.Model.Threads
import Verif.Proof.FromStr

/-!
# A thread that is disturbed between its memory operations

`runJ` runs a program alone, but before each memory operation the allocator's next address may jump: that is all that a
thread notices of the others.  The result does not depend on the jumps.
-/

namespace Miniserde.Threads
open Miniserde

/-- The other threads have allocated `n` objects. -/
def bump (h : Heap) (n : Nat) : Heap := { h with next := h.next + n }

/-- A heap, and the jumps to come. -/
abbrev W := Heap × List Nat

def tick (w : W) : Heap := bump w.1 (w.2.headD 0)

/-- Heap after a load, a store. -/
def loadH (a : Nat) (h : Heap) : Heap :=
  match h.mem a with
  | some _ => h
  | none => h.bad
def storeH (a : Nat) (o : Obj) (h : Heap) : Heap :=
  match h.mem a with
  | some _ => h.set a o
  | none => h.bad

/-- Run a program, with jumps. -/
def runJ {α : Type} : Prog α → W → α × W
  | .ret x, w => (x, w)
  | .load a k, w => runJ (k (w.1.mem a)) (loadH a (tick w), w.2.tail)
  | .store a o k, w => runJ k (storeH a o (tick w), w.2.tail)
  | .alloc o k, w => runJ (k ((tick w).alloc o).1) (((tick w).alloc o).2, w.2.tail)
  | .free a k, w => runJ k ((tick w).free a, w.2.tail)
  | .fault k, w => runJ k ((tick w).bad, w.2.tail)

theorem runJ_bind {α β : Type} (p : Prog α) (f : α → Prog β) : ∀ w, runJ (p.bind f) w = runJ (f (runJ p w).1) (runJ p w).2 := by
  induction p with
  | ret x => intro w; rfl
  | load a k ih => intro w; simp only [Prog.bind, runJ, ih]
  | store a o k ih => intro w; simp only [Prog.bind, runJ, ih]
  | alloc o k ih => intro w; simp only [Prog.bind, runJ, ih]
  | free a k ih => intro w; simp only [Prog.bind, runJ, ih]
  | fault k ih => intro w; simp only [Prog.bind, runJ, ih]

/-- Same memory, same fault flag; the next address may have moved on. -/
structure Eqv (h g : Heap) : Prop where
  mem : g.mem = h.mem
  fault : g.fault = h.fault
  next : h.next ≤ g.next

theorem Eqv.refl (h : Heap) : Eqv h h := ⟨rfl, rfl, Nat.le_refl _⟩
theorem Eqv.bump {h g : Heap} (e : Eqv h g) (n : Nat) : Eqv h (bump g n) := ⟨e.mem, e.fault, Nat.le_trans e.next (Nat.le_add_right ..)⟩
theorem Eqv.tick {h : Heap} {w : W} (e : Eqv h w.1) : Eqv h (tick w) := e.bump _
theorem Eqv.bad {h g : Heap} (e : Eqv h g) : Eqv h.bad g.bad := ⟨e.mem, rfl, e.next⟩
theorem Eqv.set {h g : Heap} (e : Eqv h g) (a : Nat) (o : Obj) : Eqv (h.set a o) (g.set a o) :=
  ⟨by simp only [Heap.set, e.mem], e.fault, e.next⟩
theorem Eqv.free {h g : Heap} (e : Eqv h g) (a : Nat) : Eqv (h.free a) (g.free a) := by
  unfold Heap.free
  rw [e.mem]
  split
  · exact ⟨rfl, by simp only [e.fault], e.next⟩
  · exact ⟨rfl, e.fault, e.next⟩
  · exact e.bad
theorem Eqv.trans {h g k : Heap} (e : Eqv h g) (f : Eqv g k) : Eqv h k :=
  ⟨f.mem.trans e.mem, f.fault.trans e.fault, Nat.le_trans e.next f.next⟩

/-- The disturbed run `s` does what the undisturbed call `r` does. -/
structure Same {α : Type} (r : α × Heap) (s : α × W) : Prop where
  res : s.1 = r.1
  heap : Eqv r.2 s.2.1

theorem Same.ret {α : Type} (x : α) {h : Heap} {w : W} (e : Eqv h w.1) : Same (x, h) (runJ (.ret x) w) := ⟨rfl, e⟩
theorem Same.fault {α : Type} (x : α) {h : Heap} {w : W} (e : Eqv h w.1) : Same (x, h.bad) (runJ (.fault (.ret x)) w) :=
  ⟨rfl, e.tick.bad⟩

theorem bad_bad (h : Heap) : h.bad.bad = h.bad := rfl

theorem store_live {a : Nat} {o o' : Obj} {h : Heap} {w : W} (e : Eqv h w.1) (ha : h.mem a = some o') :
    Eqv (h.set a o) (storeH a o (tick w)) := by
  have : (tick w).mem a = some o' := by rw [e.tick.mem, ha]
  rw [storeH, this]; exact e.tick.set a o

theorem load_live {a : Nat} {o : Obj} {h : Heap} {w : W} (e : Eqv h w.1) (ha : h.mem a = some o) :
    Eqv h (loadH a (tick w)) := by
  have : (tick w).mem a = some o := by rw [e.tick.mem, ha]
  rw [loadH, this]; exact e.tick

theorem load_dead {a : Nat} {h : Heap} {w : W} (e : Eqv h w.1) (ha : h.mem a = none) :
    Eqv h.bad (loadH a (tick w)) := by
  have : (tick w).mem a = none := by rw [e.tick.mem, ha]
  rw [loadH, this]; exact e.tick.bad

theorem runJ_load {α : Type} {a : Nat} {k : Option Obj → Prog α} {h : Heap} {w : W} (e : Eqv h w.1) {o : Option Obj} (ha : h.mem a = o) :
    ∃ w', runJ (.load a k) w = runJ (k o) w' ∧ ((∃ o', o = some o') → Eqv h w'.1) ∧ (o = none → Eqv h.bad w'.1) := by
  refine ⟨_, by rw [runJ, e.mem, ha], ?_, ?_⟩
  · rintro ⟨o', rfl⟩; exact load_live e ha
  · rintro rfl; exact load_dead e ha

theorem runJ_store {α : Type} {a : Nat} {o o' : Obj} {k : Prog α} {h : Heap} {w : W} (e : Eqv h w.1) (ha : h.mem a = some o') :
    ∃ w', runJ (.store a o k) w = runJ k w' ∧ Eqv (h.set a o) w'.1 :=
  ⟨_, by rw [runJ], store_live e ha⟩

theorem runJ_free {α : Type} {a : Nat} {k : Prog α} {h : Heap} {w : W} (e : Eqv h w.1) :
    ∃ w', runJ (.free a k) w = runJ k w' ∧ Eqv (h.free a) w'.1 :=
  ⟨_, by rw [runJ], e.tick.free a⟩

/-- Reading: the heap is unchanged if the read succeeds, and at most faulted otherwise. -/
theorem read_same (p : Ptr) {h : Heap} {w : W} (e : Eqv h w.1) :
    ∃ w', runJ (readP p) w = (h.mem.read p, w') ∧ (∀ c, h.mem.read p = some c → Eqv h w'.1) ∧
      (h.mem.read p = none → Eqv h w'.1 ∨ Eqv h.bad w'.1) := by
  obtain ⟨w', e1, e2, e3⟩ := runJ_load (a := p.addr)
    (k := fun o => .ret ((o.bind fun o => o.get p.field).bind (readD p.depth))) e rfl
  refine ⟨w', by rw [readP, e1]; rfl, ?_, ?_⟩
  · intro c hc
    apply e2
    cases hm : h.mem p.addr with
    | none => simp [Mem.read, hm] at hc
    | some o => exact ⟨o, rfl⟩
  · intro _
    cases hm : h.mem p.addr with
    | none => exact .inr (e3 hm)
    | some o => exact .inl (e2 ⟨o, hm⟩)

theorem write_same (p : Ptr) (c : Option Val) {h : Heap} {w : W} (e : Eqv h w.1) :
    ∃ w', runJ (writeP p c) w = ((), w') ∧ Eqv (h.write p c) w'.1 := by
  rw [writeP]
  obtain ⟨w1, e1, e2, e3⟩ := runJ_load (a := p.addr) (k := _) e rfl
  rw [e1]
  cases hm : h.mem p.addr with
  | none =>
    refine ⟨_, rfl, ?_⟩
    have : h.write p c = h.bad := by simp [Heap.write, Mem.write, hm]
    rw [this]
    exact ((e3 hm).tick).bad
  | some o =>
    have e2 := e2 ⟨o, hm⟩
    simp only [Option.bind_some]
    cases hg : (o.get p.field).bind fun c0 => (writeD p.depth c c0).map fun c' => o.put p.field c' with
    | none =>
      refine ⟨_, rfl, ?_⟩
      have : h.mem.write p c = none := by
        simp only [Mem.write, hm, Option.bind_some]
        cases h1 : o.get p.field with
        | none => rfl
        | some c0 =>
          rw [h1] at hg
          cases h2 : writeD p.depth c c0 with
          | none => simp [h2]
          | some c' => simp [h2] at hg
      simp only [Heap.write, this]
      exact e2.tick.bad
    | some o' =>
      refine ⟨_, rfl, ?_⟩
      have : h.mem.write p c = some (h.mem.set p.addr (some o')) := by
        simp only [Mem.write, hm, Option.bind_some]
        cases h1 : o.get p.field with
        | none => rw [h1] at hg; cases hg
        | some c0 =>
          rw [h1] at hg
          cases h2 : writeD p.depth c c0 with
          | none => simp [h2] at hg
          | some c' =>
            simp only [h2, Option.bind_some, Option.map_some, Option.some.injEq] at hg ⊢
            rw [hg]
      simp only [Heap.write, this]
      exact store_live e2 hm

variable (E : Env)

theorem leaf_same (v : VH) (ev : Event) {h : Heap} {w : W} (e : Eqv h w.1) : Same (leafAt E v ev h) (runJ (leafP E v ev) w) := by
  cases v with
  | ignore => exact .ret _ e
  | place t p =>
    rw [leafP, leafAt, runJ_bind]
    obtain ⟨w1, e1, e2, e3⟩ := read_same p e
    rw [e1]
    cases hr : h.mem.read p with
    | none =>
      simp only
      rcases e3 hr with e3 | e3
      · exact .fault _ e3
      · rw [← bad_bad]; exact .fault _ e3
    | some c =>
      simp only
      rw [runJ_bind]
      obtain ⟨w2, f1, f2⟩ := write_same p (leafOn E t ev c).2 (e2 c hr)
      rw [f1]
      exact .ret _ f2

theorem child_at_same (k? : Option Bytes) : ∀ (a : Nat) {h : Heap} {w : W}, Eqv h w.1 →
    Same (childAt E a k? h) (runJ (childAtP E a k?) w) := by
  intro a
  induction a using Nat.strongRecOn with
  | ind a ih =>
    intro h w e
    rw [childAt, childAtP]
    obtain ⟨w1, e1, e2, e3⟩ := runJ_load (a := a) (k := _) e rfl
    rw [e1]
    cases hm : h.mem a with
    | none =>
      have := e3 hm
      simp only
      rw [← bad_bad]
      exact .fault _ this
    | some o =>
      have e2 := e2 ⟨o, hm⟩
      cases o with
      | slot c => exact .fault _ e2
      | builder out core =>
        simp only
        have key : ∀ (core' : Core) (x : Res VH), Same (x, h.set a (.builder out core'))
            (runJ (.store a (.builder out core') (.ret x)) w1) := by
          intro core' x
          obtain ⟨w2, f1, f2⟩ := runJ_store (o := .builder out core') (k := .ret x) e2 hm
          rw [f1]; exact .ret _ f2
        generalize core.child E k? = z
        rcases z with _ | ⟨(_ | ⟨f, t⟩) | _ | _, core'⟩
        · exact .fault _ e2
        · exact key _ _
        · exact key _ _
        · exact key _ _
        · exact key _ _
      | boxB out value inner =>
        cases inner with
        | ignore => exact .ret _ e2
        | «at» a' =>
          simp only
          by_cases hl : a' < a
          · rw [if_pos hl, if_pos hl]; exact ih a' hl e2
          · rw [if_neg hl, if_neg hl]; exact .fault _ e2

theorem child_same (q : BH) (k? : Option Bytes) {h : Heap} {w : W} (e : Eqv h w.1) :
    Same (childB E q k? h) (runJ (childP E q k?) w) := by
  cases q with
  | ignore => exact .ret _ e
  | «at» a => exact child_at_same E k? a e

theorem drop_at_same : ∀ (a : Nat) {h : Heap} {w : W}, Eqv h w.1 → ∃ w', runJ (dropAtP a) w = ((), w') ∧ Eqv (dropAt a h) w'.1 := by
  intro a
  induction a using Nat.strongRecOn with
  | ind a ih =>
    intro h w e
    rw [dropAt, dropAtP]
    obtain ⟨w1, e1, e2, e3⟩ := runJ_load (a := a) (k := _) e rfl
    rw [e1]
    cases hm : h.mem a with
    | none =>
      have := e3 hm
      simp only
      rw [← bad_bad]
      exact ⟨_, rfl, this.tick.bad⟩
    | some o =>
      have e2 := e2 ⟨o, hm⟩
      cases o with
      | slot c => exact ⟨_, rfl, e2.tick.bad⟩
      | builder out core => exact ⟨_, rfl, e2.tick.free a⟩
      | boxB out value inner =>
        cases inner with
        | ignore =>
          refine ⟨_, rfl, ?_⟩
          exact (show Eqv (h.free value) ((tick w1).free value) from e2.tick.free _).bump _ |>.free a
        | «at» a' =>
          simp only
          by_cases hl : a' < a
          · rw [if_pos hl, if_pos hl, runJ_bind]
            obtain ⟨w2, f1, f2⟩ := ih a' hl e2
            rw [f1]
            exact ⟨_, rfl, ((f2.tick.free value).bump _).free a⟩
          · rw [if_neg hl, if_neg hl]; exact ⟨_, rfl, e2.tick.bad⟩

theorem drop_same (q : BH) {h : Heap} {w : W} (e : Eqv h w.1) : ∃ w', runJ (dropP q) w = ((), w') ∧ Eqv (dropB q h) w'.1 := by
  cases q with
  | ignore => exact ⟨w, rfl, e⟩
  | «at» a => exact drop_at_same a e

theorem box_finish_same (a : Nat) (out : Ptr) (value : Nat) {h : Heap} {w : W} (e : Eqv h w.1) :
    Same (boxFinish a out value h) (runJ (boxFinishP a out value) w) := by
  rw [boxFinish, boxFinishP]
  obtain ⟨w1, e1, e2, e3⟩ := runJ_load (a := a) (k := _) e rfl
  rw [e1]
  cases hm : h.mem a with
  | none =>
    have := e3 hm
    simp only
    rw [← bad_bad]
    exact .fault _ this
  | some o =>
    have e2 := e2 ⟨o, hm⟩
    simp only
    obtain ⟨w2, f1, f2⟩ := runJ_store (o := .boxB out value .ignore) (k := _) e2 hm
    rw [f1, runJ_bind]
    obtain ⟨w3, g1, g2, g3⟩ := read_same ⟨value, 0, 0⟩ f2
    rw [g1]
    rcases hr : (h.set a (.boxB out value .ignore)).mem.read ⟨value, 0, 0⟩ with _ | _ | v
    · simp only
      rcases g3 hr with g3 | g3
      · exact .fault _ g3
      · rw [← bad_bad]; exact .fault _ g3
    · exact .ret _ (g2 _ hr)
    · simp only
      rw [runJ_bind]
      obtain ⟨w4, i1, i2⟩ := write_same ⟨value, 0, 0⟩ none (g2 _ hr)
      rw [i1]
      simp only
      rw [runJ_bind]
      obtain ⟨w5, j1, j2⟩ := write_same out (some (.box v)) i2
      rw [j1]
      exact .ret _ j2

theorem finish_at_same : ∀ (a : Nat) {h : Heap} {w : W}, Eqv h w.1 → Same (finishAt E a h) (runJ (finishAtP E a) w) := by
  intro a
  induction a using Nat.strongRecOn with
  | ind a ih =>
    intro h w e
    rw [finishAt, finishAtP]
    obtain ⟨w1, e1, e2, e3⟩ := runJ_load (a := a) (k := _) e rfl
    rw [e1]
    cases hm : h.mem a with
    | none =>
      have := e3 hm
      simp only
      rw [← bad_bad]
      exact .fault _ this
    | some o =>
      have e2 := e2 ⟨o, hm⟩
      cases o with
      | slot c => exact .fault _ e2
      | builder out core =>
        simp only
        have key : ∀ (core' : Core) (x : Res Unit), Same (x, h.set a (.builder out core'))
            (runJ (.store a (.builder out core') (.ret x)) w1) := by
          intro core' x
          obtain ⟨w2, f1, f2⟩ := runJ_store (o := .builder out core') (k := .ret x) e2 hm
          rw [f1]; exact .ret _ f2
        generalize core.finish E = z
        rcases z with _ | ⟨v | _ | _, core'⟩
        · exact .fault _ e2
        · simp only
          obtain ⟨w2, f1, f2⟩ := runJ_store (o := .builder out core') (k := (writeP out (some v)).bind fun _ => .ret (Res.ok ())) e2 hm
          rw [f1, runJ_bind]
          obtain ⟨w3, g1, g2⟩ := write_same out (some v) f2
          rw [g1]
          exact .ret _ g2
        · exact key _ _
        · exact key _ _
      | boxB out value inner =>
        cases inner with
        | ignore => exact box_finish_same a out value e2
        | «at» a' =>
          simp only
          by_cases hl : a' < a
          · rw [if_pos hl, if_pos hl, runJ_bind]
            have f := ih a' hl e2
            obtain ⟨f1, f2⟩ := f
            rw [f1]
            generalize finishAt E a' h = z at f1 f2
            obtain ⟨r, h1⟩ := z
            cases r with
            | ok u =>
              simp only
              rw [runJ_bind]
              obtain ⟨w3, g1, g2⟩ := drop_at_same a' f2
              rw [g1]
              exact box_finish_same a out value g2
            | err => exact .ret _ f2
            | panic => exact .ret _ f2
          · rw [if_neg hl, if_neg hl]; exact .fault _ e2

theorem finish_same (q : BH) {h : Heap} {w : W} (e : Eqv h w.1) : Same (finishB E q h) (runJ (finishP E q) w) := by
  cases q with
  | ignore => exact .ret _ e
  | «at» a => exact finish_at_same E a e

end Miniserde.Threads
