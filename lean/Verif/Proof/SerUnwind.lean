import Verif.Proof.SerMonitor
import Verif.Proof.Unwind
import Verif.Spec.SerUnwind

/-!
# Serializer with panicking destructors
-/

namespace Miniserde

def Op.dm (o : Op) (id : Nat) : Nat := match o with | .newBuilder i _ => if i = id then 1 else 0 | _ => 0
def Op.dd (o : Op) (id : Nat) : Nat := match o with | .dropBuilder i => if i = id then 1 else 0 | _ => 0

theorem step_balance (o : Op) (s : MonSt) {mk dr : Nat → Nat} (h1 : ∀ id, mk id = dr id + s.stack.count (.builder id))
    (h2 : ∀ id, mk id ≤ 1 ∧ (s.next ≤ id → mk id = 0)) (hok : (s.step o).ok = true) :
    (∀ id, mk id + o.dm id = dr id + o.dd id + (s.step o).stack.count (.builder id)) ∧
      ∀ id, mk id + o.dm id ≤ 1 ∧ ((s.step o).next ≤ id → mk id + o.dm id = 0) := by
  unfold MonSt.step at hok ⊢
  split at hok
  · simp only at h1 h2 ⊢
    simp only [Op.dm, Op.dd]
    exact ⟨fun id => by have := h1 id; omega, fun id => by have := h2 id; omega⟩
  · simp only at h1 h2 ⊢
    simp only [Op.dm, Op.dd]
    exact ⟨fun id => by have := h1 id; omega, fun id => by have := h2 id; omega⟩
  · rename_i e
    rw [e] at h1
    simp only at h1 h2 ⊢
    simp only [Op.dm, Op.dd]
    refine ⟨fun id => ?_, fun id => by have := h2 id; omega⟩
    have := h1 id
    simp only [List.count_cons, beq_iff_eq, Live.builder.injEq, reduceCtorEq, if_false] at this ⊢
    omega
  · rename_i e
    rw [e] at h1
    simp only at h1 h2 ⊢
    simp only [Op.dm, Op.dd]
    refine ⟨fun id => ?_, fun id => by have := h2 id; omega⟩
    have := h1 id
    simp only [List.count_cons, beq_iff_eq, Live.builder.injEq, reduceCtorEq, if_false] at this ⊢
    omega
  · rename_i id parent i r e
    rw [e] at h1
    simp only [Bool.and_eq_true, beq_iff_eq] at hok
    obtain ⟨-, rfl⟩ := hok
    simp only at h1 h2 ⊢
    simp only [Op.dm, Op.dd]
    refine ⟨fun id => ?_, fun id => ?_⟩
    · have := h1 id
      simp only [List.count_cons, beq_iff_eq, Live.builder.injEq, reduceCtorEq, if_false] at this ⊢
      omega
    · have := h2 id
      split
      · rename_i e; subst e
        have := this.2 (Nat.le_refl _)
        exact ⟨by omega, by omega⟩
      · exact ⟨by omega, fun h => by have := this.2 (by omega); omega⟩
  · rename_i id i r e
    rw [e] at h1
    simp only [Bool.and_eq_true, beq_iff_eq] at hok
    obtain ⟨-, rfl⟩ := hok
    simp only at h1 h2 ⊢
    simp only [Op.dm, Op.dd]
    refine ⟨fun id => ?_, fun id => by have := h2 id; omega⟩
    have := h1 id
    simp only [List.count_cons, beq_iff_eq, Live.builder.injEq] at this ⊢
    omega
  · rename_i id a i r e
    rw [e] at h1
    simp only [Bool.and_eq_true, beq_iff_eq] at hok
    obtain ⟨-, rfl⟩ := hok
    simp only at h1 h2 ⊢
    simp only [Op.dm, Op.dd]
    refine ⟨fun id => ?_, fun id => by have := h2 id; omega⟩
    have := h1 id
    simp only [List.count_cons, beq_iff_eq, Live.builder.injEq, reduceCtorEq, if_false] at this ⊢
    omega
  · simp only at h1 h2 ⊢
    simp only [Op.dm, Op.dd]
    exact ⟨fun id => by have := h1 id; omega, fun id => by have := h2 id; omega⟩
  · simp only at h1 h2 ⊢
    simp only [Op.dm, Op.dd]
    exact ⟨fun id => by have := h1 id; omega, fun id => by have := h2 id; omega⟩
  · cases hok

/-- While the monitor is content, what was made and not dropped is alive, and numbers are unique. -/
theorem Mon.balance' : ∀ (h : List Op), (Mon.mk h).ok = true →
    (∀ id, (Mon.mk h).makes id = (Mon.mk h).drops id + (Mon.mk h).stack.count (.builder id)) ∧
      ∀ id, (Mon.mk h).makes id ≤ 1 ∧ ((Mon.mk h).next ≤ id → (Mon.mk h).makes id = 0)
  | [], _ => ⟨fun _ => by simp [Mon.makes, Mon.drops, Mon.stack, Mon.st], fun _ => by simp [Mon.makes]⟩
  | o :: h, hok => by
    have hok' : (Mon.mk h).ok = true := by
      cases hb : (Mon.mk h).ok with
      | true => rfl
      | false => exact absurd hok (by rw [show (Mon.mk (o :: h)).ok = ((Mon.mk h).st.step o).ok from rfl, bad_step o hb]; simp)
    obtain ⟨i1, i2⟩ := Mon.balance' h hok'
    have := step_balance o (Mon.mk h).st i1 i2 hok
    have e1 : ∀ id, (Mon.mk (o :: h)).makes id = (Mon.mk h).makes id + o.dm id := makes_add _ o
    have e2 : ∀ id, (Mon.mk (o :: h)).drops id = (Mon.mk h).drops id + o.dd id := drops_add _ o
    refine ⟨fun id => ?_, fun id => ?_⟩
    · rw [e1, e2]; exact this.1 id
    · rw [e1]; exact this.2 id

theorem Mon.balance (m : Mon) (h : m.ok = true) :
    (∀ id, m.makes id = m.drops id + m.stack.count (.builder id)) ∧ ∀ id, m.makes id ≤ 1 ∧ (m.next ≤ id → m.makes id = 0) :=
  Mon.balance' m.history h

section
variable {σ : Type} {P : SProto σ} {ryu : F64 → Bytes} {bomb : SLayer P → σ → Bool}

/-- What is claimed of a state of the monitored run. -/
def SUGood (x : SUExit P) : SUExit P.monitored → Prop
  | .running st => x = SUExit.untag (.running st) ∧ st.w.2.ok = true ∧
      match st.frag with
      | .seq q => BShape (.seq q) st.stack st.w.2.stack
      | .map m => BShape (.map m) st.stack st.w.2.stack
      | _ => VShape st.stack st.w.2.stack
  | .finished o w => x = SUExit.untag (.finished o w) ∧ w.2.ok = true ∧ (o ≠ .abort → w.2.stack = [.visitor 0])

theorem unwind_good : ∀ {ls : List (SLayer P.monitored)} {w : σ × Mon}, w.2.ok = true → VShape ls w.2.stack →
    SUGood (leaveS bomb (ls.map (SLayer.untag P)) w.1) (leaveS (monBombS bomb) ls w)
  | [], w, hok, h => ⟨rfl, hok, fun _ => h⟩
  | l :: ls, w, hok, h => by
    obtain ⟨h1, h2, h3⟩ := drop_layer hok (.inr h)
    have hmb : monBombS bomb l w = bomb (SLayer.untag P l) w.1 := rfl
    simp only [leaveS, unwindLayers, List.map_cons, hmb]
    by_cases hb : bomb (SLayer.untag P l) w.1 = true
    · simp only [hb, if_true]
      exact ⟨by rw [SUExit.untag, ← h1], h2, fun h => absurd rfl h⟩
    · simp only [hb]
      have := unwind_good (ls := ls) h2 h3
      rw [h1] at this
      exact this

theorem unwind_good_b {l : SLayer P.monitored} {ls : List (SLayer P.monitored)} {w : σ × Mon} (hok : w.2.ok = true)
    (h : BShape l ls w.2.stack) : SUGood (leaveS bomb ((l :: ls).map (SLayer.untag P)) w.1) (leaveS (monBombS bomb) (l :: ls) w) := by
  obtain ⟨h1, h2, h3⟩ := drop_layer hok (.inl h)
  have hmb : monBombS bomb l w = bomb (SLayer.untag P l) w.1 := rfl
  simp only [leaveS, unwindLayers, List.map_cons, hmb]
  by_cases hb : bomb (SLayer.untag P l) w.1 = true
  · simp only [hb, if_true]
    exact ⟨by rw [SUExit.untag, ← h1], h2, fun h => absurd rfl h⟩
  · simp only [hb]
    have := unwind_good (bomb := bomb) (ls := ls) h2 h3
    rw [h1] at this
    exact this

theorem beginU_good {out : Bytes} {ls : List (SLayer P.monitored)} {s : P.S} {id : Nat} {w : σ} {m : Mon} {S : List Live} (hok : m.ok = true)
    (hm : m.stack = .visitor id :: S) (h : VShape ls m.stack) :
    SUGood (beginU bomb out (ls.map (SLayer.untag P)) s w) (beginU (P := P.monitored) (monBombS bomb) out ls (s, id) (w, m)) := by
  have hu : AtV id S (m.useVisitor id) := AtV.use ⟨hok, hm⟩
  have hb : P.monitored.begin (s, id) (w, m) = ((P.begin s w).1.map (Frag.tag (m.useVisitor id).next),
      ((P.begin s w).2, match (P.begin s w).1 with | some f => f.enter id (m.useVisitor id) | none => m.useVisitor id)) := by
    simp only [SProto.monitored]; rfl
  replace h : VShape ls (m.useVisitor id).stack := by rw [hu.2, ← hm]; exact h
  replace hok := hu.1
  have hpb := hu.pushB
  have hbs : (Mon.push Op.newBuilder id (m.useVisitor id)).ok = true ∧
      (Mon.push Op.newBuilder id (m.useVisitor id)).stack = .builder (m.useVisitor id).next :: (m.useVisitor id).stack := by
    refine ⟨hpb.1, ?_⟩
    have h1 := hu.2
    simp only [Mon.stack] at h1
    simp only [Mon.stack, Mon.push, Mon.st_add, MonSt.step, h1]
  rcases hp : P.begin s w with ⟨f, w1⟩
  rw [hp] at hb
  unfold beginU
  rw [hb, hp]
  cases f with
  | none => exact unwind_good (w := (w1, m.useVisitor id)) hok h
  | some f =>
    cases f <;> first
      | exact ⟨rfl, hok, h⟩
      | exact ⟨rfl, hbs.1, _, hbs.2, h⟩

theorem SUGood.of_eq {x x' : SUExit P} {y y' : SUExit P.monitored} (hx : x = x') (hy : y = y') (h : SUGood x' y') : SUGood x y := by
  rw [hx, hy]; exact h

/-- `next` of the innermost stream, whatever its kind. -/
theorem seqNext_cases (q : P.Q) (id : Nat) (ls : List (SLayer P.monitored)) (w : σ) (m : Mon) (hok : m.ok = true)
    (h : BShape (.seq (q, id)) ls m.stack ∨ VShape (.seq (q, id) :: ls) m.stack) :
    (∃ w' m', P.seqNext q w = (none, w') ∧ P.monitored.seqNext (q, id) (w, m) = (none, (w', m')) ∧ m'.ok = true ∧ BShape (.seq (q, id)) ls m'.stack) ∨
    (∃ w' m', P.seqNext q w = (some none, w') ∧ P.monitored.seqNext (q, id) (w, m) = (some none, (w', m')) ∧ m'.ok = true ∧ BShape (.seq (q, id)) ls m'.stack) ∨
    (∃ s i w' m', P.seqNext q w = (some (some s), w') ∧ P.monitored.seqNext (q, id) (w, m) = (some (some (s, i)), (w', m')) ∧ m'.ok = true ∧
      (∃ S, m'.stack = .visitor i :: S) ∧ VShape (.seq (q, id) :: ls) m'.stack) := by
  have hu := useBuilder_stack (l := .seq (q, id)) hok h
  rw [seqNext_mon]
  rcases hq : P.seqNext q w with ⟨r, w1⟩
  match r with
  | none => exact .inl ⟨_, _, rfl, rfl, hu⟩
  | some none => exact .inr (.inl ⟨_, _, rfl, rfl, hu⟩)
  | some (some s) =>
    obtain ⟨hp, S, e, hv⟩ := push_v hu.1 hu.2
    exact .inr (.inr ⟨_, _, _, _, rfl, rfl, hp, ⟨S, e⟩, hv⟩)

theorem mapNext_cases (q : P.M) (id : Nat) (ls : List (SLayer P.monitored)) (w : σ) (m : Mon) (hok : m.ok = true)
    (h : BShape (.map (q, id)) ls m.stack ∨ VShape (.map (q, id) :: ls) m.stack) :
    (∃ w' m', P.mapNext q w = (none, w') ∧ P.monitored.mapNext (q, id) (w, m) = (none, (w', m')) ∧ m'.ok = true ∧ BShape (.map (q, id)) ls m'.stack) ∨
    (∃ w' m', P.mapNext q w = (some none, w') ∧ P.monitored.mapNext (q, id) (w, m) = (some none, (w', m')) ∧ m'.ok = true ∧ BShape (.map (q, id)) ls m'.stack) ∨
    (∃ k s i w' m', P.mapNext q w = (some (some (k, s)), w') ∧ P.monitored.mapNext (q, id) (w, m) = (some (some (k, (s, i))), (w', m')) ∧ m'.ok = true ∧
      (∃ S, m'.stack = .visitor i :: S) ∧ VShape (.map (q, id) :: ls) m'.stack) := by
  have hu := useBuilder_stack (l := .map (q, id)) hok h
  rw [mapNext_mon]
  rcases hq : P.mapNext q w with ⟨r, w1⟩
  match r with
  | none => exact .inl ⟨_, _, rfl, rfl, hu⟩
  | some none => exact .inr (.inl ⟨_, _, rfl, rfl, hu⟩)
  | some (some s) =>
    obtain ⟨hp, S, e, hv⟩ := push_v hu.1 hu.2
    exact .inr (.inr ⟨_, _, _, _, _, rfl, rfl, hp, ⟨S, e⟩, hv⟩)

theorem advanceU_good : ∀ (ls : List (SLayer P.monitored)) (out : Bytes) (w : σ) (m : Mon), m.ok = true → VShape ls m.stack →
    SUGood (advanceU bomb out (ls.map (SLayer.untag P)) w) (advanceU (monBombS bomb) out ls (w, m))
  | [], out, w, m, hok, h => ⟨rfl, hok, fun _ => h⟩
  | .seq (q, id) :: ls, out, w, m, hok, h => by
    show SUGood (advanceU bomb out (.seq q :: ls.map (SLayer.untag P)) w) _
    simp only [advanceU]
    rcases seqNext_cases q id ls w m hok (.inr h) with ⟨w1, m1, e1, e2, k1, k2⟩ | ⟨w1, m1, e1, e2, k1, k2⟩ | ⟨s, i, w1, m1, e1, e2, k1, ⟨S, k2⟩, k3⟩
    · rw [e1, e2]; exact unwind_good_b (l := .seq (q, id)) (w := (w1, m1)) k1 k2
    · obtain ⟨h1, h2, h3⟩ := drop_layer (w := (w1, m1)) k1 (.inl k2)
      have hmb : monBombS bomb (.seq (q, id)) (w1, m1) = bomb (.seq q) w1 := rfl
      rw [e1, e2]
      simp only [hmb]
      split
      · exact unwind_good (w := (_, _)) h2 h3
      · exact advanceU_good ls _ _ _ h2 h3
    · rw [e1, e2]
      exact beginU_good (ls := .seq (q, id) :: ls) k1 k2 k3
  | .map (q, id) :: ls, out, w, m, hok, h => by
    show SUGood (advanceU bomb out (.map q :: ls.map (SLayer.untag P)) w) _
    simp only [advanceU]
    rcases mapNext_cases q id ls w m hok (.inr h) with ⟨w1, m1, e1, e2, k1, k2⟩ | ⟨w1, m1, e1, e2, k1, k2⟩ | ⟨k, s, i, w1, m1, e1, e2, k1, ⟨S, k2⟩, k3⟩
    · rw [e1, e2]; exact unwind_good_b (l := .map (q, id)) (w := (w1, m1)) k1 k2
    · obtain ⟨h1, h2, h3⟩ := drop_layer (w := (w1, m1)) k1 (.inl k2)
      have hmb : monBombS bomb (.map (q, id)) (w1, m1) = bomb (.map q) w1 := rfl
      rw [e1, e2]
      simp only [hmb]
      split
      · exact unwind_good (w := (_, _)) h2 h3
      · exact advanceU_good ls _ _ _ h2 h3
    · rw [e1, e2]
      simp only
      cases escapeStr k (out ++ [b(',')]) with
      | none => exact unwind_good (ls := .map (q, id) :: ls) (w := (w1, m1)) k1 k3
      | some out' => exact beginU_good (ls := .map (q, id) :: ls) k1 k2 k3

theorem stepU_good (x : SSt P.monitored) (y : SSt P)
    (h : SUGood (.running y) (.running x)) : SUGood (stepU bomb ryu y) (stepU (monBombS bomb) ryu x) := by
  obtain ⟨out, ls, f, w, m⟩ := x
  obtain ⟨e, hok, hs⟩ := h
  simp only [SUExit.untag, SUExit.running.injEq] at e
  subst e
  cases f with
  | null => exact advanceU_good ls _ w m hok hs
  | bool b => exact advanceU_good ls _ w m hok hs
  | u64 n => exact advanceU_good ls _ w m hok hs
  | i64 n => exact advanceU_good ls _ w m hok hs
  | f64 n => exact advanceU_good ls _ w m hok hs
  | str s =>
    simp only [stepU, Frag.untag]
    cases escapeStr s out with
    | none => exact unwind_good (w := (w, m)) hok hs
    | some o => exact advanceU_good ls _ w m hok hs
  | seq q =>
    obtain ⟨q, id⟩ := q
    simp only [stepU, Frag.untag]
    rcases seqNext_cases q id ls w m hok (.inl hs) with ⟨w1, m1, e1, e2, k1, k2⟩ | ⟨w1, m1, e1, e2, k1, k2⟩ | ⟨s, i, w1, m1, e1, e2, k1, ⟨S, k2⟩, k3⟩
    · rw [e1, e2]; exact unwind_good_b (l := .seq (q, id)) (w := (w1, m1)) k1 k2
    · obtain ⟨h1, h2, h3⟩ := drop_layer (w := (w1, m1)) k1 (.inl k2)
      have hmb : monBombS bomb (.seq (q, id)) (w1, m1) = bomb (.seq q) w1 := rfl
      rw [e1, e2]
      simp only [hmb]
      split
      · exact unwind_good (w := (_, _)) h2 h3
      · exact advanceU_good ls _ _ _ h2 h3
    · rw [e1, e2]
      exact beginU_good (ls := .seq (q, id) :: ls) k1 k2 k3
  | map q =>
    obtain ⟨q, id⟩ := q
    simp only [stepU, Frag.untag]
    rcases mapNext_cases q id ls w m hok (.inl hs) with ⟨w1, m1, e1, e2, k1, k2⟩ | ⟨w1, m1, e1, e2, k1, k2⟩ | ⟨k, s, i, w1, m1, e1, e2, k1, ⟨S, k2⟩, k3⟩
    · rw [e1, e2]; exact unwind_good_b (l := .map (q, id)) (w := (w1, m1)) k1 k2
    · obtain ⟨h1, h2, h3⟩ := drop_layer (w := (w1, m1)) k1 (.inl k2)
      have hmb : monBombS bomb (.map (q, id)) (w1, m1) = bomb (.map q) w1 := rfl
      rw [e1, e2]
      simp only [hmb]
      split
      · exact unwind_good (w := (_, _)) h2 h3
      · exact advanceU_good ls _ _ _ h2 h3
    · rw [e1, e2]
      simp only
      cases escapeStr k (out ++ [b('{')]) with
      | none => exact unwind_good (ls := .map (q, id) :: ls) (w := (w1, m1)) k1 k3
      | some out' => exact beginU_good (ls := .map (q, id) :: ls) k1 k2 k3

theorem runU_good : ∀ (n : Nat) (x : SUExit P.monitored) (y : SUExit P), SUGood y x → SUGood (runU bomb ryu n y) (runU (monBombS bomb) ryu n x)
  | 0, _, _, h => h
  | n + 1, .running x, .running y, h => runU_good n _ _ (stepU_good x y h)
  | n + 1, .running x, .finished o w, h => by obtain ⟨e, _⟩ := h; cases e
  | n + 1, .finished o w, .running y, h => by obtain ⟨e, _⟩ := h; cases e
  | n + 1, .finished o w, .finished o' w', h => h

theorem toStringU_good (n : Nat) (s : P.S) (w : σ) :
    SUGood (toStringU P bomb ryu n s w) (toStringU P.monitored (monBombS bomb) ryu n (s, 0) (w, Mon.init)) :=
  runU_good n _ _ (beginU_good (ls := []) (S := []) rfl rfl rfl)

section calm
variable (hb : ∀ l w, bomb l w = false)
include hb

theorem unwindLayers_calm : ∀ (st : List (SLayer P)) (w : σ), unwindLayers bomb st w = (.panic, dropLayers st w)
  | [], w => rfl
  | f :: st, w => by rw [unwindLayers, hb, dropLayers]; exact unwindLayers_calm st _

theorem leaveS_calm (st : List (SLayer P)) (w : σ) : leaveS bomb st w = SUExit.ofExit (.finished none (dropLayers st w)) := by
  rw [leaveS, unwindLayers_calm hb]; rfl

theorem beginU_calm (out : Bytes) (st : List (SLayer P)) (s : P.S) (w : σ) : beginU bomb out st s w = SUExit.ofExit (beginWith out st s w) := by
  rw [beginU, beginWith]
  rcases P.begin s w with ⟨f, w1⟩
  cases f with
  | none => exact leaveS_calm hb _ _
  | some f => rfl

theorem advanceU_calm : ∀ (st : List (SLayer P)) (out : Bytes) (w : σ), advanceU bomb out st w = SUExit.ofExit (advance out st w)
  | [], out, w => rfl
  | .seq q :: st, out, w => by
    rw [advanceU, advance]
    rcases P.seqNext q w with ⟨r, w1⟩
    match r with
    | none => exact leaveS_calm hb _ _
    | some none => simp only [hb]; exact advanceU_calm st _ _
    | some (some s) => exact beginU_calm hb _ _ _ _
  | .map q :: st, out, w => by
    rw [advanceU, advance]
    rcases P.mapNext q w with ⟨r, w1⟩
    match r with
    | none => exact leaveS_calm hb _ _
    | some none => simp only [hb]; exact advanceU_calm st _ _
    | some (some (k, s)) =>
      simp only
      cases escapeStr k (out ++ [b(',')]) with
      | none => exact leaveS_calm hb _ _
      | some out => exact beginU_calm hb _ _ _ _

theorem stepU_calm (st : SSt P) : stepU bomb ryu st = SUExit.ofExit (stepS ryu st) := by
  obtain ⟨out, st, f, w⟩ := st
  cases f with
  | null => exact advanceU_calm hb _ _ _
  | bool b => exact advanceU_calm hb _ _ _
  | u64 n => exact advanceU_calm hb _ _ _
  | i64 n => exact advanceU_calm hb _ _ _
  | f64 n => exact advanceU_calm hb _ _ _
  | str s =>
    simp only [stepU, stepS]
    cases escapeStr s out with
    | none => exact leaveS_calm hb _ _
    | some o => exact advanceU_calm hb _ _ _
  | seq q =>
    simp only [stepU, stepS]
    rcases P.seqNext q w with ⟨r, w1⟩
    match r with
    | none => exact leaveS_calm hb _ _
    | some none => simp only [hb]; exact advanceU_calm hb st _ _
    | some (some s) => exact beginU_calm hb _ _ _ _
  | map q =>
    simp only [stepU, stepS]
    rcases P.mapNext q w with ⟨r, w1⟩
    match r with
    | none => exact leaveS_calm hb _ _
    | some none => simp only [hb]; exact advanceU_calm hb st _ _
    | some (some (k, s)) =>
      simp only
      cases escapeStr k (out ++ [b('{')]) with
      | none => exact leaveS_calm hb _ _
      | some out => exact beginU_calm hb _ _ _ _

theorem runU_calm : ∀ (n : Nat) (x : SExit P), runU bomb ryu n (SUExit.ofExit x) = SUExit.ofExit (runS ryu n x)
  | 0, _ => rfl
  | n + 1, .running x => by
    rw [runS, ← runU_calm n, ← stepU_calm hb]; rfl
  | n + 1, .finished none w => rfl
  | n + 1, .finished (some o) w => rfl

theorem toStringU_calm (n : Nat) (s : P.S) (w : σ) : toStringU P bomb ryu n s w = SUExit.ofExit (toStringN P ryu n s w) := by
  rw [toStringU, toStringN, beginU_calm hb, runU_calm hb]

end calm
end

end Miniserde
