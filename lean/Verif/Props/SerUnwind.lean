import Verif.Proof.SerUnwind
import Verif.Proof.PanicCount
import Verif.Props.Ser

/-!
# C69: the serializer when destructors of streams panic
-/

namespace Miniserde
variable {ryu : F64 → Bytes}

/-- **C69.** For every implementation of the serialization traits whose destructors panic whenever they like (`bomb`), and at every moment of the run (`n` iterations):
the monitored run behaves as the original one; no call on, and no drop of, anything but the innermost live value or stream has happened; every stream was dropped at most once;
and if the run has ended by returning or by unwinding, every stream was dropped exactly once and only the value passed in is alive. -/
theorem C69_unwind {σ : Type} (P : SProto σ) (bomb : SLayer P → σ → Bool) (n : Nat) (s : P.S) (w : σ) :
    (toStringU P.monitored (monBombS bomb) ryu n (s, 0) (w, Mon.init)).untag = toStringU P bomb ryu n s w ∧
    (toStringU P.monitored (monBombS bomb) ryu n (s, 0) (w, Mon.init)).mon.ok = true ∧
    (∀ id, (toStringU P.monitored (monBombS bomb) ryu n (s, 0) (w, Mon.init)).mon.drops id ≤
        (toStringU P.monitored (monBombS bomb) ryu n (s, 0) (w, Mon.init)).mon.makes id ∧
      (toStringU P.monitored (monBombS bomb) ryu n (s, 0) (w, Mon.init)).mon.makes id ≤ 1) ∧
    ∀ o w', toStringU P.monitored (monBombS bomb) ryu n (s, 0) (w, Mon.init) = .finished o w' → o ≠ .abort →
      w'.2.stack = [.visitor 0] ∧ ∀ id, w'.2.drops id = w'.2.makes id := by
  have h := toStringU_good (bomb := bomb) (ryu := ryu) n s w
  generalize toStringU P.monitored (monBombS bomb) ryu n (s, 0) (w, Mon.init) = y at h ⊢
  have ok : y.mon.ok = true := by
    cases y with
    | running st => exact h.2.1
    | finished o w => exact h.2.1
  have hbal := Mon.balance y.mon ok
  refine ⟨?_, ok, fun id => ⟨by have := hbal.1 id; omega, (hbal.2 id).1⟩, ?_⟩
  · cases y with
    | running st => exact h.1.symm
    | finished o w => exact h.1.symm
  · rintro o w' rfl ho
    have hs := h.2.2 ho
    refine ⟨hs, fun id => ?_⟩
    have := hbal.1 id
    rw [show SUExit.mon (.finished o w') = w'.2 from rfl, hs] at this
    simp at this
    exact this.symm

/-- **C69.** No panic is swallowed, none is invented: for every implementation whose strings are UTF-8 and that counts its own panics, a run that has ended returned the text
exactly if there was no panic, panicked exactly if there was one, and was aborted exactly if there were two. -/
theorem C69_outcome {σ : Type} (P : SProto σ) (hu : P.Utf8) (bomb : SLayer P → σ → Bool) (count : σ → Nat) (hc : CountsPanicsS P bomb count)
    (n : Nat) (s : P.S) (w : σ) (hw : count w = 0) (o : SUOut) (w' : σ) (h : toStringU P bomb ryu n s w = .finished o w') : count w' = o.panics := by
  have := runU_count (ryu := ryu) hc hu n _ (beginU_count hc hu [] [] s w hw)
  rw [show runU bomb ryu n (beginU bomb [] [] s w) = _ from h] at this
  exact this

/-- **C69.** If no destructor panics, this is the serializer of the other theorems. -/
theorem C69_agrees {σ : Type} (P : SProto σ) (n : Nat) (s : P.S) (w : σ) :
    toStringU P (fun _ _ => false) ryu n s w =
      match toStringN P ryu n s w with
      | .running st => .running st
      | .finished (some out) w => .finished (.ok out) w
      | .finished none w => .finished .panic w := by
  rw [toStringU_calm (fun _ _ => rfl)]
  cases toStringN P ryu n s w with
  | running st => rfl
  | finished o w => cases o <;> rfl

/-- `n` nested arrays around `null`; the world is the list of the streams that have handed out their element. -/
def exNest : SProto (List Nat) where
  S := Nat
  Q := Nat
  M := Empty
  begin s w := (some (if s = 0 then .null else .seq s), w)
  seqNext q w := if w.contains q then (some none, w) else (some (some (q - 1)), q :: w)
  mapNext m _ := m.elim
  dropSeq _ w := w
  dropMap m _ := m.elim

/-- The destructor of the array at depth `k` panics. -/
def exBombS (k : Nat) : SLayer exNest → List Nat → Bool
  | .seq q, _ => Nat.beq q k
  | .map _, _ => false

/-- How a finished run ended, and the record of the monitor. -/
def exEnd {σ : Type} {P : SProto σ} : SUExit P.monitored → Option (SUOut × List Op)
  | .finished o w => some (o, w.2.history)
  | .running _ => none

/-- `[[[null]]]`: the destructor of the innermost array panics; the others are dropped by unwinding, innermost first. -/
example : (exEnd (toStringU exNest.monitored (monBombS (exBombS 1)) (fun _ => []) 9 ((3 : Nat), 0) ([], Mon.init))).map (fun x => (x.1, x.2.take 4)) =
    some (.panic, [.dropBuilder 1, .dropBuilder 3, .dropBuilder 5, .callBuilder 5]) := by
  decide +kernel

/-- All destructors panic: aborted at the second one. -/
example : (exEnd (toStringU exNest.monitored (monBombS fun _ _ => true) (fun _ => []) 9 ((3 : Nat), 0) ([], Mon.init))).map (fun x => (x.1, x.2.take 3)) =
    some (.abort, [.dropBuilder 3, .dropBuilder 5, .callBuilder 5]) := by
  decide +kernel

/-- The destructor of the outermost array panics, after the text is complete. -/
example : (exEnd (toStringU exNest.monitored (monBombS (exBombS 3)) (fun _ => []) 9 ((3 : Nat), 0) ([], Mon.init))).map (fun x => (x.1, x.2.take 2)) =
    some (.panic, [.dropBuilder 1, .callBuilder 1]) := by
  decide +kernel

/-- The nested arrays again; the second component counts panics; the destructors of depth 1 and 2 panic. -/
def exNestCount : SProto (List Nat × Nat) where
  S := Nat
  Q := Nat
  M := Empty
  begin s w := (some (if s = 0 then .null else .seq s), w)
  seqNext q w := if w.1.contains q then (some none, w) else (some (some (q - 1)), (q :: w.1, w.2))
  mapNext m _ := m.elim
  dropSeq q w := (w.1, w.2 + if Nat.ble q 2 then 1 else 0)
  dropMap m _ := m.elim

/-- The destructors of depth 1 and 2 panic. -/
def exNestBomb : SLayer exNestCount → List Nat × Nat → Bool
  | .seq q, _ => Nat.ble q 2
  | .map _, _ => false

theorem exNestCount_counts : CountsPanicsS exNestCount exNestBomb Prod.snd where
  begin s w := by simp [exNestCount]
  seqNext q w := by
    simp only [exNestCount]
    split <;> simp
  mapNext m _ := m.elim
  drop l w := by
    cases l with
    | seq q => rfl
    | map m => exact m.elim

theorem exNestCount_utf8 : exNestCount.Utf8 where
  str s w x w' h := by
    simp only [exNestCount, Prod.mk.injEq, Option.some.injEq] at h
    obtain ⟨h, -⟩ := h
    split at h <;> cases h
  key m := m.elim

/-- Three nested arrays: two destructors panic and the process is aborted; one array: one panic. -/
example : (match toStringU exNestCount exNestBomb (fun _ => []) 9 (3 : Nat) ([], 0) with | .finished o w => some (o, w.2) | .running _ => none) = some (.abort, 2) ∧
    (match toStringU exNestCount exNestBomb (fun _ => []) 9 (1 : Nat) ([], 0) with | .finished o w => some (o, w.2) | .running _ => none) = some (.panic, 1) := by
  decide +kernel

end Miniserde
