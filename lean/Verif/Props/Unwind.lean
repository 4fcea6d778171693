import Verif.Proof.Unwind
import Verif.Proof.PanicCount
import Verif.Props.Discipline

/-!
# C68: the parser driver when destructors of builders panic
-/

namespace Miniserde

/-- **C68.** For every implementation of the traits whose destructors panic whenever they like (`bomb`), every input and every outcome:
the run terminates, behaves as the unmonitored one, every builder is dropped at most once, and unless the process is aborted exactly once;
the stack discipline of C07 is violated exactly if the destructor of a builder panicked during the cleanup that precedes the return of `Err`
while at least two more builders were open; in all other runs that are not aborted only the visitor passed in is alive at the end. -/
theorem C68_unwind {σ : Type} (P : Proto σ) (bomb : Layer P → σ → Bool) (s : Bytes) (v : P.V) (w : σ) :
    ∃ o w' m, fromStrU P bomb s v w = some (o, w') ∧
      fromStrU P.monitored (monBomb bomb) s (v, 0) (w, Mon.init) = some (o, (w', m)) ∧
      (∀ id, m.drops id ≤ m.makes id ∧ m.makes id ≤ 1) ∧
      (o ≠ .abort → (∀ k, o ≠ .cleanup k true) → ∀ id, m.drops id = m.makes id) ∧
      (m.ok = false ↔ ∃ k a, o = .cleanup k a ∧ 2 ≤ k) ∧
      (m.ok = true → o ≠ .abort → (∀ k, o ≠ .cleanup k true) → m.stack = [.visitor 0]) := by
  obtain ⟨o, w', m, h1, h2, h3⟩ := fromStrU_sim (bomb := bomb) s v w
  have ha : o ≠ .abort → (∀ k, o ≠ .cleanup k true) → o.aborted = false := by
    intro h1 h2
    cases o with
    | abort => exact absurd rfl h1
    | cleanup k a => cases a with
      | true => exact absurd rfl (h2 k)
      | false => rfl
    | _ => rfl
  refine ⟨o, w', m, h1, h2, h3.most, fun g1 g2 => h3.once (ha g1 g2), ?_, fun ok g1 g2 => h3.live (ha g1 g2) ?_⟩
  · rw [h3.disc]
    cases o <;> simp [UOut.disordered]
  · have := h3.disc
    rw [ok] at this
    simpa using this.symm

/-- **C68.** No panic is swallowed, none is invented: for every implementation that counts its own panics (in methods and in destructors), the run ends with `Ok` or `Err`
exactly if there was none, with a panic of the caller exactly if there was one, and is aborted exactly if there were two (`UOut.panics`).  Inputs below 2 GiB: for those
the parser itself does not panic. -/
theorem C68_outcome {σ : Type} (P : Proto σ) (bomb : Layer P → σ → Bool) (count : σ → Nat) (hc : CountsPanics P bomb count)
    (s : Bytes) (hs : s.length < 2147483648) (v : P.V) (w : σ) (hw : count w = 0) :
    ∃ o w', fromStrU P bomb s v w = some (o, w') ∧ count w' = o.panics := by
  obtain ⟨o, w', -, h, -⟩ := fromStrU_sim (bomb := bomb) s v w
  exact ⟨o, w', h, outerLoopU_count hc (s.length + 1) _ v [] w (by rw [De.rem_eq]; simpa using hs) hw o w' h⟩

/-- The outcome of a run without panicking destructors. -/
def UOut.ofRes : Res Unit → UOut
  | .ok _ => .ok
  | .err => .err
  | .panic => .panic

/-- **C68.** If no destructor panics, this is the driver of the other theorems. -/
theorem C68_agrees {σ : Type} (P : Proto σ) (s : Bytes) (v : P.V) (w : σ) :
    ∃ r w', fromStrImpl P s v w = some (r, w') ∧ fromStrU P (fun _ _ => false) s v w = some (UOut.ofRes r, w') := by
  obtain ⟨r, w', m, h, -⟩ := fromStr_monitored P s v w
  refine ⟨r, w', h, ?_⟩
  have e := outer_calm (P := P) (bomb := fun _ _ => false) (fun _ _ => rfl) (s.length + 1) { input := s, pos := 0, buffer := [] } v [] w
  rw [show outerLoop P (s.length + 1) { input := s, pos := 0, buffer := [] } v [] w = _ from h] at e
  refine e.trans ?_
  cases r <;> rfl

/-- The first destructor that runs panics. -/
def exBomb : Layer tracer → List Call → Bool := fun _ w => !w.any fun c => c == .dropSeq || c == .dropMap

/-- **C68, the exception.** `[[[`: the text is rejected with three builders open; the destructor of the third panics; the first is dropped before the second, which may
borrow from it. -/
theorem C68_out_of_order :
    (fromStrU tracer.monitored (monBomb exBomb) (str! "[[[") ((), 0) ([], Mon.init)).map (fun x => (x.1, x.2.2.history.take 3, x.2.2.ok)) =
      some (.cleanup 2 false, [.dropBuilder 3, .dropBuilder 1, .dropBuilder 5], false) := by
  decide +kernel

/-- The counter of panics at the end of `[[[0}` with a destructor that panics once, and with destructors that always panic. -/
example : (fromStrU (tracer.counted exBomb) (fun l w => exBomb l.uncount w.1) (str! "[[[0}") () ([], 0)).map (fun x => (x.1, x.2.2)) = some (.panic, 1) ∧
    (fromStrU (tracer.counted fun _ _ => true) (fun _ _ => true) (str! "[[[0}") () ([], 0)).map (fun x => (x.1, x.2.2)) = some (.abort, 2) ∧
    (fromStrU (tracer.counted fun _ _ => false) (fun _ _ => false) (str! "[[[0}") () ([], 0)).map (fun x => (x.1, x.2.2)) = some (.err, 0) := by
  decide +kernel

/-- `[[`: one builder is left when the destructor panics. -/
example : (fromStrU tracer.monitored (monBomb exBomb) (str! "[[") ((), 0) ([], Mon.init)).map (fun x => (x.1, x.2.2.history.take 2, x.2.2.ok)) =
    some (.cleanup 1 false, [.dropBuilder 1, .dropBuilder 3], true) := by
  decide +kernel

/-- `[[]]`: the destructor of the finished inner array panics; the outer one is dropped by unwinding. -/
example : (fromStrU tracer.monitored (monBomb exBomb) (str! "[[]]") ((), 0) ([], Mon.init)).map (fun x => (x.1, x.2.2.history.take 2, x.2.2.ok)) =
    some (.panic, [.dropBuilder 1, .dropBuilder 3], true) := by
  decide +kernel

/-- `[[[0}`: the innermost builder is in a local variable, not on the stack: its panic unwinds in order. -/
example : (fromStrU tracer.monitored (monBomb exBomb) (str! "[[[0}") ((), 0) ([], Mon.init)).map (fun x => (x.1, x.2.2.history.take 3, x.2.2.ok)) =
    some (.panic, [.dropBuilder 1, .dropBuilder 3, .dropBuilder 5], true) := by
  decide +kernel

/-- Every destructor panics: aborted at the second one. -/
example : (fromStrU tracer.monitored (monBomb fun _ _ => true) (str! "[[[0}") ((), 0) ([], Mon.init)).map (fun x => (x.1, x.2.2.history.take 3, x.2.2.ok)) =
    some (.abort, [.dropBuilder 3, .dropBuilder 5, .callVisitor 6], true) := by
  decide +kernel

end Miniserde
