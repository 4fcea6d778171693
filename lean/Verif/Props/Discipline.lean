import Verif.Proof.Monitor
import Verif.Props.Parse

/-!
# C07: visitors and builders are used under a strict stack discipline

The monitor of `Verif/Spec/Monitor.lean` wraps an arbitrary implementation of `Visitor`/`Seq`/`Map` and clears its flag on the
first call on, or drop of, anything but the innermost live visitor or builder.
-/

namespace Miniserde

/-- **C07.** For every implementation of the traits, every input and every outcome (also `Err` and a panic inside any call), the
monitored run behaves as the original one, ends without a violation, and when it returns every builder that was ever
handed out has been dropped: only the visitor passed in is still alive. -/
theorem C07_stack_discipline {σ : Type} (P : Proto σ) (s : Bytes) (v : P.V) (w : σ) :
    ∃ r w' m, fromStrImpl P s v w = some (r, w') ∧
      fromStrImpl P.monitored s (v, 0) (w, Mon.init) = some (r, (w', m)) ∧
      m.ok = true ∧ m.stack = [.visitor 0] :=
  fromStr_monitored P s v w

/-- A run with two builders: numbers 0..6 have been handed out, the monitor is content. -/
example : (fromStrImpl tracer.monitored exText ((), 0) ([], Mon.init)).map (fun x => (x.1, x.2.1, x.2.2.st)) =
    some (.ok (), [.seq, .element, .nonnegative 1, .element, .map, .key (str! "a"), .null, .mapFinish, .dropMap, .seqFinish,
      .dropSeq], ⟨[.visitor 0], 6, true⟩) := by
  rw [C02_traverses_the_tree tracer.monitored ((), 0) ([], Mon.init) exText exTree exText_tree]
  decide +kernel

/-- A text cut inside a nested array: an error, and both builders are dropped, innermost first. -/
example : fromStrImpl tracer.monitored (str! "[1,{") ((), 0) ([], Mon.init) =
    some (.err, ([.seq, .element, .nonnegative 1, .element, .map, .dropMap, .dropSeq],
      ⟨[.dropBuilder 1, .dropBuilder 4, .newBuilder 4 3, .callVisitor 3, .newVisitor 3 1, .callBuilder 1, .callVisitor 2, .newVisitor 2 1,
        .callBuilder 1, .newBuilder 1 0, .callVisitor 0]⟩)) := by
  decide +kernel

/-! The monitor does complain about misuse. -/

/-- Calling a visitor after a builder was made from it. -/
example : (Mon.mk [.callVisitor 0, .newBuilder 1 0, .callVisitor 0]).ok = false := by decide +kernel
/-- Calling an outer builder while an inner one is alive. -/
example : (Mon.mk [.callBuilder 1, .newBuilder 3 2, .callVisitor 2, .newVisitor 2 1, .callBuilder 1, .newBuilder 1 0, .callVisitor 0]).ok = false := by
  decide +kernel
/-- Dropping the outer builder first. -/
example : (Mon.mk [.dropBuilder 1, .newBuilder 3 2, .callVisitor 2, .newVisitor 2 1, .callBuilder 1, .newBuilder 1 0, .callVisitor 0]).ok = false := by
  decide +kernel
/-- Dropping a builder twice. -/
example : (Mon.mk [.dropBuilder 1, .dropBuilder 1, .newBuilder 1 0, .callVisitor 0]).ok = false := by decide +kernel

end Miniserde
