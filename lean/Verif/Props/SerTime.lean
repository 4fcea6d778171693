import Verif.Proof.SerTime
import Verif.Props.Ser

/-!
# C80: `to_string` takes time linear in its output
-/

namespace Miniserde

variable {ryu : F64 → Bytes} {lit : F64 → NumLit}

/-- The work done when `to_string` has returned `o`. -/
def ToStringTakes {σ : Type} (P : SProto σ) (ryu : F64 → Bytes) (s : P.S) (w : σ) (o : Bytes) (w' : σ) (steps : Nat) : Prop :=
  ∃ n written, toStringC P ryu n s w = (.finished (some o) w', ⟨steps, written⟩)

/-- **C80.** For every implementation of `Serialize`, finite or not, whatever it does: after any number of iterations of the main loop, `to_string` has done at most six steps for each byte it has
written so far, and one more.  This holds while it runs, when it has returned, and when a method has panicked and the streams have been dropped. -/
theorem C80_linear {σ : Type} (P : SProto σ) (hr : RyuSyntax ryu lit) (hP : P.Utf8) (n : Nat) (s : P.S) (w : σ) :
    ∃ x k, toStringC P ryu n s w = (x, k) ∧ toStringN P ryu n s w = x ∧ k.steps ≤ 6 * k.written + 1 ∧
      match x with
      | .running st => k.written = st.out.length
      | .finished (some o) _ => k.written = o.length
      | .finished none _ => True := by
  have h := toStringC_accounts (μ := fun _ => 0) ⟨fun _ _ => Nat.zero_le _, fun _ _ => Nat.zero_le _, fun _ _ => Nat.zero_le _, fun _ _ => Nat.zero_le _, fun _ _ => Nat.zero_le _⟩ hr hP n s w
  have e := toStringC_fst ryu n s w
  rcases hh : toStringC P ryu n s w with ⟨x, k⟩
  rw [hh] at h e
  refine ⟨x, k, rfl, e.symm, ?_, ?_⟩
  · rcases x with st | ⟨_ | o, w'⟩
    · have := h.2.1; omega
    · exact h.1
    · exact h.2.1
  · rcases x with st | ⟨_ | o, w'⟩
    · exact h.1
    · trivial
    · exact h.1

/-- **C80.** When `to_string` returns `o`, it has taken at most `6 * len + 1` steps, where `len` is the length of `o`. -/
theorem C80_returns {σ : Type} (P : SProto σ) (hr : RyuSyntax ryu lit) (hP : P.Utf8) (s : P.S) (w w' : σ) (o : Bytes) (h : Prints P ryu s w o w') :
    ∃ steps, ToStringTakes P ryu s w o w' steps ∧ steps ≤ 6 * o.length + 1 := by
  obtain ⟨n, h⟩ := h
  obtain ⟨x, ⟨steps, written⟩, hc, hx, hk, hw⟩ := C80_linear P hr hP n s w
  rw [h] at hx
  subst hx
  simp only at hk hw
  exact ⟨steps, ⟨n, written, hc⟩, by omega⟩

/-- **C80.** The counter leaves nothing out: every byte written is a step, and every call of a method of the implementation or of a destructor (counted by any `μ` that grows by at most one with
each) is a further one. -/
theorem C80_accounted {σ : Type} (P : SProto σ) (hr : RyuSyntax ryu lit) (hP : P.Utf8) {μ : σ → Nat} (hμ : P.Counts μ) (n : Nat) (s : P.S) (w : σ) :
    ∃ x k, toStringC P ryu n s w = (x, k) ∧ k.written + μ (match x with | .running st => st.w | .finished _ w' => w') ≤ μ w + k.steps := by
  have h := toStringC_accounts hμ hr hP n s w
  rcases hh : toStringC P ryu n s w with ⟨x, k⟩
  rw [hh] at h
  refine ⟨x, k, rfl, ?_⟩
  rcases x with st | ⟨_ | o, w'⟩
  · exact h.2.2.1
  · exact h.2
  · exact h.2.2

/-- Writing one string takes exactly one step for each of its bytes and one for each byte written. -/
theorem C80_string {s : Bytes} (hs : ValidUtf8 s) (out : Bytes) (k : Work) : ∃ o k', escapeStrC s out k = (some (out ++ o), k') ∧ escapeStr s out = some (out ++ o) ∧
    k'.written = k.written + o.length ∧ k'.steps = k.steps + s.length + o.length := by
  obtain ⟨k', h, h1, h2⟩ := escapeStrC_work hs out k
  exact ⟨quoted s, k', h, escapeStr_eq hs out, h1, h2⟩

/-- **C80.** The exact count.  For every value whose streams are finite, `to_string` takes one step for each byte of the output and of the strings and keys of the value; for each node a call of
`begin`, a look at the stack and, except for the root, a call of `next` that yields it; for each sequence and map a call of `next` that ends it and the drop of its box; and for each that is not empty,
a push and a pop of its layer. -/
theorem C80_exact {σ : Type} (P : SProto σ) (hr : RyuSyntax ryu lit) (hP : P.Utf8) (s : P.S) (w w' : σ) (t : FTree) (h : Streams P s w t w') :
    ∃ o, Prints P ryu s w o w' ∧ JText o (t.json lit) ∧
      ToStringTakes P ryu s w o w' (o.length + t.strBytes + (t.nodes + t.nodes + (t.nodes - 1)) + (t.containers + t.containers) + (t.nonEmpty + t.nonEmpty)) := by
  obtain ⟨k, h1, h2, h3⟩ := toStringC_streams hr h (h.utf8 hP)
  refine ⟨compact (t.json lit), ⟨t.nodes, ?_⟩, compact_text (FTree.litsWF hr t), ⟨t.nodes, k.written, ?_⟩⟩
  · rw [← toStringC_fst, h1]
  · rw [h1]
    have hn : 0 < t.nodes := by cases t <;> simp [FTree.nodes]
    congr 1
    apply Work.ext'
    · simp only; omega
    · rfl

/-- An instance: `{"a":[],"b":"x"}`: 16 bytes, 3 bytes of strings, 3 nodes, 2 streams, one of them not empty. -/
example : let t : FTree := .map [(str! "a", .seq []), (str! "b", .str (str! "x"))]
    t.strBytes = 3 ∧ t.nodes = 3 ∧ t.containers = 2 ∧ t.nonEmpty = 1 := by decide

/-- The counter of C27 with three elements: `[0,1,2]`, 7 bytes, in 22 steps. -/
example : ToStringTakes (exCounter 3) (fun x => (exLit x).text) none 7 (str! "[0,1,2]") 3 22 :=
  ⟨4, 7, by with_unfolding_all rfl⟩

/-- A sequence without end: after any number of iterations the work done is at most six steps per byte written. -/
def exEndless : SProto Nat where
  S := Option Nat
  Q := Unit
  M := Empty
  begin s w := match s with | none => (some (.seq ()), w) | some i => (some (.u64 i), w)
  seqNext _ w := (some (some (some 0)), w + 1)
  mapNext m _ := nomatch m
  dropSeq _ w := w
  dropMap m _ := nomatch m

theorem exEndless_utf8 : exEndless.Utf8 where
  str s w x w' h := by cases s <;> simp [exEndless] at h
  key m := nomatch m

example : ∃ st k, toStringC exEndless (fun x => (exLit x).text) 3 none 0 = (.running st, k) ∧ st.out = str! "[0,0," ∧ k.written = 5 ∧ k.steps = 15 :=
  ⟨_, _, rfl, by with_unfolding_all rfl, by with_unfolding_all rfl, by with_unfolding_all rfl⟩

/-- The calls of `next` of the endless sequence. -/
example : exEndless.Counts id where
  begin s w := by cases s <;> simp [exEndless]
  seqNext q w := by simp [exEndless]
  mapNext m := nomatch m
  dropSeq q w := by simp [exEndless]
  dropMap m := nomatch m

end Miniserde
