import Verif.Proof.Cost
import Verif.Proof.Meter
import Verif.Props.Parse
import Verif.Props.Float
import Verif.Spec.Tracer

/-!
# Parsing does not amplify its input
-/

namespace Miniserde

/-- **C57.** Whatever the input (valid or not) and whatever the visitor: the visitor with counters behaves like the visitor, and at the end there were at
most two calls per input byte, the strings and keys handed over are in total no longer than the input, there were never more builders alive than the input
has bytes, and none is left. -/
theorem C57_calls {σ : Type} (P : Proto σ) (v : P.V) (w w' : σ) (s : Bytes) (r : Res Unit) (h : fromStrImpl P s v w = some (r, w')) :
    ∃ μ : Meter, fromStrImpl P.metered s v (w, {}) = some (r, w', μ) ∧
      μ.calls ≤ 2 * s.length ∧ μ.bytes ≤ s.length ∧ μ.peak ≤ s.length ∧ μ.live = 0 := by
  obtain ⟨μ, h1, h2⟩ := metered_run P v w w' s r h
  exact ⟨μ, h1, by simpa using h2.calls, by simpa using h2.bytes, by simpa using h2.peak, h2.live⟩

/-- The counters on concrete inputs, one of them cut off; the bound on the calls is attained. -/
example : (fromStrImpl tracer.metered (str! "[\"a\\u0062\",{\"k\":[]}]") () ([], {})).map (fun p => (p.2.2.calls, p.2.2.bytes, p.2.2.peak, p.2.2.live)) =
    some (10, 3, 3, 0) ∧
    (fromStrImpl tracer.metered (str! "[[[[") () ([], {})).map (fun p => (p.2.2.calls, p.2.2.bytes, p.2.2.peak, p.2.2.live)) = some (8, 0, 4, 0) := by
  constructor <;> decide +kernel

/-- **C57.** On a JSON text, whatever the visitor and the outcome, there are never more builders alive than arrays and objects are nested in the text; and when
the visitor accepts the text, the counters are exactly those of the document: one call per scalar, two per array or object, one per element or member, the
strings and keys of the document, its nesting depth. -/
theorem C57_exact {σ : Type} (P : Proto σ) (v : P.V) (w w' : σ) (s : Bytes) (j : Json) (hj : JText s j) (r : Res Unit)
    (h : fromStrImpl P s v w = some (r, w')) :
    ∃ μ : Meter, fromStrImpl P.metered s v (w, {}) = some (r, w', μ) ∧ μ.peak ≤ j.nest ∧
      (r = .ok () → μ = { calls := j.calls, bytes := j.strBytes, live := 0, peak := j.nest }) := by
  obtain ⟨μ, h1, -⟩ := metered_run P v w w' s r h
  have h2 := C02_traverses_the_tree P.metered v (w, {}) s j hj
  rw [h1] at h2
  have h3 := drive_meter P v j w {} (Nat.le_refl _)
  rw [← Option.some.inj h2] at h3
  obtain ⟨-, h4, h5⟩ := h3
  exact ⟨μ, h1, by simpa using h4, fun e => by simpa [Meter.after] using h5 e⟩

/-- The counters of the document of the example above. -/
example : let j : Json := .arr [.str (str! "ab"), .obj [(str! "k", .arr [])]]
    (j.calls, j.strBytes, j.nest) = (10, 3, 3) := by decide +kernel

/-- **C57.** What `from_str` returns is smaller than the text, for every type: counting the bytes of all strings and keys, the elements of all sequences and
the entries of all maps. -/
theorem C57_size (E : Env) (hE : E.KeysShrink) (t : Ty) (s : Bytes) (v : Val) (h : parseAs E t s = some (.ok v)) : v.size < s.length := by
  obtain ⟨j, hj, hd⟩ := (parseAs_ok E).1 h
  have h1 := decode_size hE j t v hd
  have h2 := hj.size
  omega

theorem exEnv_keysShrink : exEnv.KeysShrink := by
  intro k s key h
  simp only [exEnv, Option.some.injEq] at h
  subst h
  exact Nat.le_refl _

/-- **C57.** Reading a `Value` and writing it again yields at most 28 times the length of the input, given that `ryu` writes at most 24 bytes. -/
theorem C57_echo (E : Env) (hE : E.Lawful) (hk : E.KeysShrink) (hu : E.Utf8) (order : Nat → List (Bytes × Val) → List (Bytes × Val))
    (ho : ∀ n ms, (order n ms).Perm ms) (ryu : F64 → Bytes) (lit : F64 → NumLit) (hr : RyuSyntax ryu lit)
    (h24 : ∀ x : F64, x.Valid binary64 → x.isFinite = true → (ryu x).length ≤ 24) (s : Bytes) (hs : ValidUtf8 s) (v : Val)
    (h : parseAs E .value s = some (.ok v)) (o : Bytes) (hp : PrintsAs E order ryu .value v o) : o.length ≤ 28 * s.length := by
  have ht := C41_type_sound E hE .value trivial s hs v h
  have h1 := C57_size E hk .value s v h
  obtain ⟨x, hx, rfl, -, -⟩ := prints_encodes E order ho hu hr ht hp
  have h2 := hx.length (lit := lit) (fun y hv hy => by rw [← hr.text y hy]; exact h24 y hv hy) ht rfl
  omega

/-- The hypotheses can be met (here with a `ryu` that writes every number as `0.0`; the syntax is all that matters). -/
example (s : Bytes) (hs : ValidUtf8 s) (v : Val) (h : parseAs exEnv .value s = some (.ok v)) (o : Bytes)
    (hp : PrintsAs exEnv (fun _ ms => ms) (fun _ => str! "0.0") .value v o) : o.length ≤ 28 * s.length :=
  C57_echo exEnv exEnv_lawful exEnv_keysShrink exEnv_utf8 _ (fun _ _ => .refl _) _ (fun _ => ⟨false, str! "0", some (str! "0"), none⟩)
    { wf := fun _ _ => ⟨by decide, by decide, by simp; decide, by simp⟩, text := fun _ _ => by decide, notInt := fun _ _ => .inl (by simp) }
    (fun _ _ _ => by decide) s hs v h o hp

end Miniserde
