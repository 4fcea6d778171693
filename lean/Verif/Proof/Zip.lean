import Verif.Model.Lexer
import Verif.Spec.Json

/-!
# What a reading step consumes

`d.rest` is the unread input; `Eats d d' c` says that going from state `d` to `d'` consumed exactly the bytes `c`.
-/

namespace Miniserde
namespace De

/-- The unread input. -/
def rest (d : De) : Bytes := d.input.drop d.pos

/-- From `d` to `d'` exactly the bytes `c` were consumed. -/
structure Eats (d d' : De) (c : Bytes) : Prop where
  input : d'.input = d.input
  pos : d'.pos = d.pos + c.length
  rest : d.rest = c ++ d'.rest

theorem Eats.refl (d : De) : Eats d d [] := ⟨rfl, by simp, by simp⟩

theorem Eats.trans {d d1 d2 : De} {a b : Bytes} (h1 : Eats d d1 a) (h2 : Eats d1 d2 b) :
    Eats d d2 (a ++ b) :=
  ⟨h2.input.trans h1.input, by rw [h2.pos, h1.pos]; simp; omega, by rw [h1.rest, h2.rest]; simp⟩

theorem Eats.cons {d d1 d2 : De} {a : UInt8} {b : Bytes} (h1 : Eats d d1 [a]) (h2 : Eats d1 d2 b) :
    Eats d d2 (a :: b) := h1.trans h2

/-- Bytes remaining. -/
def rem (d : De) : Nat := d.rest.length

theorem Eats.rem {d d' : De} {c : Bytes} (h : Eats d d' c) : d.rem = c.length + d'.rem := by
  unfold De.rem; rw [h.rest]; simp

theorem rem_eq (d : De) : d.rem = d.input.length - d.pos := by simp [rem, rest]

theorem getElem?_pos (d : De) : d.input[d.pos]? = d.rest.head? := by
  simp [rest, List.head?_drop]

theorem rest_cons {d : De} {c : UInt8} {r : Bytes} (h : d.rest = c :: r) :
    d.pos < d.input.length ∧ d.input[d.pos]? = some c ∧ d.bump.rest = r ∧ Eats d d.bump [c] := by
  have h1 : d.input[d.pos]? = some c := by rw [getElem?_pos, h]; rfl
  have h2 := (List.getElem?_eq_some_iff.1 h1).1
  have h3 : d.bump.rest = r := by
    have : d.input.drop (d.pos + 1) = (d.input.drop d.pos).tail := by simp
    simp only [rest, bump] at *
    rw [this, h]; rfl
  exact ⟨h2, h1, h3, ⟨rfl, rfl, by rw [h, h3]; rfl⟩⟩

theorem rest_nil {d : De} (h : d.rest = []) : d.input[d.pos]? = none := by
  rw [getElem?_pos, h]; rfl

@[simp] theorem bump_input (d : De) : d.bump.input = d.input := rfl
@[simp] theorem bump_pos (d : De) : d.bump.pos = d.pos + 1 := rfl
@[simp] theorem bump_buffer (d : De) : d.bump.buffer = d.buffer := rfl

theorem peekOrNul_eq (d : De) : d.peekOrNul = d.rest.head?.getD 0 := by
  simp [peekOrNul, peek, getElem?_pos]

theorem next_cons {d : De} {c : UInt8} {r : Bytes} (h : d.rest = c :: r) : d.next = (some c, d.bump) := by
  simp [next, (rest_cons h).2.1, bump]

theorem next_nil {d : De} (h : d.rest = []) : d.next = (none, d) := by
  simp [next, rest_nil h]

theorem nextOrEof_cons {d : De} {c : UInt8} {r : Bytes} (h : d.rest = c :: r) :
    d.nextOrEof = .ok (c, d.bump) := by
  simp [nextOrEof, next_cons h]

theorem nextOrEof_nil {d : De} (h : d.rest = []) : d.nextOrEof = .err := by
  simp [nextOrEof, next_nil h]

/-- States that agree on everything but the scratch buffer. -/
theorem Eats.of_buffer {d d' : De} {c : Bytes} (h : Eats d d' c) (b : Bytes) :
    Eats d { d' with buffer := b } c := ⟨h.input, h.pos, h.rest⟩

/-! ## Whitespace -/

theorem isWs_iff (c : UInt8) : isWs c = true ↔ c = 0x20 ∨ c = 0x09 ∨ c = 0x0A ∨ c = 0x0D := by
  simp only [isWs, Bool.or_eq_true, decide_eq_true_eq]
  constructor
  · rintro (((h | h) | h) | h) <;> simp [h]
  · rintro (h | h | h | h) <;> simp [h]

theorem ws_nil : Ws [] := by simp [Ws]
theorem ws_append {a b : Bytes} (ha : Ws a) (hb : Ws b) : Ws (a ++ b) := by
  intro c hc
  rcases List.mem_append.1 hc with h | h
  · exact ha c h
  · exact hb c h
theorem ws_cons {c : UInt8} {a : Bytes} : Ws (c :: a) ↔ isWs c = true ∧ Ws a := by
  rw [isWs_iff]; simp [Ws]

/-- The whitespace skipper as a function of the unread input. -/
theorem parseWhitespace_spec (d : De) : ∃ w d', d.parseWhitespace = (d'.rest.head?, d') ∧ Ws w ∧ Eats d d' w ∧
    d'.buffer = d.buffer ∧ (∀ c, d'.rest.head? = some c → isWs c = false) := by
  fun_induction parseWhitespace d with
  | case1 d c h hc ih =>
    obtain ⟨w, d', h1, h2, h3, h4, h5⟩ := ih
    rw [getElem?_pos] at h
    obtain ⟨r, hr⟩ : ∃ r, d.rest = c :: r := by
      cases hd : d.rest with
      | nil => simp [hd] at h
      | cons a r => simp [hd] at h; exact ⟨r, by rw [h]⟩
    exact ⟨c :: w, d', h1, ws_cons.2 ⟨hc, h2⟩, (rest_cons hr).2.2.2.cons h3, h4, h5⟩
  | case2 d c h hc =>
    rw [getElem?_pos] at h
    exact ⟨[], d, by rw [h], ws_nil, .refl _, rfl, by rw [h]; simpa using hc⟩
  | case3 d h =>
    rw [getElem?_pos] at h
    exact ⟨[], d, by rw [h], ws_nil, .refl _, rfl, by rw [h]; simp⟩

/-- A run of whitespace followed by something else is skipped exactly. -/
theorem parseWhitespace_complete {d : De} {w r : Bytes} (h : d.rest = w ++ r) (hw : Ws w)
    (hr : ∀ c, r.head? = some c → isWs c = false) :
    ∃ d', d.parseWhitespace = (r.head?, d') ∧ Eats d d' w ∧ d'.rest = r := by
  obtain ⟨w', d', h1, h2, h3, -, h5⟩ := parseWhitespace_spec d
  have key : ∀ (a b x y : Bytes), a ++ x = b ++ y → Ws a → Ws b → (∀ c, x.head? = some c → isWs c = false) →
      (∀ c, y.head? = some c → isWs c = false) → a = b ∧ x = y := by
    intro a
    induction a with
    | nil =>
      intro b x y e _ hb hx _
      cases b with
      | nil => exact ⟨rfl, e⟩
      | cons c b =>
        simp at e; subst e
        have := hx c (by simp)
        rw [(ws_cons.1 hb).1] at this; cases this
    | cons c a ih =>
      intro b x y e ha hb hx hy
      cases b with
      | nil =>
        simp at e; subst e
        have := hy c (by simp)
        rw [(ws_cons.1 ha).1] at this; cases this
      | cons c' b =>
        simp only [List.cons_append, List.cons.injEq] at e
        obtain ⟨rfl, e⟩ := e
        obtain ⟨rfl, rfl⟩ := ih b x y e (ws_cons.1 ha).2 (ws_cons.1 hb).2 hx hy
        exact ⟨rfl, rfl⟩
  have e := h3.rest.symm.trans h
  obtain ⟨rfl, rfl⟩ := key _ _ _ _ e h2 hw h5 hr
  exact ⟨d', h1, h3, rfl⟩

theorem head_cases {d : De} : d.rest = [] ∨ ∃ c r, d.rest = c :: r := by
  cases d.rest <;> simp

end De
end Miniserde
