import Verif.Model.Generic
import Verif.Spec.Compose

/-!
# What the generic containers read, in terms of `from_str` for their element types

`I : Deser σ α` is an arbitrary implementation of `Deserialize` with a state `σ` of its own.  `I.fromStr s w` is what `json::from_str` does on the input `s` in the state `w`.
-/

namespace Miniserde
variable {σ α β κ μ : Type}

/-- What the library expects of an implementation: a visitor that reports success has filled its place. -/
def Deser.Delivers (I : Deser σ α) : Prop :=
  ∀ s w w' o, fromStrImpl I.P s I.begin (w, none) = some (.ok (), (w', o)) → o ≠ none

/-- What the place contained before makes no difference. -/
def Deser.Overwrites (I : Deser σ α) : Prop :=
  ∀ s, (∃ j, JText s j) → ∀ w o, ∃ r w' o₁ o₂, fromStrImpl I.P s I.begin (w, o) = some (r, (w', o₁)) ∧
    fromStrImpl I.P s I.begin (w, none) = some (r, (w', o₂)) ∧ (r = .ok () → o₁ = o₂)

/-- One text after the other is read by `from_str`, up to the first failure. -/
inductive ReadsAll (I : Deser σ α) : List Bytes → σ → Res (List α) → σ → Prop
  | nil (w : σ) : ReadsAll I [] w (.ok []) w
  | cons {s : Bytes} {ss : List Bytes} {w w₁ w₂ : σ} {a : α} {r : Res (List α)} (h : I.fromStr s w = some (.ok a, w₁)) (hs : ReadsAll I ss w₁ r w₂) :
      ReadsAll I (s :: ss) w (r.map (a :: ·)) w₂
  | err {s : Bytes} {ss : List Bytes} {w w₁ : σ} (h : I.fromStr s w = some (.err, w₁)) : ReadsAll I (s :: ss) w .err w₁
  | panic {s : Bytes} {ss : List Bytes} {w w₁ : σ} (h : I.fromStr s w = some (.panic, w₁)) : ReadsAll I (s :: ss) w .panic w₁

/-- An array of `n` elements: the elements are read, at most one more than fits; the number must be right. -/
def ReadsArr (n : Nat) (I : Deser σ α) (ss : List Bytes) (w : σ) (r : Res (List α)) (w' : σ) : Prop :=
  ∃ r₀, ReadsAll I (ss.take (n + 1)) w r₀ w' ∧ r = match r₀ with
    | .ok l => if l.length = n then .ok l else .err
    | .err => .err
    | .panic => .panic

/-- A pair: at most two elements are read; there must be two. -/
inductive ReadsPair (I : Deser σ α) (J : Deser σ β) : List Bytes → σ → Res (α × β) → σ → Prop
  | none (w : σ) : ReadsPair I J [] w .err w
  | failFst {s : Bytes} {ss : List Bytes} {w w₁ : σ} {r : Res α} (h : I.fromStr s w = some (r, w₁)) (hr : ∀ a, r ≠ .ok a) : ReadsPair I J (s :: ss) w r.fail w₁
  | one {s : Bytes} {w w₁ : σ} {a : α} (h : I.fromStr s w = some (.ok a, w₁)) : ReadsPair I J [s] w .err w₁
  | failSnd {s t : Bytes} {ss : List Bytes} {w w₁ w₂ : σ} {a : α} {r : Res β} (h : I.fromStr s w = some (.ok a, w₁)) (h' : J.fromStr t w₁ = some (r, w₂))
      (hr : ∀ b, r ≠ .ok b) : ReadsPair I J (s :: t :: ss) w r.fail w₂
  | two {s t : Bytes} {w w₁ w₂ : σ} {a : α} {b : β} (h : I.fromStr s w = some (.ok a, w₁)) (h' : J.fromStr t w₁ = some (.ok b, w₂)) :
      ReadsPair I J [s, t] w (.ok (a, b)) w₂
  | more {s t u : Bytes} {ss : List Bytes} {w w₁ w₂ : σ} {a : α} {b : β} (h : I.fromStr s w = some (.ok a, w₁)) (h' : J.fromStr t w₁ = some (.ok b, w₂)) :
      ReadsPair I J (s :: t :: u :: ss) w .err w₂

/-- Map entries: each key is parsed, then the value is read, up to the first failure. -/
inductive ReadsEntries (parse : Bytes → Option κ) (I : Deser σ α) : List (Bytes × Bytes) → σ → Res (List (κ × α)) → σ → Prop
  | nil (w : σ) : ReadsEntries parse I [] w (.ok []) w
  | badKey {k s : Bytes} {ms : List (Bytes × Bytes)} {w : σ} (hk : parse k = none) : ReadsEntries parse I ((k, s) :: ms) w .err w
  | fail {k s : Bytes} {ms : List (Bytes × Bytes)} {w w₁ : σ} {x : κ} {r : Res α} (hk : parse k = some x) (h : I.fromStr s w = some (r, w₁)) (hr : ∀ a, r ≠ .ok a) :
      ReadsEntries parse I ((k, s) :: ms) w r.fail w₁
  | cons {k s : Bytes} {ms : List (Bytes × Bytes)} {w w₁ w₂ : σ} {x : κ} {a : α} {r : Res (List (κ × α))} (hk : parse k = some x)
      (h : I.fromStr s w = some (.ok a, w₁)) (hs : ReadsEntries parse I ms w₁ r w₂) : ReadsEntries parse I ((k, s) :: ms) w (r.map ((x, a) :: ·)) w₂

/-- `null` is `None`, everything else is read as the content of `Some`. -/
def ReadsOpt (I : Deser σ α) (s : Bytes) (w : σ) (r : Res (Option α)) (w' : σ) : Prop :=
  (JText s .null ∧ r = .ok none ∧ w' = w) ∨
  (¬ JText s .null ∧ ∃ r₀, I.fromStr s w = some (r₀, w') ∧ r = r₀.map some)

/-- The implementation of `Deserialize` behind `<dyn Visitor>::ignore()`: everything is accepted, nothing is done. -/
def skip : Proto Unit where
  V := Unit
  Q := Unit
  M := Unit
  null _ w := (.ok (), w)
  boolean _ _ w := (.ok (), w)
  string _ _ w := (.ok (), w)
  negative _ _ w := (.ok (), w)
  nonnegative _ _ w := (.ok (), w)
  float _ _ w := (.ok (), w)
  seq _ w := (.ok (), w)
  map _ w := (.ok (), w)
  element _ w := (.ok (), w)
  seqFinish _ w := (.ok (), w)
  key _ _ w := (.ok (), w)
  mapFinish _ w := (.ok (), w)
  dropSeq _ w := w
  dropMap _ w := w

/-- Field `i` gets the value `x`. -/
def assign {n : Nat} {τ : Fin n → Type} (c : (i : Fin n) → Option (τ i)) (i : Fin n) (x : τ i) : (i : Fin n) → Option (τ i) :=
  fun j => if h : j = i then some (h ▸ x) else c j

/-- `i` is the (first) field called `k`. -/
def Named {n : Nat} (names : Fin n → Bytes) (k : Bytes) (i : Fin n) : Prop := names i = k ∧ ∀ j, j < i → names j ≠ k

/-- The members of an object are read one after the other as the fields they name; members that name no field are skipped.  Before, the fields have
the values `c` (if any), afterwards those in the result. -/
inductive ReadsFields {n : Nat} {τ : Fin n → Type} (names : Fin n → Bytes) (I : (i : Fin n) → Deser σ (τ i)) :
    ((i : Fin n) → Option (τ i)) → List (Bytes × Bytes) → σ → Res ((i : Fin n) → Option (τ i)) → σ → Prop
  | nil (c : (i : Fin n) → Option (τ i)) (w : σ) : ReadsFields names I c [] w (.ok c) w
  | field {c : (i : Fin n) → Option (τ i)} {k s : Bytes} {ms : List (Bytes × Bytes)} {w w₁ w₂ : σ} {i : Fin n} {x : τ i} {r : Res ((i : Fin n) → Option (τ i))}
      (hk : Named names k i) (h : (I i).fromStr s w = some (.ok x, w₁)) (hs : ReadsFields names I (assign c i x) ms w₁ r w₂) : ReadsFields names I c ((k, s) :: ms) w r w₂
  | fail {c : (i : Fin n) → Option (τ i)} {k s : Bytes} {ms : List (Bytes × Bytes)} {w w₁ : σ} {i : Fin n} {r : Res (τ i)} (hk : Named names k i)
      (h : (I i).fromStr s w = some (r, w₁)) (hr : ∀ x, r ≠ .ok x) : ReadsFields names I c ((k, s) :: ms) w r.fail w₁
  | unknown {c : (i : Fin n) → Option (τ i)} {k s : Bytes} {ms : List (Bytes × Bytes)} {w w₂ : σ} {r : Res ((i : Fin n) → Option (τ i))}
      (hk : ∀ i, names i ≠ k) (h : fromStrImpl skip s () () = some (.ok (), ())) (hs : ReadsFields names I c ms w r w₂) : ReadsFields names I c ((k, s) :: ms) w r w₂
  | unknownFail {c : (i : Fin n) → Option (τ i)} {k s : Bytes} {ms : List (Bytes × Bytes)} {w : σ} {r : Res Unit}
      (hk : ∀ i, names i ≠ k) (h : fromStrImpl skip s () () = some (r, ())) (hr : r ≠ .ok ()) : ReadsFields names I c ((k, s) :: ms) w r.fail w

/-- A struct: the members are read as above, starting from the defaults; then every field must have a value. -/
def ReadsStruct {n : Nat} {τ : Fin n → Type} (names : Fin n → Bytes) (I : (i : Fin n) → Deser σ (τ i)) (ms : List (Bytes × Bytes)) (w : σ)
    (r : Res ((i : Fin n) → τ i)) (w' : σ) : Prop :=
  ∃ r₀, ReadsFields names I (fun i => (I i).default) ms w r₀ w' ∧
    match r₀ with
    | .ok c => (∃ v, (∀ i, c i = some (v i)) ∧ r = .ok v) ∨ ((∃ i, c i = none) ∧ r = .err)
    | .err => r = .err
    | .panic => r = .panic

end Miniserde
