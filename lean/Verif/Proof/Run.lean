import Verif.Model.Visitors
import Verif.Proof.PTree

/-!
# Running a partial tree against a type, without a heap

`run E x t` is the result of traversing the partial tree `x` with a visitor for a place of type `t`, computed on the
builder states only.  `Proof/Heap.lean` shows that the heap-based implementation computes the same.
-/

namespace Miniserde
variable (E : Env)

/-- The value written by a leaf call. -/
def leafVal : Ty → Event → Option Val
  | .opt t, ev =>
    match ev with
    | .null => some .optNone
    | ev => (leafVal t ev).map .optSome
  | .box t, ev => (leafVal t ev).map .box
  | t, ev => scalarLeaf E t ev

theorem leafOn_some {t : Ty} : ∀ {ev : Event} {c : Option Val} {v : Val}, leafVal E t ev = some v →
    leafOn E t ev c = (.ok (), some v) := by
  induction t with
  | opt t ih =>
    intro ev c v h
    cases ev <;> simp only [leafVal, Option.map_eq_some_iff, leafOn] at h ⊢ <;>
      first
        | (obtain ⟨u, hu, rfl⟩ := h; rw [ih hu]; rfl)
        | (cases h; rfl)
  | box t ih =>
    intro ev c v h
    simp only [leafVal, Option.map_eq_some_iff] at h
    obtain ⟨u, hu, rfl⟩ := h
    simp only [leafOn, ih hu]
  | _ => intro ev c v h; simp only [leafVal] at h; simp only [leafOn, h]

theorem leafOn_none {t : Ty} : ∀ {ev : Event} {c : Option Val}, leafVal E t ev = none →
    (leafOn E t ev c).1 = .err := by
  induction t with
  | opt t ih =>
    intro ev c h
    cases ev <;> simp only [leafVal, Option.map_eq_none_iff, leafOn, reduceCtorEq] at h ⊢ <;> exact ih h
  | box t ih =>
    intro ev c h
    simp only [leafVal, Option.map_eq_none_iff] at h
    have := ih (c := none) h
    rw [leafOn]
    rcases hx : leafOn E t ev none with ⟨r, c'⟩
    rw [hx] at this; simp only at this; subst this; rfl
  | _ => intro ev c h; simp only [leafVal] at h; simp only [leafOn, h]

/-- The builder a `seq`/`map` call on a place of type `t` ends up with, below `Option`s and `Box`es. -/
def openCore : Ty → Bool → Option Core
  | .opt t, m => openCore t m
  | .box t, m => openCore t m
  | t, m => t.core E m

/-- The value a place of type `t` holds when the builder below the `Option`s and `Box`es is finished with `v`. -/
def wrap : Ty → Val → Val
  | .opt t, v => .optSome (wrap t v)
  | .box t, v => .box (wrap t v)
  | _, v => v

mutual

/-- Traversal by `<dyn Visitor>::ignore()`. -/
def runIgnore : PT → Res Unit
  | .leaf ev => if ev.isLeaf then .ok () else .panic
  | .bad p => failure p
  | .seq xs e => runIgnoreElems xs e
  | .map ms e => runIgnoreMembers ms e

def runIgnoreElems : List PT → End → Res Unit
  | [], .closed => .ok ()
  | [], .stop p => failure p
  | x :: xs, e => (runIgnore x).bind fun _ => runIgnoreElems xs e

def runIgnoreMembers : List (Bytes × PT) → End → Res Unit
  | [], .closed => .ok ()
  | [], .stop p => failure p
  | (_, x) :: ms, e => (runIgnore x).bind fun _ => runIgnoreMembers ms e

end

/-- `finish` on the builder state. -/
def finishCore (c : Core) : Res Val :=
  match c.finish E with
  | some (r, _) => r
  | none => .panic

mutual

/-- Traversal of a partial tree by the visitor of a place of type `t`: the value finally in the place. -/
def run : PT → Ty → Res Val
  | .leaf ev, t =>
    if ev.isLeaf then
      match leafVal E t ev with
      | some v => .ok v
      | none => .err
    else .panic
  | .bad p, _ => failure p
  | .seq xs e, t =>
    match openCore E t false with
    | some c => (runElems xs e c).map (wrap t)
    | none => .err
  | .map ms e, t =>
    match openCore E t true with
    | some c => (runMembers ms e c).map (wrap t)
    | none => .err

def runElems : List PT → End → Core → Res Val
  | [], .closed, c => finishCore E c
  | [], .stop p, _ => failure p
  | x :: xs, e, c =>
    match c.child E none with
    | some (.ok (some (f, t)), c) => (run x t).bind fun v => runElems xs e (c.put f (some v))
    | some (.ok none, c) => (runIgnore x).bind fun _ => runElems xs e c
    | some (.err, _) => .err
    | _ => .panic

def runMembers : List (Bytes × PT) → End → Core → Res Val
  | [], .closed, c => finishCore E c
  | [], .stop p, _ => failure p
  | (k, x) :: ms, e, c =>
    match c.child E (some k) with
    | some (.ok (some (f, t)), c) => (run x t).bind fun v => runMembers ms e (c.put f (some v))
    | some (.ok none, c) => (runIgnore x).bind fun _ => runMembers ms e c
    | some (.err, _) => .err
    | _ => .panic

end

/-! ## Invariants of builder states -/

/-- Invariant of a builder state made by `seq` (`isMap = false`) or `map`. -/
def Core.WF (isMap : Bool) : Core → Prop
  | .vec _ _ _ => isMap = false
  | .arr _ n slots len _ => isMap = false ∧ slots.length = n ∧ len ≤ n ∧
      ∃ vs : List Val, vs.length = len ∧ slots = vs.map some ++ List.replicate (n - len) none
  | .tup _ _ _ _ => isMap = false
  | .map _ _ _ _ _ => isMap = true
  | .strct i fs => isMap = true ∧ fs.length = (E.fields i).length

theorem Core.WF.dropOk {isMap : Bool} {c : Core} (h : c.WF E isMap) : c.dropOk = true := by
  cases c with
  | arr t n slots len el =>
    obtain ⟨-, -, -, vs, rfl, rfl⟩ := h
    simp [Core.dropOk]
  | _ => rfl

theorem Core.WF.put {isMap : Bool} {c : Core} (h : c.WF E isMap) (f : Nat) (x : Option Val) :
    (c.put f x).WF E isMap := by
  cases c with
  | strct i fs => obtain ⟨a, b⟩ := h; exact ⟨a, by simp [b]⟩
  | tup a b x y => rcases f with _ | _ | f <;> exact h
  | _ => cases f <;> exact h

/-- The state of an array builder with the values `vs` in place. -/
theorem shiftArr_spec {t : Ty} {n len : Nat} {slots : List (Option Val)} {el : Option Val} {isMap : Bool}
    (h : (Core.arr t n slots len el).WF E isMap) :
    ∃ r c, shiftArr t n slots len el = some (r, c) ∧ c.WF E isMap ∧ r ≠ .panic ∧
      ∃ slots' len', c = .arr t n slots' len' none := by
  obtain ⟨hm, hl, hle, vs, rfl, rfl⟩ := h
  have hvs : vs.length = vs.length := rfl
  cases el with
  | none => exact ⟨_, _, rfl, ⟨hm, hl, hle, vs, hvs, rfl⟩, nofun, _, _, rfl⟩
  | some e =>
    by_cases hlt : vs.length < n
    · have h1 : (vs.map some ++ List.replicate (n - vs.length) (none : Option Val))[vs.length]? = some none := by
        rw [List.getElem?_append_right (by simp)]
        simp [List.getElem?_replicate]; omega
      simp only [shiftArr, h1]
      refine ⟨_, _, rfl, ⟨hm, by simp at hl ⊢; omega, hlt, vs ++ [e], by simp, ?_⟩, nofun, _, _, rfl⟩
      have h2 : List.replicate (n - vs.length) (none : Option Val) = none :: List.replicate (n - (vs.length + 1)) none := by
        rw [← List.replicate_succ]; congr 1; omega
      rw [h2, List.set_append_right _ _ (by simp)]
      simp
    · have h1 : (vs.map some ++ List.replicate (n - vs.length) (none : Option Val))[vs.length]? = none := by
        rw [List.getElem?_eq_none_iff]; simp; omega
      simp only [shiftArr, h1]
      exact ⟨_, _, rfl, ⟨hm, hl, hle, vs, hvs, rfl⟩, nofun, _, _, rfl⟩

/-- `element`/`key` on a good builder state of the right kind: no fault, no panic, and the field handed out exists. -/
theorem Core.WF.child {isMap : Bool} {c : Core} (h : c.WF E isMap) (k : Option Bytes) (hk : k.isSome = isMap) :
    ∃ r c', c.child E k = some (r, c') ∧ c'.WF E isMap ∧ r ≠ .panic ∧
      ∀ f t, r = .ok (some (f, t)) → c'.get f ≠ none := by
  cases c with
  | vec t d el =>
    cases h; cases k
    · exact ⟨_, _, rfl, rfl, nofun, by intro f t e; cases e; simp [Core.get]⟩
    · simp at hk
  | arr t n slots len el =>
    have hm := h.1; subst hm
    cases k
    · obtain ⟨r, c, h1, h2, h3, s', l', rfl⟩ := shiftArr_spec E h
      rw [Core.child]; simp only [h1]
      cases r with
      | ok a => exact ⟨_, _, rfl, h2, nofun, by intro f t e; cases e; simp [Core.get]⟩
      | err => exact ⟨_, _, rfl, h2, nofun, nofun⟩
      | panic => exact absurd rfl h3
    · simp at hk
  | tup a b x y =>
    cases h; cases k
    · rcases x with _ | x
      · exact ⟨_, _, rfl, rfl, nofun, by intro f t e; cases e; simp [Core.get]⟩
      · rcases y with _ | y
        · exact ⟨_, _, rfl, rfl, nofun, by intro f t e; cases e; simp [Core.get]⟩
        · exact ⟨_, _, rfl, rfl, nofun, nofun⟩
    · simp at hk
  | map kind t m key val =>
    cases h; cases k with
    | none => simp at hk
    | some k =>
      rw [Core.child]
      cases kind.parse E k with
      | none => exact ⟨_, _, rfl, rfl, nofun, nofun⟩
      | some k' => exact ⟨_, _, rfl, rfl, nofun, by intro f t e; cases e; simp [Core.get]⟩
  | strct i fs =>
    obtain ⟨rfl, hl⟩ := h
    cases k with
    | none => simp at hk
    | some k =>
      rw [Core.child]
      cases hf : (E.fields i).findIdx? (fun f => f.1 == k) with
      | none => exact ⟨_, _, rfl, ⟨rfl, hl⟩, nofun, nofun⟩
      | some j =>
        have hj : j < (E.fields i).length := by
          rw [List.findIdx?_eq_some_iff_findIdx_eq] at hf; exact hf.1
        simp only [List.getElem?_eq_getElem hj]
        refine ⟨_, _, rfl, ⟨rfl, hl⟩, nofun, ?_⟩
        intro f t e; cases e
        simp only [Core.get]
        rw [List.getElem?_eq_getElem (by omega)]; simp

theorem allInit_map (vs : List Val) : allInit (vs.map some) = some vs := by
  induction vs with
  | nil => rfl
  | cons v vs ih => simp [allInit, ih]

theorem takeFields_length (fs : List (Option Val)) : (takeFields fs).2.length = fs.length := by
  induction fs with
  | nil => rfl
  | cons f fs ih => cases f <;> simp [takeFields, ih]

/-- `finish` on a good builder state: no fault, no panic. -/
theorem Core.WF.finish {isMap : Bool} {c : Core} (h : c.WF E isMap) :
    ∃ r c', c.finish E = some (r, c') ∧ c'.WF E isMap ∧ r ≠ .panic := by
  cases c with
  | vec t d el => exact ⟨_, _, rfl, h, nofun⟩
  | arr t n slots len el =>
    obtain ⟨r, c, h1, h2, h3, s', l', rfl⟩ := shiftArr_spec E h
    rw [Core.finish]; simp only [h1]
    cases r with
    | ok a =>
      obtain ⟨hm, hl, hle, vs, hvs, rfl⟩ := h2
      by_cases hlt : l' < n
      · simp only [hlt, if_true]
        exact ⟨_, _, rfl, ⟨hm, hl, hle, vs, hvs, rfl⟩, nofun⟩
      · have h4 : n - l' = 0 := by omega
        simp only [hlt, if_false, h4, List.replicate_zero, List.append_nil, allInit_map]
        exact ⟨_, _, rfl, ⟨hm, by simp, by omega, [], rfl, by simp⟩, nofun⟩
    | err => exact ⟨_, _, rfl, h2, nofun⟩
    | panic => exact absurd rfl h3
  | tup a b x y =>
    rcases x with _ | x
    · exact ⟨_, _, rfl, h, nofun⟩
    · rcases y with _ | y
      · exact ⟨_, _, rfl, h, nofun⟩
      · exact ⟨_, _, rfl, h, nofun⟩
  | map kind t m key val => exact ⟨_, _, rfl, h, nofun⟩
  | strct i fs =>
    rw [Core.finish]
    have hl := takeFields_length fs
    rcases ht : takeFields fs with ⟨o, fs'⟩
    rw [ht] at hl
    cases o with
    | none => exact ⟨_, _, rfl, ⟨h.1, by simpa [hl] using h.2⟩, nofun⟩
    | some vs => exact ⟨_, _, rfl, ⟨h.1, by simpa [hl] using h.2⟩, nofun⟩

theorem core_wf {t : Ty} {isMap : Bool} {c : Core} (h : t.core E isMap = some c) : c.WF E isMap := by
  cases t <;> cases isMap <;> simp only [Ty.core, reduceCtorEq, Option.some.injEq] at h <;> subst h <;>
    simp [Core.WF]

theorem openCore_wf {t : Ty} {isMap : Bool} {c : Core} (h : openCore E t isMap = some c) : c.WF E isMap := by
  induction t with
  | opt t ih => exact ih h
  | box t ih => exact ih h
  | _ => exact core_wf E h

end Miniserde
