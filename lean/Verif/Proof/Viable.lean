import Verif.Proof.Complete
import Verif.Spec.Viable

/-!
# Completing a partial tree
-/

namespace Miniserde
open De
open scoped List

mutual
/-- `Cut x y`: `x` is the whole tree `y`, or the part of it that was read before reading stopped. -/
inductive Cut : PT → PT → Prop
  | leaf (ev : Event) : Cut (.leaf ev) (.leaf ev)
  | bad (p : Bool) (y : PT) : Cut (.bad p) y
  | seq {xs e ys} (h : CutL xs e ys) : Cut (.seq xs e) (.seq ys .closed)
  | map {xs e ys} (h : CutM xs e ys) : Cut (.map xs e) (.map ys .closed)

inductive CutL : List PT → End → List PT → Prop
  | closed : CutL [] .closed []
  | stop (p : Bool) (ys : List PT) : CutL [] (.stop p) ys
  | cons {x xs e y ys} (h : Cut x y) (hs : CutL xs e ys) : CutL (x :: xs) e (y :: ys)

inductive CutM : List (Bytes × PT) → End → List (Bytes × PT) → Prop
  | closed : CutM [] .closed []
  | stop (p : Bool) (ys : List (Bytes × PT)) : CutM [] (.stop p) ys
  | cons {k x xs e y ys} (h : Cut x y) (hs : CutM xs e ys) : CutM ((k, x) :: xs) e ((k, y) :: ys)
end

section
variable {σ : Type} {P : Proto (σ × List Seen)}

/-- Every call adds to the record. -/
structure Recs (P : Proto (σ × List Seen)) : Prop where
  leaf : ∀ v ev w, w.2 <+: (leafCall P v ev w).2.2
  seq : ∀ v w, w.2 <+: (P.seq v w).2.2
  map : ∀ v w, w.2 <+: (P.map v w).2.2
  element : ∀ q w, w.2 <+: (P.element q w).2.2
  key : ∀ m k w, w.2 <+: (P.key m k w).2.2
  seqFinish : ∀ q w, w.2 <+: (P.seqFinish q w).2.2
  mapFinish : ∀ m w, w.2 <+: (P.mapFinish m w).2.2
  dropSeq : ∀ q w, (P.dropSeq q w).2 = w.2
  dropMap : ∀ q w, (P.dropMap q w).2 = w.2

theorem recording_recs {σ : Type} (P : Proto σ) : Recs P.recording where
  leaf v ev w := by cases ev <;> simp [leafCall, Proto.recording]
  seq v w := by simp [Proto.recording]
  map v w := by simp [Proto.recording]
  element v w := by simp [Proto.recording]
  key v k w := by simp [Proto.recording]
  seqFinish v w := by simp [Proto.recording]
  mapFinish v w := by simp [Proto.recording]
  dropSeq v w := rfl
  dropMap v w := rfl

variable (R : Recs P)
include R

mutual
theorem drivePT_mono (v : P.V) : ∀ (t : PT) (w : σ × List Seen), w.2 <+: (drivePT P v t w).2.2
  | .leaf ev, w => by rw [drivePT]; exact R.leaf v ev w
  | .bad p, w => by rw [drivePT]; exact List.prefix_refl _
  | .seq xs e, w => by
    rw [drivePT]
    have h0 : w.2 <+: (P.seq v w).2.2 := R.seq v w
    split <;> rename_i heq <;> rw [heq] at h0
    · rw [R.dropSeq]; exact h0.trans (driveElemsPT_mono _ xs e _)
    · exact h0
    · exact h0
  | .map xs e, w => by
    rw [drivePT]
    have h0 : w.2 <+: (P.map v w).2.2 := R.map v w
    split <;> rename_i heq <;> rw [heq] at h0
    · rw [R.dropMap]; exact h0.trans (driveMembersPT_mono _ xs e _)
    · exact h0
    · exact h0

theorem driveElemsPT_mono (q : P.Q) : ∀ (xs : List PT) (e : End) (w : σ × List Seen),
    w.2 <+: (driveElemsPT P q xs e w).2.2
  | [], .closed, w => by rw [driveElemsPT]; exact R.seqFinish q w
  | [], .stop p, w => by rw [driveElemsPT]; exact List.prefix_refl _
  | x :: xs, e, w => by
    rw [driveElemsPT]
    have h0 : w.2 <+: (P.element q w).2.2 := R.element q w
    split <;> rename_i heq <;> rw [heq] at h0
    · rename_i v w1
      have h1 := drivePT_mono v x w1
      split <;> rename_i heq1 <;> rw [heq1] at h1
      · exact h0.trans (h1.trans (driveElemsPT_mono q xs e _))
      · exact h0.trans h1
      · exact h0.trans h1
    · exact h0
    · exact h0

theorem driveMembersPT_mono (m : P.M) : ∀ (xs : List (Bytes × PT)) (e : End) (w : σ × List Seen),
    w.2 <+: (driveMembersPT P m xs e w).2.2
  | [], .closed, w => by rw [driveMembersPT]; exact R.mapFinish m w
  | [], .stop p, w => by rw [driveMembersPT]; exact List.prefix_refl _
  | (k, x) :: xs, e, w => by
    rw [driveMembersPT]
    have h0 : w.2 <+: (P.key m k w).2.2 := R.key m k w
    split <;> rename_i heq <;> rw [heq] at h0
    · rename_i v w1
      have h1 := drivePT_mono v x w1
      split <;> rename_i heq1 <;> rw [heq1] at h1
      · exact h0.trans (h1.trans (driveMembersPT_mono m xs e _))
      · exact h0.trans h1
      · exact h0.trans h1
    · exact h0
    · exact h0
end

/-- The relation between the runs on a cut tree and on the whole tree. -/
def Ahead (a b : Res Unit × (σ × List Seen)) : Prop := (a.1 = .ok () → b = a) ∧ a.2.2 <+: b.2.2

omit R in
theorem Ahead.refl (a : Res Unit × (σ × List Seen)) : Ahead a a := ⟨fun _ => rfl, List.prefix_refl _⟩

omit R in
theorem failure_not_ok {p : Bool} : (failure p : Res Unit) ≠ .ok () := by cases p <;> simp [failure]

mutual
theorem Cut.ahead : ∀ {x y} (_ : Cut x y) (v : P.V) (w : σ × List Seen),
    Ahead (drivePT P v x w) (drivePT P v y w)
  | _, _, .leaf ev, v, w => Ahead.refl _
  | _, _, .bad p y, v, w => by
    refine ⟨fun h => ?_, ?_⟩
    · rw [drivePT] at h; exact absurd h failure_not_ok
    · rw [drivePT]; exact drivePT_mono R v y w
  | _, _, .seq h, v, w => by
    rw [drivePT, drivePT]
    split
    · rename_i q w1 _
      obtain ⟨h1, h2⟩ := h.ahead q w1
      exact ⟨fun h => by rw [h1 h], by rw [R.dropSeq, R.dropSeq]; exact h2⟩
    · exact Ahead.refl _
    · exact Ahead.refl _
  | _, _, .map h, v, w => by
    rw [drivePT, drivePT]
    split
    · rename_i q w1 _
      obtain ⟨h1, h2⟩ := h.ahead q w1
      exact ⟨fun h => by rw [h1 h], by rw [R.dropMap, R.dropMap]; exact h2⟩
    · exact Ahead.refl _
    · exact Ahead.refl _

theorem CutL.ahead : ∀ {xs e ys} (_ : CutL xs e ys) (q : P.Q) (w : σ × List Seen),
    Ahead (driveElemsPT P q xs e w) (driveElemsPT P q ys .closed w)
  | _, _, _, .closed, q, w => Ahead.refl _
  | _, _, _, .stop p ys, q, w => by
    refine ⟨fun h => ?_, ?_⟩
    · rw [driveElemsPT] at h; exact absurd h failure_not_ok
    · rw [driveElemsPT]; exact driveElemsPT_mono R q ys .closed w
  | _, _, _, .cons (x := x) (xs := xs) (e := e) (y := y) (ys := ys) h hs, q, w => by
    rw [driveElemsPT, driveElemsPT]
    split
    · rename_i v w1 _
      obtain ⟨h1, h2⟩ := h.ahead v w1
      rcases hx : drivePT P v x w1 with ⟨r, w2⟩
      rw [hx] at h1 h2
      cases r with
      | ok u =>
        cases u
        rw [h1 rfl]
        exact hs.ahead q w2
      | err =>
        refine ⟨(fun h => by cases h), ?_⟩
        rcases hy : drivePT P v y w1 with ⟨r', w2'⟩
        rw [hy] at h2
        cases r' with
        | ok u => exact h2.trans (driveElemsPT_mono R q ys .closed w2')
        | err => exact h2
        | panic => exact h2
      | panic =>
        refine ⟨(fun h => by cases h), ?_⟩
        rcases hy : drivePT P v y w1 with ⟨r', w2'⟩
        rw [hy] at h2
        cases r' with
        | ok u => exact h2.trans (driveElemsPT_mono R q ys .closed w2')
        | err => exact h2
        | panic => exact h2
    · exact Ahead.refl _
    · exact Ahead.refl _

theorem CutM.ahead : ∀ {xs e ys} (_ : CutM xs e ys) (m : P.M) (w : σ × List Seen),
    Ahead (driveMembersPT P m xs e w) (driveMembersPT P m ys .closed w)
  | _, _, _, .closed, q, w => Ahead.refl _
  | _, _, _, .stop p ys, q, w => by
    refine ⟨fun h => ?_, ?_⟩
    · rw [driveMembersPT] at h; exact absurd h failure_not_ok
    · rw [driveMembersPT]; exact driveMembersPT_mono R q ys .closed w
  | _, _, _, .cons (k := k) (x := x) (xs := xs) (e := e) (y := y) (ys := ys) h hs, q, w => by
    rw [driveMembersPT, driveMembersPT]
    split
    · rename_i v w1 _
      obtain ⟨h1, h2⟩ := h.ahead v w1
      rcases hx : drivePT P v x w1 with ⟨r, w2⟩
      rw [hx] at h1 h2
      cases r with
      | ok u =>
        cases u
        rw [h1 rfl]
        exact hs.ahead q w2
      | err =>
        refine ⟨(fun h => by cases h), ?_⟩
        rcases hy : drivePT P v y w1 with ⟨r', w2'⟩
        rw [hy] at h2
        cases r' with
        | ok u => exact h2.trans (driveMembersPT_mono R q ys .closed w2')
        | err => exact h2
        | panic => exact h2
      | panic =>
        refine ⟨(fun h => by cases h), ?_⟩
        rcases hy : drivePT P v y w1 with ⟨r', w2'⟩
        rw [hy] at h2
        cases r' with
        | ok u => exact h2.trans (driveMembersPT_mono R q ys .closed w2')
        | err => exact h2
        | panic => exact h2
    · exact Ahead.refl _
    · exact Ahead.refl _
end
end

/-! ## Texts of completed trees -/

/-- No call fails. -/
structure Accepts {σ : Type} (A : Proto σ) : Prop where
  leaf : ∀ v ev w, ev.isLeaf = true → (leafCall A v ev w).1 = .ok ()
  seq : ∀ v w, ∃ q, (A.seq v w).1 = .ok q
  map : ∀ v w, ∃ m, (A.map v w).1 = .ok m
  element : ∀ q w, ∃ v, (A.element q w).1 = .ok v
  key : ∀ m k w, ∃ v, (A.key m k w).1 = .ok v
  seqFinish : ∀ q w, (A.seqFinish q w).1 = .ok ()
  mapFinish : ∀ m w, (A.mapFinish m w).1 = .ok ()

theorem acceptAll_accepts : Accepts acceptAll where
  leaf v ev w h := by cases ev <;> first | rfl | cases h
  seq v w := ⟨(), rfl⟩
  map v w := ⟨(), rfl⟩
  element v w := ⟨(), rfl⟩
  key m k w := ⟨(), rfl⟩
  seqFinish q w := rfl
  mapFinish q w := rfl

/-- A tree that has a text and whose numbers can be delivered. -/
def Viable (j : Json) : Prop := (∃ t, JValue t j) ∧ ∀ (σ : Type) (A : Proto σ), Accepts A → ∀ v w, (drivePT A v (toPT j) w).1 = .ok ()

def ViableL : List Json → Prop
  | [] => True
  | j :: js => Viable j ∧ ViableL js

def ViableM : List (Bytes × Json) → Prop
  | [] => True
  | (k, j) :: js => (∃ t, JString t k) ∧ Viable j ∧ ViableM js

theorem viableL_text : ∀ (j : Json) (js : List Json), ViableL (j :: js) → ∃ t, JElements t (j :: js)
  | j, [], ⟨⟨⟨t, h⟩, _⟩, _⟩ => ⟨[] ++ (t ++ []), .one ws_nil h ws_nil⟩
  | j, j' :: js, ⟨⟨⟨t, h⟩, _⟩, hs⟩ => by
    obtain ⟨t', h'⟩ := viableL_text j' js hs
    exact ⟨[] ++ (t ++ ([] ++ 0x2C :: t')), .cons ws_nil h ws_nil h'⟩

theorem viableM_text : ∀ (k : Bytes) (j : Json) (js : List (Bytes × Json)), ViableM ((k, j) :: js) → ∃ t, JMembers t ((k, j) :: js)
  | k, j, [], ⟨⟨kt, hk⟩, ⟨⟨t, h⟩, _⟩, _⟩ => ⟨[] ++ (kt ++ ([] ++ 0x3A :: ([] ++ (t ++ [])))), .one ws_nil hk ws_nil ws_nil h ws_nil⟩
  | k, j, (k', j') :: js, ⟨⟨kt, hk⟩, ⟨⟨t, h⟩, _⟩, hs⟩ => by
    obtain ⟨t', h'⟩ := viableM_text k' j' js hs
    exact ⟨[] ++ (kt ++ ([] ++ 0x3A :: ([] ++ (t ++ ([] ++ 0x2C :: t'))))), .cons ws_nil hk ws_nil ws_nil h ws_nil h'⟩

theorem viableL_drive {σ : Type} {A : Proto σ} (hA : Accepts A) (q : A.Q) : ∀ js, ViableL js → ∀ w, (driveElemsPT A q (toPTs js) .closed w).1 = .ok ()
  | [], _, w => by rw [toPTs, driveElemsPT]; exact hA.seqFinish q w
  | j :: js, ⟨h, hs⟩, w => by
    rw [toPTs, driveElemsPT]
    obtain ⟨v, hv⟩ := hA.element q w
    rcases he : A.element q w with ⟨r, w1⟩
    rw [he] at hv
    cases hv
    have := h.2 σ A hA v w1
    rcases hx : drivePT A v (toPT j) w1 with ⟨r, w'⟩
    rw [hx] at this
    cases this
    simp only [hx]
    exact viableL_drive hA q js hs w'

theorem viableM_drive {σ : Type} {A : Proto σ} (hA : Accepts A) (q : A.M) : ∀ js, ViableM js → ∀ w, (driveMembersPT A q (toPTms js) .closed w).1 = .ok ()
  | [], _, w => by rw [toPTms, driveMembersPT]; exact hA.mapFinish q w
  | (k, j) :: js, ⟨_, h, hs⟩, w => by
    rw [toPTms, driveMembersPT]
    obtain ⟨v, hv⟩ := hA.key q k w
    rcases he : A.key q k w with ⟨r, w1⟩
    rw [he] at hv
    cases hv
    have := h.2 σ A hA v w1
    rcases hx : drivePT A v (toPT j) w1 with ⟨r, w'⟩
    rw [hx] at this
    cases this
    simp only [hx]
    exact viableM_drive hA q js hs w'

theorem viable_arr {js : List Json} (h : ViableL js) : Viable (.arr js) := by
  refine ⟨?_, fun σ A hA v w => ?_⟩
  · cases js with
    | nil => exact ⟨_, .arrEmpty ws_nil⟩
    | cons j js => obtain ⟨t, ht⟩ := viableL_text j js h; exact ⟨_, .arr ht⟩
  · rw [toPT, drivePT]
    obtain ⟨q, hq⟩ := hA.seq v w
    rcases he : A.seq v w with ⟨r, w1⟩
    rw [he] at hq
    cases hq
    exact viableL_drive hA q js h w1

theorem viable_obj {js : List (Bytes × Json)} (h : ViableM js) : Viable (.obj js) := by
  refine ⟨?_, fun σ A hA v w => ?_⟩
  · cases js with
    | nil => exact ⟨_, .objEmpty ws_nil⟩
    | cons j js => obtain ⟨t, ht⟩ := viableM_text j.1 j.2 js h; exact ⟨_, .obj ht⟩
  · rw [toPT, drivePT]
    obtain ⟨q, hq⟩ := hA.map v w
    rcases he : A.map v w with ⟨r, w1⟩
    rw [he] at hq
    cases hq
    exact viableM_drive hA q js h w1

theorem viable_null : Viable .null := ⟨⟨_, .null⟩, fun σ A hA v w => by rw [toPT, drivePT]; exact hA.leaf v .null w rfl⟩

theorem keyStep_key_text {d d' : De} {k : Bytes} (h : keyStep d = .key k d') : ∃ t, JString t k := by
  rcases keyStep_spec d with ⟨u1, kt, key, u2, d5, k1, k2, k3, k4, k5⟩ | ⟨k, k1, -⟩ | k1 <;> rw [h] at k1 <;> cases k1
  exact ⟨kt, k3⟩

theorem keyStep_noColon_text {d : De} {k : Bytes} (h : keyStep d = .noColon k) : ∃ t, JString t k := by
  rcases keyStep_spec d with ⟨u1, kt, key, u2, d5, k1, k2, k3, k4, k5⟩ | ⟨k, k1, w1, kt, r, -, k3, -⟩ | k1 <;> rw [h] at k1 <;> cases k1
  exact ⟨kt, k3⟩

mutual
theorem PVal.viable : ∀ {d t o} (_ : PVal d t o), ∃ j, Viable j ∧ Cut t (toPT j)
  | _, _, _, .err _ => ⟨.null, viable_null, .bad _ _⟩
  | _, _, _, .panic _ => ⟨.null, viable_null, .bad _ _⟩
  | _, _, _, .leaf (ev := ev) he hl => by
    obtain ⟨w, t, hw, ht, te⟩ := event_ok_spec he
    obtain ⟨j, hj, e⟩ := ht.isLeaf_cases hl
    refine ⟨j, ⟨⟨t, hj⟩, fun σ A hA v w => ?_⟩, e ▸ .leaf ev⟩
    rw [e, drivePT]
    exact hA.leaf v ev w hl
  | _, _, _, .seq he hs => by
    obtain ⟨js, h, hc⟩ := hs.viable
    exact ⟨.arr js, viable_arr h, by rw [toPT]; exact .seq hc⟩
  | _, _, _, .map he hs => by
    obtain ⟨js, h, hc⟩ := hs.viable
    exact ⟨.obj js, viable_obj h, by rw [toPT]; exact .map hc⟩

theorem PElems.viable : ∀ {ac d xs e o} (_ : PElems ac d xs e o), ∃ js, ViableL js ∧ CutL xs e (toPTs js)
  | _, _, _, _, _, .close _ => ⟨[], trivial, by rw [toPTs]; exact .closed⟩
  | _, _, _, _, _, .stop _ => ⟨[], trivial, .stop _ _⟩
  | _, _, _, _, _, .child _ hx hr => by
    obtain ⟨j, h1, h2⟩ := hx.viable
    obtain ⟨js, h3, h4⟩ := hr.viable
    exact ⟨j :: js, ⟨h1, h3⟩, by rw [toPTs]; exact .cons h2 h4⟩
  | _, _, _, _, _, .last _ hx => by
    obtain ⟨j, h1, h2⟩ := hx.viable
    exact ⟨[j], ⟨h1, trivial⟩, by rw [toPTs]; exact .cons h2 (.stop _ _)⟩

theorem PMembers.viable : ∀ {ac d xs e o} (_ : PMembers ac d xs e o), ∃ js, ViableM js ∧ CutM xs e (toPTms js)
  | _, _, _, _, _, .close _ => ⟨[], trivial, by rw [toPTms]; exact .closed⟩
  | _, _, _, _, _, .stop _ => ⟨[], trivial, .stop _ _⟩
  | _, _, _, _, _, .keyStop _ _ => ⟨[], trivial, .stop _ _⟩
  | _, _, _, _, _, .noColon (k := k) _ hk =>
    ⟨[(k, .null)], ⟨keyStep_noColon_text hk, viable_null, trivial⟩, by rw [toPTms]; exact .cons (.bad _ _) (.stop _ _)⟩
  | _, _, _, _, _, .child (k := k) _ hk hx hr => by
    obtain ⟨j, h1, h2⟩ := hx.viable
    obtain ⟨js, h3, h4⟩ := hr.viable
    exact ⟨(k, j) :: js, ⟨keyStep_key_text hk, h1, h3⟩, by rw [toPTms]; exact .cons h2 h4⟩
  | _, _, _, _, _, .last (k := k) _ hk hx => by
    obtain ⟨j, h1, h2⟩ := hx.viable
    exact ⟨[(k, j)], ⟨keyStep_key_text hk, h1, trivial⟩, by rw [toPTms]; exact .cons h2 (.stop _ _)⟩
end

end Miniserde
