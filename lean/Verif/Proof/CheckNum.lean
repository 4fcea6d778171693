import Verif.Proof.Utf8
import Verif.Proof.FloatFinite
import Verif.Spec.CheckNum

/-!
# Numbers delivered by the parser are machine numbers, on any input
-/

namespace Miniserde
open De

/-- Numbers are in range. -/
def Event.InRange : Event → Prop
  | .float x => x.isFinite = true ∧ x.Valid binary64
  | .nonnegative n => n ≤ u64Max
  | .negative n => i64Min ≤ n ∧ n ≤ 0
  | _ => True

mutual
/-- Every leaf satisfies `p`. -/
def PT.Leaves (p : Event → Prop) : PT → Prop
  | .leaf ev => p ev
  | .bad _ => True
  | .seq xs _ => PT.LeavesL p xs
  | .map ms _ => PT.LeavesM p ms

def PT.LeavesL (p : Event → Prop) : List PT → Prop
  | [] => True
  | x :: xs => x.Leaves p ∧ PT.LeavesL p xs

def PT.LeavesM (p : Event → Prop) : List (Bytes × PT) → Prop
  | [] => True
  | (_, x) :: xs => x.Leaves p ∧ PT.LeavesM p xs
end

theorem tok_inRange {t : Bytes} {ev : Event} (h : Tok t ev) : ev.InRange := by
  cases h with
  | num l h ev he =>
    rcases numEvent_range he with ⟨n, rfl, hn, -⟩ | ⟨z, rfl, h1, h2, -⟩ | ⟨m, e, rfl, hv⟩
    · exact hn
    · exact ⟨h1, h2⟩
    · exact ⟨rfl, hv⟩
  | _ => trivial

theorem event_inRange {d d' : De} {ev : Event} (h : d.event = .ok (ev, d')) : ev.InRange := by
  obtain ⟨w, t, hw, ht, te⟩ := event_ok_spec h
  exact tok_inRange ht

mutual

theorem PVal.inRange : ∀ {d t o} (_ : PVal d t o), t.Leaves Event.InRange
  | _, _, _, .err _ => by simp [PT.Leaves]
  | _, _, _, .panic _ => by simp [PT.Leaves]
  | _, _, _, .leaf h _ => by rw [PT.Leaves]; exact event_inRange h
  | _, _, _, .seq _ hs => by rw [PT.Leaves]; exact hs.inRange
  | _, _, _, .map _ hs => by rw [PT.Leaves]; exact hs.inRange

theorem PElems.inRange : ∀ {ac d xs e o} (_ : PElems ac d xs e o), PT.LeavesL Event.InRange xs
  | _, _, _, _, _, .close _ => by simp [PT.LeavesL]
  | _, _, _, _, _, .stop _ => by simp [PT.LeavesL]
  | _, _, _, _, _, .child _ hx hr => by rw [PT.LeavesL]; exact ⟨hx.inRange, hr.inRange⟩
  | _, _, _, _, _, .last _ hx => by simp only [PT.LeavesL, and_true]; exact hx.inRange

theorem PMembers.inRange : ∀ {ac d xs e o} (_ : PMembers ac d xs e o), PT.LeavesM Event.InRange xs
  | _, _, _, _, _, .close _ => by simp [PT.LeavesM]
  | _, _, _, _, _, .stop _ => by simp [PT.LeavesM]
  | _, _, _, _, _, .keyStop _ _ => by simp [PT.LeavesM]
  | _, _, _, _, _, .noColon _ _ => by simp [PT.LeavesM, PT.Leaves]
  | _, _, _, _, _, .child _ _ hx hr => by rw [PT.LeavesM]; exact ⟨hx.inRange, hr.inRange⟩
  | _, _, _, _, _, .last _ _ hx => by simp only [PT.LeavesM, and_true]; exact hx.inRange

end

section
variable {σ : Type} (P : Proto σ)

mutual

theorem drivePT_checkNum (v : P.V) : ∀ (t : PT) (w : σ), t.Leaves Event.InRange → drivePT P.checkNumbers v t w = drivePT P v t w
  | .leaf ev, w, h => by
    rw [PT.Leaves] at h
    simp only [drivePT]
    cases ev with
    | float x =>
      have h' : x.isFinite = true ∧ x.Valid binary64 := h
      simp only [leafCall, Proto.checkNumbers]
      rw [if_pos h']
    | nonnegative n =>
      have h' : n ≤ u64Max := h
      simp only [leafCall, Proto.checkNumbers]
      rw [if_pos h']
    | negative n =>
      have h' : i64Min ≤ n ∧ n ≤ 0 := h
      simp only [leafCall, Proto.checkNumbers]
      rw [if_pos h']
    | _ => rfl
  | .bad _, w, _ => by simp only [drivePT]
  | .seq xs e, w, h => by
    rw [PT.Leaves] at h
    simp only [drivePT]
    have : ∀ q w, driveElemsPT P.checkNumbers q xs e w = driveElemsPT P q xs e w := fun q w => driveElemsPT_checkNum q xs e w h
    simp only [this]
    generalize hx : P.seq v w = x
    have hx' : P.checkNumbers.seq v w = x := hx
    rw [hx']
    obtain ⟨r, w'⟩ := x
    cases r <;> rfl
  | .map xs e, w, h => by
    rw [PT.Leaves] at h
    simp only [drivePT]
    have : ∀ q w, driveMembersPT P.checkNumbers q xs e w = driveMembersPT P q xs e w := fun q w => driveMembersPT_checkNum q xs e w h
    simp only [this]
    generalize hx : P.map v w = x
    have hx' : P.checkNumbers.map v w = x := hx
    rw [hx']
    obtain ⟨r, w'⟩ := x
    cases r <;> rfl

theorem driveElemsPT_checkNum (q : P.Q) : ∀ (xs : List PT) (e : End) (w : σ), PT.LeavesL Event.InRange xs →
    driveElemsPT P.checkNumbers q xs e w = driveElemsPT P q xs e w
  | [], .closed, w, _ => by simp only [driveElemsPT]; rfl
  | [], .stop _, w, _ => by simp only [driveElemsPT]
  | x :: xs, e, w, h => by
    rw [PT.LeavesL] at h
    simp only [driveElemsPT]
    have h1 : ∀ v w, drivePT P.checkNumbers v x w = drivePT P v x w := fun v w => drivePT_checkNum v x w h.1
    have h2 : ∀ w, driveElemsPT P.checkNumbers q xs e w = driveElemsPT P q xs e w := fun w => driveElemsPT_checkNum q xs e w h.2
    simp only [h1, h2]
    generalize hx : P.element q w = x
    have hx' : P.checkNumbers.element q w = x := hx
    rw [hx']
    obtain ⟨r, w'⟩ := x
    cases r <;> rfl

theorem driveMembersPT_checkNum (q : P.M) : ∀ (xs : List (Bytes × PT)) (e : End) (w : σ), PT.LeavesM Event.InRange xs →
    driveMembersPT P.checkNumbers q xs e w = driveMembersPT P q xs e w
  | [], .closed, w, _ => by simp only [driveMembersPT]; rfl
  | [], .stop _, w, _ => by simp only [driveMembersPT]
  | (k, x) :: xs, e, w, h => by
    rw [PT.LeavesM] at h
    simp only [driveMembersPT]
    have h1 : ∀ v w, drivePT P.checkNumbers v x w = drivePT P v x w := fun v w => drivePT_checkNum v x w h.1
    have h2 : ∀ w, driveMembersPT P.checkNumbers q xs e w = driveMembersPT P q xs e w := fun w => driveMembersPT_checkNum q xs e w h.2
    simp only [h1, h2]
    generalize hx : P.key q k w = x
    have hx' : P.checkNumbers.key q k w = x := hx
    rw [hx']
    obtain ⟨r, w'⟩ := x
    cases r <;> rfl

end

theorem fromStrImpl_checkNum {s : Bytes} (v : P.V) (w : σ) (fuel : Nat) (hf : s.length < fuel) :
    fromStrImplFuel P.checkNumbers fuel s v w = fromStrImplFuel P fuel s v w := by
  obtain ⟨t, o, p⟩ := (parse_total (initDe s).rem).1 (initDe s) (Nat.le_refl _)
  rw [fromStrImpl_eq P p fuel hf v w, fromStrImpl_eq P.checkNumbers p fuel hf v w, drivePT_checkNum P v t w p.inRange]

end
end Miniserde
