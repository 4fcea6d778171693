import Verif.Spec.Cost
import Verif.Spec.Traversal

/-!
# The counters after the traversal of a tree
-/

namespace Miniserde
variable {σ : Type} (P : Proto σ)

/-- The counters after `n` calls with `b` bytes, never more than `k` builders besides those alive before. -/
def Meter.after (μ : Meter) (n b k : Nat) : Meter := ⟨μ.calls + n, μ.bytes + b, μ.live, max μ.peak (μ.live + k)⟩

/-- Did the traversal stay within `k` builders, and end with the counters predicted if it succeeded? -/
def MeterOk (μ : Meter) (r : Res Unit) (μ' : Meter) (n b k : Nat) : Prop :=
  μ'.live = μ.live ∧ μ'.peak ≤ max μ.peak (μ.live + k) ∧ (r = .ok () → μ' = μ.after n b k)

theorem driveNum_meter (v : P.V) (l : NumLit) (w : σ) (μ : Meter) (hp : μ.live ≤ μ.peak) :
    MeterOk μ (driveNum P.metered v l (w, μ)).1 (driveNum P.metered v l (w, μ)).2.2 1 0 0 := by
  unfold driveNum
  split <;> simp [MeterOk, Proto.metered, Meter.call, Meter.after] <;> omega

mutual

theorem drive_meter (v : P.V) : ∀ (j : Json) (w : σ) (μ : Meter), μ.live ≤ μ.peak →
    MeterOk μ (drive P.metered v j (w, μ)).1 (drive P.metered v j (w, μ)).2.2 j.calls j.strBytes j.nest
  | .null, w, μ, hp => by simp [drive, MeterOk, Proto.metered, Meter.call, Meter.after, Json.calls, Json.strBytes, Json.nest]; omega
  | .bool b, w, μ, hp => by simp [drive, MeterOk, Proto.metered, Meter.call, Meter.after, Json.calls, Json.strBytes, Json.nest]; omega
  | .num l, w, μ, hp => by simpa only [drive, Json.calls, Json.strBytes, Json.nest] using driveNum_meter P v l w μ hp
  | .str s, w, μ, hp => by simp [drive, MeterOk, Proto.metered, Meter.call, Meter.after, Json.calls, Json.strBytes, Json.nest]; omega
  | .arr xs, w, μ, hp => by
    simp only [drive, Json.calls, Json.strBytes, Json.nest]
    rcases h : P.metered.seq v (w, μ) with ⟨r, w1, μ1⟩
    have h1 : r = (P.seq v w).1 := (congrArg Prod.fst h).symm
    have h2 : μ1 = μ.opens (P.seq v w).1 := (congrArg (fun z => z.2.2) h).symm
    rw [← h1] at h2
    rcases r with q | _ | _
    · have ih := elems_meter q xs w1 μ1 (by subst h2; simp [Meter.opens, Meter.call]; omega)
      obtain ⟨i1, i2, i3⟩ := ih
      have hd : ∀ (u : σ × Meter), (P.metered.dropSeq q u).2 = u.2.drops := fun _ => rfl
      subst h2
      simp only [Meter.opens, Meter.call] at i1 i2 i3
      refine ⟨?_, ?_, fun e => ?_⟩
      · show (P.metered.dropSeq q _).2.live = _
        rw [hd]; simp only [Meter.drops, Meter.opens, Meter.call]; omega
      · show (P.metered.dropSeq q _).2.peak ≤ _
        rw [hd]; simp only [Meter.drops, Meter.opens, Meter.call]; omega
      · show (P.metered.dropSeq q _).2 = _
        rw [hd]
        simp only [Meter.opens, Meter.call] at e ⊢
        rw [i3 e]; simp only [Meter.drops, Meter.after, Meter.mk.injEq]; omega
    all_goals
      subst h2
      simp [MeterOk, Meter.opens, Meter.call]; omega
  | .obj ms, w, μ, hp => by
    simp only [drive, Json.calls, Json.strBytes, Json.nest]
    rcases h : P.metered.map v (w, μ) with ⟨r, w1, μ1⟩
    have h1 : r = (P.map v w).1 := (congrArg Prod.fst h).symm
    have h2 : μ1 = μ.opens (P.map v w).1 := (congrArg (fun z => z.2.2) h).symm
    rw [← h1] at h2
    rcases r with q | _ | _
    · have ih := members_meter q ms w1 μ1 (by subst h2; simp [Meter.opens, Meter.call]; omega)
      obtain ⟨i1, i2, i3⟩ := ih
      have hd : ∀ (u : σ × Meter), (P.metered.dropMap q u).2 = u.2.drops := fun _ => rfl
      subst h2
      simp only [Meter.opens, Meter.call] at i1 i2 i3
      refine ⟨?_, ?_, fun e => ?_⟩
      · show (P.metered.dropMap q _).2.live = _
        rw [hd]; simp only [Meter.drops, Meter.opens, Meter.call]; omega
      · show (P.metered.dropMap q _).2.peak ≤ _
        rw [hd]; simp only [Meter.drops, Meter.opens, Meter.call]; omega
      · show (P.metered.dropMap q _).2 = _
        rw [hd]
        simp only [Meter.opens, Meter.call] at e ⊢
        rw [i3 e]; simp only [Meter.drops, Meter.after, Meter.mk.injEq]; omega
    all_goals
      subst h2
      simp [MeterOk, Meter.opens, Meter.call]; omega

theorem elems_meter (q : P.Q) : ∀ (xs : List Json) (w : σ) (μ : Meter), μ.live ≤ μ.peak →
    MeterOk μ (driveElems P.metered q xs (w, μ)).1 (driveElems P.metered q xs (w, μ)).2.2 (Json.callsAll xs + 1) (Json.strBytesAll xs) (Json.nestAll xs)
  | [], w, μ, hp => by simp [driveElems, MeterOk, Proto.metered, Meter.call, Meter.after, Json.callsAll, Json.strBytesAll, Json.nestAll]; omega
  | x :: xs, w, μ, hp => by
    simp only [driveElems, Json.callsAll, Json.strBytesAll, Json.nestAll]
    rcases h : P.metered.element q (w, μ) with ⟨r, w1, μ1⟩
    have h2 : μ1 = μ.call 0 := (congrArg (fun z => z.2.2) h).symm
    subst h2
    rcases r with v | _ | _
    · have ih := drive_meter v x w1 (μ.call 0) hp
      simp only
      generalize drive P.metered v x (w1, μ.call 0) = y at ih ⊢
      obtain ⟨r2, w2, μ2⟩ := y
      obtain ⟨i1, i2, i3⟩ := ih
      simp only [Meter.call] at i1 i2
      rcases r2 with u | _ | _
      · have e : μ2 = (μ.call 0).after x.calls x.strBytes x.nest := i3 rfl
        subst e
        have ih2 := elems_meter q xs w2 ((μ.call 0).after x.calls x.strBytes x.nest) (by simp only [Meter.after, Meter.call]; omega)
        obtain ⟨k1, k2, k3⟩ := ih2
        simp only [Meter.after, Meter.call] at k1 k2 k3 ⊢
        refine ⟨k1, by omega, fun e => (k3 e).trans ?_⟩
        simp only [Meter.after, Meter.call, Meter.mk.injEq]; exact ⟨by omega, by omega, trivial, by omega⟩
      all_goals exact ⟨i1, by simp only at i2 ⊢; omega, fun e => by cases e⟩
    all_goals
      simp [MeterOk, Meter.call]; omega

theorem members_meter (q : P.M) : ∀ (xs : List (Bytes × Json)) (w : σ) (μ : Meter), μ.live ≤ μ.peak →
    MeterOk μ (driveMembers P.metered q xs (w, μ)).1 (driveMembers P.metered q xs (w, μ)).2.2 (Json.callsMembers xs + 1) (Json.strBytesMembers xs)
      (Json.nestMembers xs)
  | [], w, μ, hp => by simp [driveMembers, MeterOk, Proto.metered, Meter.call, Meter.after, Json.callsMembers, Json.strBytesMembers, Json.nestMembers]; omega
  | (k, x) :: xs, w, μ, hp => by
    simp only [driveMembers, Json.callsMembers, Json.strBytesMembers, Json.nestMembers]
    rcases h : P.metered.key q k (w, μ) with ⟨r, w1, μ1⟩
    have h2 : μ1 = μ.call k.length := (congrArg (fun z => z.2.2) h).symm
    subst h2
    rcases r with v | _ | _
    · have ih := drive_meter v x w1 (μ.call k.length) hp
      simp only
      generalize drive P.metered v x (w1, μ.call k.length) = y at ih ⊢
      obtain ⟨r2, w2, μ2⟩ := y
      obtain ⟨i1, i2, i3⟩ := ih
      simp only [Meter.call] at i1 i2
      rcases r2 with u | _ | _
      · have e : μ2 = (μ.call k.length).after x.calls x.strBytes x.nest := i3 rfl
        subst e
        have ih2 := members_meter q xs w2 ((μ.call k.length).after x.calls x.strBytes x.nest) (by simp only [Meter.after, Meter.call]; omega)
        obtain ⟨k1, k2, k3⟩ := ih2
        simp only [Meter.after, Meter.call] at k1 k2 k3 ⊢
        refine ⟨k1, by omega, fun e => (k3 e).trans ?_⟩
        simp only [Meter.after, Meter.call, Meter.mk.injEq]; exact ⟨by omega, by omega, trivial, by omega⟩
      all_goals exact ⟨i1, by simp only at i2 ⊢; omega, fun e => by cases e⟩
    all_goals
      simp [MeterOk, Meter.call]; omega

end

end Miniserde
