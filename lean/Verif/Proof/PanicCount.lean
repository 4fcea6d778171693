import Verif.Spec.PanicCount
import Verif.Proof.Unwind
import Verif.Proof.SerUnwind
import Verif.Proof.Escape
import Verif.Spec.Ser

/-!
# No panic is swallowed
-/

namespace Miniserde
variable {σ : Type}

section de
variable {P : Proto σ} {bomb : Layer P → σ → Bool} {count : σ → Nat} (H : CountsPanics P bomb count)
include H

theorem unwindStack_count : ∀ (st : List (Frame P)) (w : σ), count w = 1 →
    count (unwindStack P bomb st w).2 = (unwindStack P bomb st w).1.panics
  | [], w, h => h
  | f :: st, w, h => by
    have hd := H.drop f.2 w
    rw [unwindStack]
    by_cases hb : bomb f.2 w = true
    · rw [if_pos hb]; rw [if_pos hb] at hd; simp only [UOut.panics]; omega
    · rw [if_neg hb]; rw [if_neg hb] at hd
      exact unwindStack_count st _ (by omega)

theorem dropVec_count : ∀ (st : List (Frame P)) (w : σ) (k : Nat), count w = 1 →
    count (dropVec P bomb st w).2 = (UOut.cleanup k (dropVec P bomb st w).1).panics
  | [], w, k, h => h
  | f :: st, w, k, h => by
    have hd := H.drop f.2 w
    rw [dropVec]
    by_cases hb : bomb f.2 w = true
    · rw [if_pos hb]; rw [if_pos hb] at hd; simp only [UOut.panics]; omega
    · rw [if_neg hb]; rw [if_neg hb] at hd
      exact dropVec_count st _ k (by omega)

theorem cleanStack_count : ∀ (st : List (Frame P)) (w : σ), count w = 0 →
    count (cleanStack P bomb st w).2 = (cleanStack P bomb st w).1.panics
  | [], w, h => h
  | f :: st, w, h => by
    have hd := H.drop f.2 w
    rw [cleanStack]
    by_cases hb : bomb f.2 w = true
    · rw [if_pos hb]; rw [if_pos hb] at hd
      exact dropVec_count H _ _ _ (by omega)
    · rw [if_neg hb]; rw [if_neg hb] at hd
      exact cleanStack_count st _ (by omega)

theorem leaveErr_count (l : Layer P) (st : List (Frame P)) (w : σ) (h : count w = 0) :
    count (leaveErr P bomb l st w).2 = (leaveErr P bomb l st w).1.panics := by
  have hd := H.drop l w
  rw [leaveErr]
  by_cases hb : bomb l w = true
  · rw [if_pos hb]; rw [if_pos hb] at hd
    exact unwindStack_count H st _ (by omega)
  · rw [if_neg hb]; rw [if_neg hb] at hd
    exact cleanStack_count H st _ (by omega)

theorem leavePanic_count (l : Layer P) (st : List (Frame P)) (w : σ) (h : count w = 1) :
    count (leavePanic P bomb l st w).2 = (leavePanic P bomb l st w).1.panics := by
  have hd := H.drop l w
  rw [leavePanic]
  by_cases hb : bomb l w = true
  · rw [if_pos hb]; rw [if_pos hb] at hd; simp only [UOut.panics]; omega
  · rw [if_neg hb]; rw [if_neg hb] at hd
    exact unwindStack_count H st _ (by omega)

theorem leaveLayer_count {α : Type} (r : Res α) (l : Layer P) (st : List (Frame P)) (w : σ) (h : count w = r.panics) :
    count (leaveLayer P bomb r l st w).2 = (leaveLayer P bomb r l st w).1.panics := by
  cases r with
  | panic => exact leavePanic_count H l st w h
  | err => exact leaveErr_count H l st w h
  | ok a => exact leaveErr_count H l st w h

theorem leaveStack_count {α : Type} (r : Res α) (st : List (Frame P)) (w : σ) (h : count w = r.panics) :
    count (leaveStack P bomb r st w).2 = (leaveStack P bomb r st w).1.panics := by
  cases r with
  | panic => exact unwindStack_count H st w h
  | err => exact cleanStack_count H st w h
  | ok a => exact cleanStack_count H st w h

omit H in
/-- Either the run goes on without a panic so far, or it has ended with the right number of panics. -/
def StepCount (count : σ → Nat) {α : Type} : Except (UOut × σ) (α × σ) → Prop
  | .ok (_, w) => count w = 0
  | .error (o, w) => count w = o.panics

theorem finishLayer_count (c : UInt8) (l : Layer P) (w : σ) : count (finishLayer P c l w).2 = count w + (finishLayer P c l w).1.panics := by
  cases l with
  | seq q =>
    simp only [finishLayer]
    split
    · exact H.seqFinish q w
    · rfl
  | map q =>
    simp only [finishLayer]
    split
    · exact H.mapFinish q w
    · rfl

theorem closeLoopU_count : ∀ (st : List (Frame P)) (d : De) (acc : Bool) (v : P.V) (l : Layer P) (w : σ), count w = 0 →
    StepCount count (closeLoopU P bomb d acc v l st w) := by
  intro st
  induction st with
  | nil =>
    intro d acc v l w h
    unfold closeLoopU
    simp only
    split
    · exact h
    split
    · have hf := finishLayer_count H (d.parseWhitespace.1.getD 0) l w
      rcases hh : finishLayer P (d.parseWhitespace.1.getD 0) l w with ⟨r, w1⟩
      rw [hh, h, Nat.zero_add] at hf
      cases r with
      | ok u =>
        simp only [Res.panics] at hf ⊢
        have hd := H.drop l w1
        by_cases hb : bomb l w1 = true
        · rw [if_pos hb]; rw [if_pos hb] at hd; simp only [StepCount, UOut.panics]; omega
        · rw [if_neg hb]; rw [if_neg hb] at hd; simp only [StepCount]; omega
      | err => exact leaveLayer_count H .err l [] w1 hf
      | panic => exact leaveLayer_count H .panic l [] w1 hf
    split
    · exact leaveErr_count H l [] w h
    · exact h
  | cons f st ih =>
    intro d acc v l w h
    unfold closeLoopU
    simp only
    split
    · exact h
    split
    · have hf := finishLayer_count H (d.parseWhitespace.1.getD 0) l w
      rcases hh : finishLayer P (d.parseWhitespace.1.getD 0) l w with ⟨r, w1⟩
      rw [hh, h, Nat.zero_add] at hf
      cases r with
      | ok u =>
        simp only [Res.panics] at hf ⊢
        have hd := H.drop l w1
        by_cases hb : bomb l w1 = true
        · rw [if_pos hb]; rw [if_pos hb] at hd
          exact leavePanic_count H f.2 st _ (by omega)
        · rw [if_neg hb]; rw [if_neg hb] at hd
          exact ih _ _ _ _ _ (by omega)
      | err => exact leaveLayer_count H .err l (f :: st) w1 hf
      | panic => exact leaveLayer_count H .panic l (f :: st) w1 hf
    split
    · exact leaveErr_count H l (f :: st) w h
    · exact h

theorem openChildU_count (d : De) (v : P.V) (l : Layer P) (st : List (Frame P)) (w : σ) (h : count w = 0) :
    StepCount count (openChildU P bomb d v l st w) := by
  cases l with
  | seq q =>
    simp only [openChildU]
    have he := H.element q w
    rcases hh : P.element q w with ⟨r, w1⟩
    rw [hh, h, Nat.zero_add] at he
    cases r with
    | ok v' => exact he
    | err => exact leaveLayer_count H .err _ _ _ he
    | panic => exact leaveLayer_count H .panic _ _ _ he
  | map m =>
    simp only [openChildU]
    split
    · rcases (d.parseWhitespace.2.bump).parseStr_spec with ⟨e, -⟩ | ⟨body, k, d', e, -⟩
      · rw [e]; exact leaveLayer_count H (.err : Res (Bytes × De)) _ _ _ h
      · rw [e]
        simp only
        have he := H.key m k w
        rcases hh : P.key m k w with ⟨r, w1⟩
        rw [hh, h, Nat.zero_add] at he
        cases r with
        | ok v' =>
          simp only
          split
          · exact he
          · exact leaveErr_count H _ _ _ he
        | err => exact leaveLayer_count H .err _ _ _ he
        | panic => exact leaveLayer_count H .panic _ _ _ he
    · exact leaveErr_count H _ _ _ h

omit H in
theorem map_panics {α β : Type} (r : Res α) (f : α → β) : (r.map f).panics = r.panics := by cases r <;> rfl

theorem visitEvent_count (v : P.V) (ev : Event) (w : σ) : count (visitEvent P v ev w).2 = count w + (visitEvent P v ev w).1.panics := by
  cases ev <;> simp only [visitEvent, map_panics]
  · exact H.null v w
  · exact H.boolean v _ w
  · exact H.string v _ w
  · exact H.negative v _ w
  · exact H.nonnegative v _ w
  · exact H.float v _ w
  · exact H.seq v w
  · exact H.map v w

theorem nextLayerU_count (d : De) (v : P.V) (l : Option (Layer P)) (st : List (Frame P)) (w : σ) (h : count w = 0) :
    StepCount count (nextLayerU P bomb d v l st w) := by
  cases l with
  | some l => exact closeLoopU_count H st d false v l w h
  | none =>
    cases st with
    | nil => exact h
    | cons f st => exact closeLoopU_count H st d true f.1 f.2 w h

omit H in
theorem event_calm {d : De} (hr : d.rem < 2147483648) : d.event ≠ .panic := by
  intro h
  rcases De.event_spec d with hb | ⟨_, _, _, _, he, _⟩
  · rcases hb with hb | ⟨-, hb⟩
    · rw [h] at hb; cases hb
    · omega
  · rw [h] at he; simp at he

theorem outerLoopU_count : ∀ (fuel : Nat) (d : De) (v : P.V) (st : List (Frame P)) (w : σ), d.rem < 2147483648 → count w = 0 →
    ∀ o w', outerLoopU P bomb fuel d v st w = some (o, w') → count w' = o.panics
  | 0, _, _, _, _, _, _, _, _, e => by cases e
  | fuel + 1, d, v, st, w, hr, h, o, w', e => by
    unfold outerLoopU at e
    cases he : d.event with
    | err =>
      rw [he] at e
      have := leaveStack_count H (.err : Res (Event × De)) st w h
      rw [Option.some.inj e] at this
      exact this
    | panic => exact absurd he (event_calm hr)
    | ok evd =>
      obtain ⟨ev, d1⟩ := evd
      have hr1 := event_rem he
      rw [he] at e
      simp only at e
      have hv := visitEvent_count H v ev w
      rcases hh : visitEvent P v ev w with ⟨r, w1⟩
      rw [hh, h, Nat.zero_add] at hv
      rw [hh] at e
      cases r with
      | err =>
        have := leaveStack_count H (.err : Res (Option (Layer P))) st w1 hv
        rw [Option.some.inj e] at this
        exact this
      | panic =>
        have := leaveStack_count H (.panic : Res (Option (Layer P))) st w1 hv
        rw [Option.some.inj e] at this
        exact this
      | ok l =>
        simp only [Res.panics] at hv e
        have hn := nextLayerU_count H d1 v l st w1 hv
        cases hx : nextLayerU P bomb d1 v l st w1 with
        | error x => rw [hx] at e hn; cases e; exact hn
        | ok x =>
          obtain ⟨x, w2⟩ := x
          rw [hx] at e hn
          cases x with
          | done d2 =>
            simp only [Option.some.injEq, Prod.mk.injEq] at e
            obtain ⟨rfl, rfl⟩ := e
            have hn' : count w2 = 0 := hn
            rw [hn']
            cases trailing d2 <;> rfl
          | child d2 v2 l2 st2 =>
            have := next_rem hx
            simp only at e
            have ho := openChildU_count H d2 v2 l2 st2 w2 hn
            cases hy : openChildU P bomb d2 v2 l2 st2 w2 with
            | error x => rw [hy] at e ho; cases e; exact ho
            | ok y =>
              obtain ⟨⟨d3, v3, st3⟩, w3⟩ := y
              have := open_rem hy
              rw [hy] at e ho
              exact outerLoopU_count fuel d3 v3 st3 w3 (by omega) ho o w' e

end de

section ser
variable {P : SProto σ} {bomb : SLayer P → σ → Bool} {count : σ → Nat} {ryu : F64 → Bytes} (H : CountsPanicsS P bomb count) (U : P.Utf8)

/-- The number of panics fits the state of the run. -/
def ExitCount (count : σ → Nat) : SUExit P → Prop
  | .running st => count st.w = 0 ∧ ∀ x, st.frag = .str x → ValidUtf8 x
  | .finished o w => count w = o.panics

include H

theorem unwindLayers_count : ∀ (st : List (SLayer P)) (w : σ), count w = 1 →
    count (unwindLayers bomb st w).2 = (unwindLayers bomb st w).1.panics
  | [], w, h => h
  | l :: st, w, h => by
    have hd := H.drop l w
    rw [unwindLayers]
    by_cases hb : bomb l w = true
    · rw [if_pos hb]; rw [if_pos hb] at hd; simp only [SUOut.panics]; omega
    · rw [if_neg hb]; rw [if_neg hb] at hd
      exact unwindLayers_count st _ (by omega)

include U

theorem beginU_count (out : Bytes) (st : List (SLayer P)) (s : P.S) (w : σ) (h : count w = 0) : ExitCount count (beginU bomb out st s w) := by
  have hb := H.begin s w
  unfold beginU
  rcases hh : P.begin s w with ⟨r, w1⟩
  rw [hh, h] at hb
  cases r with
  | none => exact unwindLayers_count H st w1 (by simpa using hb)
  | some f => exact ⟨by simpa using hb, fun x hx => U.str s w x w1 (by rw [hh]; simp only at hx; rw [hx])⟩

theorem advanceU_count : ∀ (st : List (SLayer P)) (out : Bytes) (w : σ), count w = 0 → ExitCount count (advanceU bomb out st w)
  | [], _, _, h => h
  | .seq q :: st, out, w, h => by
    have hn := H.seqNext q w
    rw [advanceU]
    rcases hh : P.seqNext q w with ⟨r, w1⟩
    rw [hh, h] at hn
    match r with
    | none => exact unwindLayers_count H (.seq q :: st) w1 (by simpa using hn)
    | some none =>
      simp only
      have hd := H.drop (.seq q) w1
      simp at hn
      by_cases hb : bomb (.seq q) w1 = true
      · rw [if_pos hb]; rw [if_pos hb, hn] at hd
        exact unwindLayers_count H st _ hd
      · rw [if_neg hb]; rw [if_neg hb, hn] at hd
        exact advanceU_count st _ _ hd
    | some (some s) => exact beginU_count H U _ _ _ _ (by simpa using hn)
  | .map q :: st, out, w, h => by
    have hn := H.mapNext q w
    rw [advanceU]
    rcases hh : P.mapNext q w with ⟨r, w1⟩
    rw [h, hh] at hn
    match r, hh with
    | none, _ => exact unwindLayers_count H (.map q :: st) w1 (by simpa using hn)
    | some none, _ =>
      simp only
      have hd := H.drop (.map q) w1
      simp at hn
      by_cases hb : bomb (.map q) w1 = true
      · rw [if_pos hb]; rw [if_pos hb, hn] at hd
        exact unwindLayers_count H st _ hd
      · rw [if_neg hb]; rw [if_neg hb, hn] at hd
        exact advanceU_count st _ _ hd
    | some (some (k, s)), hh =>
      simp only [escapeStr_eq (U.key q w k s w1 hh)]
      exact beginU_count H U _ _ _ _ (by simpa using hn)

theorem stepU_count (st : SSt P) (h : ExitCount count (.running st)) : ExitCount count (stepU bomb ryu st) := by
  obtain ⟨out, st, f, w⟩ := st
  obtain ⟨h, hs⟩ := h
  simp only at h hs
  cases f with
  | null => exact advanceU_count H U _ _ _ h
  | bool b => exact advanceU_count H U _ _ _ h
  | u64 n => exact advanceU_count H U _ _ _ h
  | i64 n => exact advanceU_count H U _ _ _ h
  | f64 n => exact advanceU_count H U _ _ _ h
  | str s =>
    simp only [stepU, escapeStr_eq (hs s rfl)]
    exact advanceU_count H U _ _ _ h
  | seq q =>
    have hn := H.seqNext q w
    simp only [stepU]
    rcases hh : P.seqNext q w with ⟨r, w1⟩
    rw [hh, h] at hn
    match r with
    | none => exact unwindLayers_count H (.seq q :: st) w1 (by simpa using hn)
    | some none =>
      simp only
      have hd := H.drop (.seq q) w1
      simp at hn
      by_cases hb : bomb (.seq q) w1 = true
      · rw [if_pos hb]; rw [if_pos hb, hn] at hd
        exact unwindLayers_count H st _ hd
      · rw [if_neg hb]; rw [if_neg hb, hn] at hd
        exact advanceU_count H U st _ _ hd
    | some (some s) => exact beginU_count H U _ _ _ _ (by simpa using hn)
  | map q =>
    have hn := H.mapNext q w
    simp only [stepU]
    rcases hh : P.mapNext q w with ⟨r, w1⟩
    rw [h, hh] at hn
    match r, hh with
    | none, _ => exact unwindLayers_count H (.map q :: st) w1 (by simpa using hn)
    | some none, _ =>
      simp only
      have hd := H.drop (.map q) w1
      simp at hn
      by_cases hb : bomb (.map q) w1 = true
      · rw [if_pos hb]; rw [if_pos hb, hn] at hd
        exact unwindLayers_count H st _ hd
      · rw [if_neg hb]; rw [if_neg hb, hn] at hd
        exact advanceU_count H U st _ _ hd
    | some (some (k, s)), hh =>
      simp only [escapeStr_eq (U.key q w k s w1 hh)]
      exact beginU_count H U _ _ _ _ (by simpa using hn)

theorem runU_count : ∀ (n : Nat) (x : SUExit P), ExitCount count x → ExitCount count (runU bomb ryu n x)
  | 0, _, h => h
  | n + 1, .running st, h => runU_count n _ (stepU_count H U st h)
  | _ + 1, .finished _ _, h => h

end ser
end Miniserde
