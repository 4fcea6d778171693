import Verif.Proof.Sound

/-!
# The driver traverses the partial tree
-/

namespace Miniserde
open De
section
variable {σ : Type} (P : Proto σ)

/-- The part of `outerLoop` after the inner loop. -/
def resume (fuel : Nat) (next : Res (LoopExit P) × σ) : Option (Res Unit × σ) :=
  match next with
  | (.ok (.child d visitor layer stack), w) =>
    match openChild P d visitor layer stack w with
    | (.ok (d, visitor, stack), w) => outerLoop P fuel d visitor stack w
    | (r, w) => some (r.fail, w)
  | (.ok (.done d), w) => some (trailing d, w)
  | (r, w) => some (r.fail, w)

/-- What happens after a value has been read completely. -/
def after (d : De) (stack : List (Frame P)) (w : σ) : Res (LoopExit P) × σ :=
  match stack with
  | frame :: stack => closeLoop P d true frame.1 frame.2 stack w
  | [] => (.ok (.done d), w)

theorem outerLoop_err {fuel : Nat} {d : De} {v : P.V} {st : List (Frame P)} {w : σ} (h : d.event = .err) :
    outerLoop P (fuel + 1) d v st w = some (.err, dropStack st w) := by
  simp [outerLoop, h]

theorem outerLoop_panic {fuel : Nat} {d : De} {v : P.V} {st : List (Frame P)} {w : σ} (h : d.event = .panic) :
    outerLoop P (fuel + 1) d v st w = some (.panic, dropStack st w) := by
  simp [outerLoop, h]

theorem outerLoop_leaf {fuel : Nat} {d d' : De} {ev : Event} {v : P.V} {st : List (Frame P)} {w : σ}
    (h : d.event = .ok (ev, d')) (hl : ev.isLeaf = true) :
    outerLoop P (fuel + 1) d v st w =
      match leafCall P v ev w with
      | (.ok _, w) => resume P fuel (after P d' st w)
      | (.err, w) => some (.err, dropStack st w)
      | (.panic, w) => some (.panic, dropStack st w) := by
  rw [outerLoop, h]
  simp only
  have fin : ∀ (x : Res Unit × σ), visitEvent P v ev w = (x.1.map fun _ => none, x.2) → leafCall P v ev w = x →
      (match visitEvent P v ev w with
      | (.ok layer?, w) =>
        let next : Res (LoopExit P) × σ :=
          match layer? with
          | some layer => closeLoop P d' false v layer st w
          | none =>
            match st with
            | frame :: stack => closeLoop P d' true frame.1 frame.2 stack w
            | [] => (.ok (.done d'), w)
        match next with
        | (.ok (.child d visitor layer stack), w) =>
          match openChild P d visitor layer stack w with
          | (.ok (d, visitor, stack), w) => outerLoop P fuel d visitor stack w
          | (r, w) => some (r.fail, w)
        | (.ok (.done d), w) => some (trailing d, w)
        | (r, w) => some (r.fail, w)
      | (r, w) => some (r.fail, dropStack st w)) =
      match leafCall P v ev w with
      | (.ok _, w) => resume P fuel (after P d' st w)
      | (.err, w) => some (.err, dropStack st w)
      | (.panic, w) => some (.panic, dropStack st w) := by
    rintro ⟨x, w'⟩ hx hx'
    rw [hx, hx']
    cases x with
    | ok u => cases st <;> rfl
    | err => rfl
    | panic => rfl
  cases ev <;> first | exact fin _ rfl rfl | cases hl

theorem outerLoop_seq {fuel : Nat} {d d' : De} {v : P.V} {st : List (Frame P)} {w : σ}
    (h : d.event = .ok (.seqStart, d')) :
    outerLoop P (fuel + 1) d v st w =
      match P.seq v w with
      | (.ok q, w) => resume P fuel (closeLoop P d' false v (.seq q) st w)
      | (.err, w) => some (.err, dropStack st w)
      | (.panic, w) => some (.panic, dropStack st w) := by
  rw [outerLoop, h]
  simp only [visitEvent]
  rcases hq : P.seq v w with ⟨q, w'⟩
  cases q <;> rfl

theorem outerLoop_map {fuel : Nat} {d d' : De} {v : P.V} {st : List (Frame P)} {w : σ}
    (h : d.event = .ok (.mapStart, d')) :
    outerLoop P (fuel + 1) d v st w =
      match P.map v w with
      | (.ok m, w) => resume P fuel (closeLoop P d' false v (.map m) st w)
      | (.err, w) => some (.err, dropStack st w)
      | (.panic, w) => some (.panic, dropStack st w) := by
  rw [outerLoop, h]
  simp only [visitEvent]
  rcases hq : P.map v w with ⟨q, w'⟩
  cases q <;> rfl

/-- Resume after a traversal with result `r` that ended at `o`. -/
def finishWith (fuel : Nat) (stack : List (Frame P)) (o : Option De) (r : Res Unit × σ) : Option (Res Unit × σ) :=
  match r with
  | (.ok _, w) =>
    match o with
    | some d' => resume P fuel (after P d' stack w)
    | none => none
  | (.err, w) => some (.err, dropStack stack w)
  | (.panic, w) => some (.panic, dropStack stack w)

/-! ### The inner loop -/

theorem closeLoop_seq_close {ac : Bool} {d d' : De} {v : P.V} {q : P.Q} {st : List (Frame P)} {w : σ}
    (h : sepStep 0x5D ac d = .close d') :
    closeLoop P d ac v (.seq q) st w =
      match P.seqFinish q w with
      | (.ok _, w) => after P d' st (P.dropSeq q w)
      | (.err, w) => (.err, dropStack st (P.dropSeq q w))
      | (.panic, w) => (.panic, dropStack st (P.dropSeq q w)) := by
  unfold sepStep at h
  unfold closeLoop
  rcases hp : d.parseWhitespace with ⟨p, d1⟩
  rw [hp] at h
  simp only at h ⊢
  split at h
  · cases h
  · rename_i h1
    rw [if_neg h1]
    split at h
    · rename_i h2
      rw [if_pos h2]
      split at h
      · rename_i h3
        simp only [Sep.close.injEq] at h
        subst h
        simp only [finishLayer, if_pos h3]
        rcases P.seqFinish q w with ⟨r, w'⟩
        cases r with
        | ok _ => cases st <;> rfl
        | err => rfl
        | panic => rfl
      · cases h
    · split at h <;> cases h

theorem closeLoop_map_close {ac : Bool} {d d' : De} {v : P.V} {m : P.M} {st : List (Frame P)} {w : σ}
    (h : sepStep 0x7D ac d = .close d') :
    closeLoop P d ac v (.map m) st w =
      match P.mapFinish m w with
      | (.ok _, w) => after P d' st (P.dropMap m w)
      | (.err, w) => (.err, dropStack st (P.dropMap m w))
      | (.panic, w) => (.panic, dropStack st (P.dropMap m w)) := by
  unfold sepStep at h
  unfold closeLoop
  rcases hp : d.parseWhitespace with ⟨p, d1⟩
  rw [hp] at h
  simp only at h ⊢
  split at h
  · cases h
  · rename_i h1
    rw [if_neg h1]
    split at h
    · rename_i h2
      rw [if_pos h2]
      split at h
      · rename_i h3
        simp only [Sep.close.injEq] at h
        subst h
        simp only [finishLayer, if_pos h3]
        rcases P.mapFinish m w with ⟨r, w'⟩
        cases r with
        | ok _ => cases st <;> rfl
        | err => rfl
        | panic => rfl
      · cases h
    · split at h <;> cases h

/-- The closing bracket of a layer. -/
def Layer.closer : Layer P → UInt8
  | .seq _ => 0x5D
  | .map _ => 0x7D

theorem closeLoop_stop {ac : Bool} {d : De} {v : P.V} {layer : Layer P} {st : List (Frame P)} {w : σ}
    (h : sepStep (Layer.closer P layer) ac d = .stop) :
    closeLoop P d ac v layer st w = (.err, dropStack st (layer.drop w)) := by
  unfold sepStep at h
  unfold closeLoop
  rcases hp : d.parseWhitespace with ⟨p, d1⟩
  rw [hp] at h
  simp only at h ⊢
  split at h
  · cases h
  · rename_i h1
    rw [if_neg h1]
    split at h
    · rename_i h2
      rw [if_pos h2]
      split at h
      · cases h
      · rename_i h3
        cases layer <;> simp only [Layer.closer] at h3 <;> simp [finishLayer, h3]
    · rename_i h2
      rw [if_neg h2]
      split at h
      · rename_i hac; rw [if_pos hac]
      · cases h

theorem closeLoop_child {ac : Bool} {d d' : De} {v : P.V} {layer : Layer P} {st : List (Frame P)} {w : σ}
    {close : UInt8} (h : sepStep close ac d = .child d') :
    closeLoop P d ac v layer st w = (.ok (.child d' v layer st), w) := by
  unfold sepStep at h
  unfold closeLoop
  rcases hp : d.parseWhitespace with ⟨p, d1⟩
  rw [hp] at h
  simp only at h ⊢
  split at h
  · rename_i h1
    rw [if_pos h1]
    simp only [Sep.child.injEq] at h
    rw [h]
  · rename_i h1
    rw [if_neg h1]
    split at h
    · split at h <;> cases h
    · rename_i h2
      rw [if_neg h2]
      split at h
      · cases h
      · rename_i hac
        rw [if_neg hac]
        simp only [Sep.child.injEq] at h
        rw [h]

theorem openChild_map {d : De} {v : P.V} {m : P.M} {st : List (Frame P)} {w : σ} :
    openChild P d v (.map m) st w =
      match keyStep d with
      | .stop p => (failure p, dropStack st (P.dropMap m w))
      | .noColon k =>
        match P.key m k w with
        | (.ok _, w) => (.err, dropStack st (P.dropMap m w))
        | (r, w) => (r.fail, dropStack st (P.dropMap m w))
      | .key k d =>
        match P.key m k w with
        | (.ok v', w) => (.ok (d, v', (v, .map m) :: st), w)
        | (r, w) => (r.fail, dropStack st (P.dropMap m w)) := by
  unfold keyStep openChild
  rcases d.parseWhitespace with ⟨p, d1⟩
  simp only
  split
  · rename_i hp
    cases d1.bump.parseStr with
    | ok r =>
      obtain ⟨k, d2⟩ := r
      simp only
      rcases d2.parseWhitespace with ⟨p2, d3⟩
      simp only
      rcases hk : P.key m k w with ⟨r, w'⟩
      by_cases h : p2 = some b(':')
      · simp only [h, if_true, hk]
        cases r <;> simp
      · simp only [h, if_false, hk]
        cases r <;> simp
    | err => rfl
    | panic => rfl
  · rfl

/-! ### An unfinished tree never succeeds -/

mutual

theorem PVal.none_not_ok (v : P.V) : ∀ {d t o} (_ : PVal d t o) (w : σ), o = none → (drivePT P v t w).1 ≠ .ok ()
  | _, _, _, .err _, w, _ => by simp [drivePT, failure]
  | _, _, _, .panic _, w, _ => by simp [drivePT, failure]
  | _, _, _, .leaf _ _, w, h => by cases h
  | _, _, _, .seq _ hs, w, h => by
    rw [drivePT]
    rcases P.seq v w with ⟨q, w'⟩
    cases q with
    | ok q => exact hs.none_not_ok q w' h
    | err => simp
    | panic => simp
  | _, _, _, .map _ hs, w, h => by
    rw [drivePT]
    rcases P.map v w with ⟨q, w'⟩
    cases q with
    | ok q => exact hs.none_not_ok q w' h
    | err => simp
    | panic => simp

theorem PElems.none_not_ok (q : P.Q) : ∀ {ac d xs e o} (_ : PElems ac d xs e o) (w : σ), o = none →
    (driveElemsPT P q xs e w).1 ≠ .ok ()
  | _, _, _, _, _, .close _, _, h => by cases h
  | _, _, _, _, _, .stop _, w, _ => by simp [driveElemsPT, failure]
  | _, _, _, _, _, .child (x := x) _ _ hr, w, h => by
    rw [driveElemsPT]
    rcases P.element q w with ⟨v, w1⟩
    cases v with
    | ok v =>
      simp only
      rcases drivePT P v x w1 with ⟨r, w2⟩
      cases r with
      | ok _ => exact hr.none_not_ok q w2 h
      | err => simp
      | panic => simp
    | err => simp
    | panic => simp
  | _, _, _, _, _, .last (x := x) _ hx, w, _ => by
    rw [driveElemsPT]
    rcases P.element q w with ⟨v, w1⟩
    cases v with
    | ok v =>
      simp only
      have := hx.none_not_ok v w1 rfl
      rcases hh : drivePT P v x w1 with ⟨r, w2⟩
      rw [hh] at this
      cases r with
      | ok _ => exact absurd rfl this
      | err => simp
      | panic => simp
    | err => simp
    | panic => simp

theorem PMembers.none_not_ok (m : P.M) : ∀ {ac d xs e o} (_ : PMembers ac d xs e o) (w : σ), o = none →
    (driveMembersPT P m xs e w).1 ≠ .ok ()
  | _, _, _, _, _, .close _, _, h => by cases h
  | _, _, _, _, _, .stop _, w, _ => by simp [driveMembersPT, failure]
  | _, _, _, _, _, .keyStop (p := p) _ _, w, _ => by cases p <;> simp [driveMembersPT, failure]
  | _, _, _, _, _, .noColon (k := k) _ _, w, _ => by
    rw [driveMembersPT]
    rcases P.key m k w with ⟨v, w1⟩
    cases v <;> simp [drivePT, failure]
  | _, _, _, _, _, .child (k := k) (x := x) _ _ _ hr, w, h => by
    rw [driveMembersPT]
    rcases P.key m k w with ⟨v, w1⟩
    cases v with
    | ok v =>
      simp only
      rcases drivePT P v x w1 with ⟨r, w2⟩
      cases r with
      | ok _ => exact hr.none_not_ok m w2 h
      | err => simp
      | panic => simp
    | err => simp
    | panic => simp
  | _, _, _, _, _, .last (k := k) (x := x) _ _ hx, w, _ => by
    rw [driveMembersPT]
    rcases P.key m k w with ⟨v, w1⟩
    cases v with
    | ok v =>
      simp only
      have := hx.none_not_ok v w1 rfl
      rcases hh : drivePT P v x w1 with ⟨r, w2⟩
      rw [hh] at this
      cases r with
      | ok _ => exact absurd rfl this
      | err => simp
      | panic => simp
    | err => simp
    | panic => simp

end

/-! ### Simulation -/

mutual

/-- The `'outer` loop, started at a value, traverses the partial tree of that value. -/
theorem PVal.run : ∀ {d t o} (_ : PVal d t o) (fuel : Nat) (v : P.V) (st : List (Frame P)) (w : σ), d.rem < fuel →
    ∃ fuel', (∀ d', o = some d' → d'.rem < fuel') ∧
      outerLoop P fuel d v st w = finishWith P fuel' st o (drivePT P v t w)
  | _, _, _, .err h, fuel + 1, v, st, w, _ => ⟨0, by simp, by
      rw [outerLoop_err P h]; simp [drivePT, failure, finishWith]⟩
  | _, _, _, .panic h, fuel + 1, v, st, w, _ => ⟨0, by simp, by
      rw [outerLoop_panic P h]; simp [drivePT, failure, finishWith]⟩
  | _, _, _, .leaf (d' := d1) h hl, fuel + 1, v, st, w, hf => ⟨fuel, by
      have := event_rem h
      intro d' hd; simp at hd; subst hd; omega, by
      rw [outerLoop_leaf P h hl, drivePT]; rfl⟩
  | _, _, _, .seq (xs := xs) (e := e) h hs, fuel + 1, v, st, w, hf => by
    have hr := event_rem h
    rw [outerLoop_seq P h, drivePT]
    rcases P.seq v w with ⟨q, w1⟩
    cases q with
    | ok q => exact hs.run fuel v q st w1 (by omega)
    | err => exact ⟨fuel, by
        intro d' hd
        obtain ⟨c, js, -, te, -, -⟩ := hs.sound hd
        have := te.rem; omega, rfl⟩
    | panic => exact ⟨fuel, by
        intro d' hd
        obtain ⟨c, js, -, te, -, -⟩ := hs.sound hd
        have := te.rem; omega, rfl⟩
  | _, _, _, .map h hs, fuel + 1, v, st, w, hf => by
    have hr := event_rem h
    rw [outerLoop_map P h, drivePT]
    rcases P.map v w with ⟨q, w1⟩
    cases q with
    | ok q => exact hs.run fuel v q st w1 (by omega)
    | err => exact ⟨fuel, by
        intro d' hd
        obtain ⟨c, js, -, te, -, -⟩ := hs.sound hd
        have := te.rem; omega, rfl⟩
    | panic => exact ⟨fuel, by
        intro d' hd
        obtain ⟨c, js, -, te, -, -⟩ := hs.sound hd
        have := te.rem; omega, rfl⟩

theorem PElems.run : ∀ {ac d xs e o} (_ : PElems ac d xs e o) (fuel : Nat) (v : P.V) (q : P.Q) (st : List (Frame P)) (w : σ),
    d.rem < fuel → ∃ fuel', (∀ d', o = some d' → d'.rem < fuel') ∧
      resume P fuel (closeLoop P d ac v (.seq q) st w) =
        finishWith P fuel' st o ((driveElemsPT P q xs e w).1, P.dropSeq q (driveElemsPT P q xs e w).2)
  | _, _, _, _, _, .close (d' := d') h, fuel, v, q, st, w, hf => by
    have hr := sepStep_close_rem (by simp) h
    refine ⟨fuel, by intro d' hd; simp at hd; subst hd; omega, ?_⟩
    rw [closeLoop_seq_close P h, driveElemsPT]
    rcases P.seqFinish q w with ⟨r, w1⟩
    cases r <;> rfl
  | _, _, _, _, _, .stop h, fuel, v, q, st, w, hf => by
    refine ⟨fuel, by simp, ?_⟩
    rw [closeLoop_stop P (layer := .seq q) h]
    simp [driveElemsPT, failure, finishWith, resume, Layer.drop]
  | _, _, _, _, _, .child (x := x) (d1 := d1) (o := o) h hx hr, fuel, v, q, st, w, hf => by
    have h1 := sepStep_child_rem (by simp) h
    have fin : ∀ d' : De, o = some d' → d'.rem < fuel := by
      intro d' hd
      obtain ⟨c, js, -, te, -, -⟩ := hr.sound hd
      obtain ⟨c2, -, te2⟩ := hx.eats
      have := te.rem
      have := te2.rem
      omega
    rw [closeLoop_child P h, driveElemsPT]
    simp only [resume, openChild]
    rcases P.element q w with ⟨el, w1⟩
    cases el with
    | ok v' =>
      simp only
      obtain ⟨f2, g1, g2⟩ := hx.run fuel v' ((v, .seq q) :: st) w1 (by omega)
      rw [g2]
      rcases drivePT P v' x w1 with ⟨r, w2⟩
      cases r with
      | ok _ => exact hr.run f2 v q st w2 (g1 _ rfl)
      | err => exact ⟨fuel, fin, rfl⟩
      | panic => exact ⟨fuel, fin, rfl⟩
    | err => exact ⟨fuel, fin, rfl⟩
    | panic => exact ⟨fuel, fin, rfl⟩
  | _, _, _, _, _, .last (x := x) (d1 := d1) h hx, fuel, v, q, st, w, hf => by
    have h1 := sepStep_child_rem (by simp) h
    refine ⟨0, by simp, ?_⟩
    rw [closeLoop_child P h, driveElemsPT]
    simp only [resume, openChild]
    rcases P.element q w with ⟨el, w1⟩
    cases el with
    | ok v' =>
      simp only
      obtain ⟨f2, g1, g2⟩ := hx.run fuel v' ((v, .seq q) :: st) w1 (by omega)
      rw [g2]
      have := hx.none_not_ok P v' w1 rfl
      rcases hh : drivePT P v' x w1 with ⟨r, w2⟩
      rw [hh] at this
      cases r with
      | ok _ => exact absurd rfl this
      | err => rfl
      | panic => rfl
    | err => rfl
    | panic => rfl

theorem PMembers.run : ∀ {ac d xs e o} (_ : PMembers ac d xs e o) (fuel : Nat) (v : P.V) (m : P.M) (st : List (Frame P)) (w : σ),
    d.rem < fuel → ∃ fuel', (∀ d', o = some d' → d'.rem < fuel') ∧
      resume P fuel (closeLoop P d ac v (.map m) st w) =
        finishWith P fuel' st o ((driveMembersPT P m xs e w).1, P.dropMap m (driveMembersPT P m xs e w).2)
  | _, _, _, _, _, .close (d' := d') h, fuel, v, q, st, w, hf => by
    have hr := sepStep_close_rem (by simp) h
    refine ⟨fuel, by intro d' hd; simp at hd; subst hd; omega, ?_⟩
    rw [closeLoop_map_close P h, driveMembersPT]
    rcases P.mapFinish q w with ⟨r, w1⟩
    cases r <;> rfl
  | _, _, _, _, _, .stop h, fuel, v, q, st, w, hf => by
    refine ⟨fuel, by simp, ?_⟩
    rw [closeLoop_stop P (layer := .map q) h]
    simp [driveMembersPT, failure, finishWith, resume, Layer.drop]
  | _, _, _, _, _, .keyStop (p := p) h hk, fuel, v, q, st, w, hf => by
    refine ⟨fuel, by simp, ?_⟩
    rw [closeLoop_child P h, driveMembersPT]
    simp only [resume, openChild_map, hk]
    cases p <;> rfl
  | _, _, _, _, _, .noColon (k := k) h hk, fuel, v, q, st, w, hf => by
    refine ⟨fuel, by simp, ?_⟩
    rw [closeLoop_child P h, driveMembersPT]
    simp only [resume, openChild_map, hk]
    rcases P.key q k w with ⟨el, w1⟩
    cases el <;> simp [drivePT, failure, finishWith]
  | _, _, _, _, _, .child (x := x) (k := k) (d1 := d1) (o := o) h hk hx hr, fuel, v, q, st, w, hf => by
    have h1 := sepStep_child_rem (by simp) h
    have h2 := keyStep_rem hk
    have fin : ∀ d' : De, o = some d' → d'.rem < fuel := by
      intro d' hd
      obtain ⟨c, js, -, te, -, -⟩ := hr.sound hd
      obtain ⟨c2, -, te2⟩ := hx.eats
      have := te.rem
      have := te2.rem
      omega
    rw [closeLoop_child P h, driveMembersPT]
    simp only [resume, openChild_map, hk]
    rcases P.key q k w with ⟨el, w1⟩
    cases el with
    | ok v' =>
      simp only
      obtain ⟨f2, g1, g2⟩ := hx.run fuel v' ((v, .map q) :: st) w1 (by omega)
      rw [g2]
      rcases drivePT P v' x w1 with ⟨r, w2⟩
      cases r with
      | ok _ => exact hr.run f2 v q st w2 (g1 _ rfl)
      | err => exact ⟨fuel, fin, rfl⟩
      | panic => exact ⟨fuel, fin, rfl⟩
    | err => exact ⟨fuel, fin, rfl⟩
    | panic => exact ⟨fuel, fin, rfl⟩
  | _, _, _, _, _, .last (x := x) (k := k) (d1 := d1) h hk hx, fuel, v, q, st, w, hf => by
    have h1 := sepStep_child_rem (by simp) h
    have h2 := keyStep_rem hk
    refine ⟨0, by simp, ?_⟩
    rw [closeLoop_child P h, driveMembersPT]
    simp only [resume, openChild_map, hk]
    rcases P.key q k w with ⟨el, w1⟩
    cases el with
    | ok v' =>
      simp only
      obtain ⟨f2, g1, g2⟩ := hx.run fuel v' ((v, .map q) :: st) w1 (by omega)
      rw [g2]
      have := hx.none_not_ok P v' w1 rfl
      rcases hh : drivePT P v' x w1 with ⟨r, w2⟩
      rw [hh] at this
      cases r with
      | ok _ => exact absurd rfl this
      | err => rfl
      | panic => rfl
    | err => rfl
    | panic => rfl

end

/-- The outcome of `from_str_impl` in terms of the partial tree. -/
def outcome (o : Option De) (r : Res Unit × σ) : Res Unit × σ :=
  match r with
  | (.ok _, w) =>
    match o with
    | some d' => (trailing d', w)
    | none => (.err, w)
  | (.err, w) => (.err, w)
  | (.panic, w) => (.panic, w)

/-- Start state of the tokenizer. -/
def initDe (j : Bytes) : De := { input := j, pos := 0, buffer := [] }

@[simp] theorem initDe_rest (j : Bytes) : (initDe j).rest = j := by simp [initDe, rest]
theorem initDe_rem (j : Bytes) : (initDe j).rem = j.length := by simp [rem]

theorem fromStrImpl_eq {j : Bytes} {t : PT} {o : Option De} (h : PVal (initDe j) t o) (fuel : Nat) (hf : j.length < fuel)
    (v : P.V) (w : σ) : fromStrImplFuel P fuel j v w = some (outcome o (drivePT P v t w)) := by
  obtain ⟨f, h1, h2⟩ := h.run P fuel v [] w (by rw [initDe_rem]; exact hf)
  unfold fromStrImplFuel
  show outerLoop P fuel (initDe j) v [] w = _
  rw [h2]
  have hn := fun ho => h.none_not_ok P v w ho
  rcases hh : drivePT P v t w with ⟨r, w2⟩
  rw [hh] at hn
  cases r with
  | ok u =>
    cases o with
    | none => exact absurd rfl (hn rfl)
    | some d' => rfl
  | err => rfl
  | panic => rfl

end
end Miniserde
