import Verif.Proof.ReleaseNum
import Verif.Proof.Complete

/-!
# The driver in a release build

As `Proof/PTree.lean`, `Proof/Sound.lean`, `Proof/Machine.lean` and `Proof/Complete.lean`, for `outerLoopA .release`.
-/

namespace Miniserde

open De

mutual

/-- Reading one value. -/
inductive PValR : De → PT → Option De → Prop
  | err {d} (h : d.eventA .release = .err) : PValR d (.bad false) none
  | panic {d} (h : d.eventA .release = .panic) : PValR d (.bad true) none
  | leaf {d ev d'} (h : d.eventA .release = .ok (ev, d')) (hl : ev.isLeaf = true) : PValR d (.leaf ev) (some d')
  | seq {d d1 xs e o} (h : d.eventA .release = .ok (.seqStart, d1)) (hs : PElemsR false d1 xs e o) : PValR d (.seq xs e) o
  | map {d d1 ms e o} (h : d.eventA .release = .ok (.mapStart, d1)) (hs : PMembersR false d1 ms e o) : PValR d (.map ms e) o

/-- Reading the rest of an array; `ac`: a child has just been read, so a comma is acceptable. -/
inductive PElemsR : Bool → De → List PT → End → Option De → Prop
  | close {ac d d'} (h : sepStep b(']') ac d = .close d') : PElemsR ac d [] .closed (some d')
  | stop {ac d} (h : sepStep b(']') ac d = .stop) : PElemsR ac d [] (.stop false) none
  | child {ac d d1 x d2 xs e o} (h : sepStep b(']') ac d = .child d1) (hx : PValR d1 x (some d2))
      (hs : PElemsR true d2 xs e o) : PElemsR ac d (x :: xs) e o
  | last {ac d d1 x} (h : sepStep b(']') ac d = .child d1) (hx : PValR d1 x none) :
      PElemsR ac d [x] (.stop false) none

/-- Reading the rest of an object. -/
inductive PMembersR : Bool → De → List (Bytes × PT) → End → Option De → Prop
  | close {ac d d'} (h : sepStep b('}') ac d = .close d') : PMembersR ac d [] .closed (some d')
  | stop {ac d} (h : sepStep b('}') ac d = .stop) : PMembersR ac d [] (.stop false) none
  | keyStop {ac d d1 p} (h : sepStep b('}') ac d = .child d1) (hk : keyStep d1 = .stop p) :
      PMembersR ac d [] (.stop p) none
  | noColon {ac d d1 k} (h : sepStep b('}') ac d = .child d1) (hk : keyStep d1 = .noColon k) :
      PMembersR ac d [(k, .bad false)] (.stop false) none
  | child {ac d d1 k d2 x d3 ms e o} (h : sepStep b('}') ac d = .child d1) (hk : keyStep d1 = .key k d2)
      (hx : PValR d2 x (some d3)) (hs : PMembersR true d3 ms e o) : PMembersR ac d ((k, x) :: ms) e o
  | last {ac d d1 k d2 x} (h : sepStep b('}') ac d = .child d1) (hk : keyStep d1 = .key k d2)
      (hx : PValR d2 x none) : PMembersR ac d [(k, x)] (.stop false) none

end

mutual
/-- A JSON tree as a partial tree (numbers replaced by what they are delivered as). -/
def toPTR : Json → PT
  | .null => .leaf .null
  | .bool b => .leaf (.bool b)
  | .num l => match numEventR l with
    | .ok ev => .leaf ev
    | .err => .bad false
    | .panic => .bad true
  | .str s => .leaf (.str s)
  | .arr xs => .seq (toPTsR xs) .closed
  | .obj ms => .map (toPTmsR ms) .closed

def toPTsR : List Json → List PT
  | [] => []
  | x :: xs => toPTR x :: toPTsR xs

def toPTmsR : List (Bytes × Json) → List (Bytes × PT)
  | [] => []
  | (k, x) :: ms => (k, toPTR x) :: toPTmsR ms
end

theorem numEvent_casesR (l : NumLit) : numEventR l = .err ∨ numEventR l = .panic ∨
    (∃ n, numEventR l = .ok (.negative n)) ∨ (∃ n, numEventR l = .ok (.nonnegative n)) ∨
    (∃ f, numEventR l = .ok (.float f)) := by
  unfold numEventR
  simp only
  split
  · split
    · split <;> simp
    · simp
  · cases fracValueR (!l.minus) (accum u64Max 0 l.int).1 (wrapI32 (accum u64Max 0 l.int).2) l.exp l.frac <;> simp [Res.map]


theorem numEvent_isLeafR {l : NumLit} {ev : Event} (h : numEventR l = .ok ev) : ev.isLeaf = true := by
  rcases numEvent_casesR l with h' | h' | ⟨n, h'⟩ | ⟨n, h'⟩ | ⟨n, h'⟩ <;> rw [h'] at h <;> cases h <;> rfl


/-- `driveNumR` is the leaf call of the delivered event. -/
theorem drive_numR {σ : Type} (P : Proto σ) (v : P.V) (l : NumLit) (w : σ) :
    driveNumR P v l w = drivePT P v (toPTR (.num l)) w := by
  unfold driveNumR toPTR
  rcases numEvent_casesR l with h | h | ⟨n, h⟩ | ⟨n, h⟩ | ⟨n, h⟩ <;> simp only [h] <;> simp [drivePT, leafCall, failure]


mutual
/-- `driveR` is the traversal of the tree. -/
theorem drive_eqR {σ : Type} (P : Proto σ) (v : P.V) : ∀ (j : Json) (w : σ), driveR P v j w = drivePT P v (toPTR j) w
  | .null, w => by simp [driveR, toPTR, drivePT, leafCall]
  | .bool b, w => by simp [driveR, toPTR, drivePT, leafCall]
  | .num l, w => by rw [driveR]; exact drive_numR P v l w
  | .str s, w => by simp [driveR, toPTR, drivePT, leafCall]
  | .arr xs, w => by
    simp only [driveR, toPTR, drivePT, driveElems_eqR P]
    rfl
  | .obj ms, w => by
    simp only [driveR, toPTR, drivePT, driveMembers_eqR P]
    rfl

theorem driveElems_eqR {σ : Type} (P : Proto σ) (q : P.Q) : ∀ (xs : List Json) (w : σ),
    driveElemsR P q xs w = driveElemsPT P q (toPTsR xs) .closed w
  | [], w => by simp [driveElemsR, toPTsR, driveElemsPT]
  | x :: xs, w => by
    simp only [driveElemsR, toPTsR, driveElemsPT, drive_eqR P _ x, driveElems_eqR P q xs]
    rfl

theorem driveMembers_eqR {σ : Type} (P : Proto σ) (m : P.M) : ∀ (ms : List (Bytes × Json)) (w : σ),
    driveMembersR P m ms w = driveMembersPT P m (toPTmsR ms) .closed w
  | [], w => by simp [driveMembersR, toPTmsR, driveMembersPT]
  | (k, x) :: ms, w => by
    simp only [driveMembersR, toPTmsR, driveMembersPT, drive_eqR P _ x, driveMembers_eqR P m ms]
    rfl
end

theorem TokR.isLeaf_cases {t : Bytes} {ev : Event} (h : TokR t ev) (hl : ev.isLeaf = Bool.true) :
    ∃ j, JValue t j ∧ toPTR j = .leaf ev := by
  cases h with
  | null => exact ⟨.null, .null, rfl⟩
  | true => exact ⟨.bool .true, .true, rfl⟩
  | false => exact ⟨.bool .false, .false, rfl⟩
  | num l h ev he => exact ⟨.num l, .num l h, by simp [toPTR, he]⟩
  | str h => exact ⟨_, .str h, rfl⟩
  | open_ => cases hl
  | brace => cases hl


theorem TokR.numLeaf {l : NumLit} {ev : Event} (he : numEventR l = .ok ev) : ev ≠ .seqStart ∧ ev ≠ .mapStart := by
  have := numEvent_isLeafR he
  constructor <;> rintro rfl <;> cases this


theorem TokR.seqStart {t : Bytes} (h : TokR t .seqStart) : t = [0x5B] := by
  cases h with
  | num l h _ he => exact absurd rfl (TokR.numLeaf he).1
  | open_ => rfl


theorem TokR.mapStart {t : Bytes} (h : TokR t .mapStart) : t = [0x7B] := by
  cases h with
  | num l h _ he => exact absurd rfl (TokR.numLeaf he).2
  | brace => rfl


theorem eventR_ok_spec {d d' : De} {ev : Event} (h : d.eventA .release = .ok (ev, d')) :
    ∃ w t, Ws w ∧ TokR t ev ∧ Eats d d' (w ++ t) := by
  rcases d.eventR_spec with hb | ⟨w, t, ev', d'', h', hw, ht, te⟩
  · rw [h] at hb; exact hb.not_ok.elim
  · rw [h] at h'
    simp only [Res.ok.injEq, Prod.mk.injEq] at h'
    obtain ⟨rfl, rfl⟩ := h'
    exact ⟨w, t, hw, ht, te⟩


mutual

theorem PValR.sound : ∀ {d t o} (_ : PValR d t o) {d'}, o = some d' →
    ∃ w tx j, Ws w ∧ JValue tx j ∧ Eats d d' (w ++ tx) ∧ t = toPTR j
  | _, _, _, .err _, _, h => by cases h
  | _, _, _, .panic _, _, h => by cases h
  | _, _, _, .leaf he hl, d', h => by
    simp only [Option.some.injEq] at h
    subst h
    obtain ⟨w, t, hw, ht, te⟩ := eventR_ok_spec he
    obtain ⟨j, hj, e⟩ := ht.isLeaf_cases hl
    exact ⟨w, t, j, hw, hj, te, e.symm⟩
  | _, _, _, .seq he hs, d', h => by
    obtain ⟨c, js, hc, te, e1, e2⟩ := hs.sound h
    obtain ⟨w, t, hw, ht, te0⟩ := eventR_ok_spec he
    have := ht.seqStart
    subst this
    refine ⟨w, 0x5B :: c, .arr js, hw, ?_, by simpa using te0.trans te, by rw [e1, e2, toPTR]⟩
    cases hc with
    | nil hw => exact .arrEmpty hw
    | first h => exact .arr h
  | _, _, _, .map he hs, d', h => by
    obtain ⟨c, js, hc, te, e1, e2⟩ := hs.sound h
    obtain ⟨w, t, hw, ht, te0⟩ := eventR_ok_spec he
    have := ht.mapStart
    subst this
    refine ⟨w, 0x7B :: c, .obj js, hw, ?_, by simpa using te0.trans te, by rw [e1, e2, toPTR]⟩
    cases hc with
    | nil hw => exact .objEmpty hw
    | first h => exact .obj h

theorem PElemsR.sound : ∀ {ac d xs e o} (_ : PElemsR ac d xs e o) {d'}, o = some d' →
    ∃ c js, ElemsRest ac js c ∧ Eats d d' c ∧ xs = toPTsR js ∧ e = .closed
  | ac, d, _, _, _, .close hs, d', h => by
    simp only [Option.some.injEq] at h
    subst h
    rcases sepStep_spec 0x5D (by simp) ac d with ⟨w, d2, h1, h2, h3⟩ | ⟨w, d2, -, h1, h2, h3⟩ | ⟨w, d2, -, h1, h2, h3⟩ | h1 <;>
      rw [hs] at h1 <;> cases h1
    exact ⟨_, [], .nil h2, h3, by simp [toPTsR], rfl⟩
  | _, _, _, _, _, .stop _, _, h => by cases h
  | ac, d, _, _, _, .child (d1 := d1) hs hx hr, d', h => by
    obtain ⟨w1, tx, j, hw1, hj, t1, rfl⟩ := hx.sound rfl
    obtain ⟨c, js, hc, t2, rfl, rfl⟩ := hr.sound h
    have key : ∀ w0, Ws w0 → ∃ el, JElements el (j :: js) ∧ w0 ++ (w1 ++ (tx ++ c)) = el ++ [0x5D] := by
      intro w0 hw0
      cases hc with
      | nil hw => exact ⟨(w0 ++ w1) ++ (tx ++ _), .one (ws_append hw0 hw1) hj hw, by simp⟩
      | next hw h => exact ⟨(w0 ++ w1) ++ (tx ++ (_ ++ 0x2C :: _)), .cons (ws_append hw0 hw1) hj hw h, by simp⟩
    rcases sepStep_spec 0x5D (by simp) ac d with ⟨w, d2, h1, h2, h3⟩ | ⟨w, d2, hac, h1, h2, h3⟩ | ⟨w, d2, hac, h1, h2, h3⟩ | h1 <;>
      rw [hs] at h1 <;> cases h1
    · subst hac
      obtain ⟨el, hel, e⟩ := key [] ws_nil
      simp only [List.nil_append] at e
      refine ⟨_, j :: js, .next h2 hel, ?_, by simp [toPTsR], rfl⟩
      have := h3.trans (t1.trans t2)
      simpa [e] using this
    · subst hac
      obtain ⟨el, hel, e⟩ := key w h2
      refine ⟨_, j :: js, .first hel, ?_, by simp [toPTsR], rfl⟩
      have := h3.trans (t1.trans t2)
      rw [← e]
      simpa using this
  | _, _, _, _, _, .last _ _, _, h => by cases h

theorem PMembersR.sound : ∀ {ac d xs e o} (_ : PMembersR ac d xs e o) {d'}, o = some d' →
    ∃ c js, MembersRest ac js c ∧ Eats d d' c ∧ xs = toPTmsR js ∧ e = .closed
  | ac, d, _, _, _, .close hs, d', h => by
    simp only [Option.some.injEq] at h
    subst h
    rcases sepStep_spec 0x7D (by simp) ac d with ⟨w, d2, h1, h2, h3⟩ | ⟨w, d2, -, h1, h2, h3⟩ | ⟨w, d2, -, h1, h2, h3⟩ | h1 <;>
      rw [hs] at h1 <;> cases h1
    exact ⟨_, [], .nil h2, h3, by simp [toPTmsR], rfl⟩
  | _, _, _, _, _, .stop _, _, h => by cases h
  | _, _, _, _, _, .keyStop _ _, _, h => by cases h
  | _, _, _, _, _, .noColon _ _, _, h => by cases h
  | ac, d, _, _, _, .child (d1 := d1) (k := k0) hs hk hx hr, d', h => by
    obtain ⟨w1, tx, j, hw1, hj, t1, rfl⟩ := hx.sound rfl
    obtain ⟨c, js, hc, t2, rfl, rfl⟩ := hr.sound h
    rcases keyStep_spec d1 with ⟨u1, kt, key, u2, d5, k1, k2, k3, k4, k5⟩ | ⟨k, k1, -⟩ | k1 <;>
      rw [hk] at k1 <;> cases k1
    have key : ∀ w0, Ws w0 → ∃ el, JMembers el ((k0, j) :: js) ∧
        w0 ++ (u1 ++ (kt ++ (u2 ++ [0x3A])) ++ (w1 ++ tx ++ c)) = el ++ [0x7D] := by
      intro w0 hw0
      cases hc with
      | nil hw =>
        exact ⟨(w0 ++ u1) ++ (kt ++ (u2 ++ 0x3A :: (w1 ++ (tx ++ _)))), .one (ws_append hw0 k2) k3 k4 hw1 hj hw, by simp⟩
      | next hw h =>
        exact ⟨(w0 ++ u1) ++ (kt ++ (u2 ++ 0x3A :: (w1 ++ (tx ++ (_ ++ 0x2C :: _))))),
          .cons (ws_append hw0 k2) k3 k4 hw1 hj hw h, by simp⟩
    rcases sepStep_spec 0x7D (by simp) ac d with ⟨w, d2, h1, h2, h3⟩ | ⟨w, d2, hac, h1, h2, h3⟩ | ⟨w, d2, hac, h1, h2, h3⟩ | h1 <;>
      rw [hs] at h1 <;> cases h1
    · subst hac
      obtain ⟨el, hel, e⟩ := key [] ws_nil
      simp only [List.nil_append] at e
      refine ⟨_, (k0, j) :: js, .next h2 hel, ?_, by simp [toPTmsR], rfl⟩
      have := h3.trans (k5.trans (t1.trans t2))
      rw [e] at this
      simpa using this
    · subst hac
      obtain ⟨el, hel, e⟩ := key w h2
      refine ⟨_, (k0, j) :: js, .first hel, ?_, by simp [toPTmsR], rfl⟩
      have := h3.trans (k5.trans (t1.trans t2))
      rw [← e]
      exact this
  | _, _, _, _, _, .last _ _ _, _, h => by cases h

end

theorem PValR.eats {d t d'} (h : PValR d t (some d')) : ∃ c, c ≠ [] ∧ Eats d d' c := by
  obtain ⟨w, tx, j, -, hj, te, -⟩ := h.sound rfl
  exact ⟨w ++ tx, by simp [hj.ne_nil], te⟩


theorem eventR_rem {d d' : De} {ev : Event} (h : d.eventA .release = .ok (ev, d')) : d'.rem < d.rem := by
  obtain ⟨w, t, -, ht, te⟩ := eventR_ok_spec h
  have := te.rem
  have h2 : 0 < t.length := List.length_pos_iff.2 ht.ne_nil
  simp at this
  omega


/-- Every input determines a partial tree. -/
theorem parse_totalR (n : Nat) :
    (∀ d : De, d.rem ≤ n → ∃ t o, PValR d t o) ∧
    (∀ (ac : Bool) (d : De), d.rem ≤ n → ∃ xs e o, PElemsR ac d xs e o) ∧
    (∀ (ac : Bool) (d : De), d.rem ≤ n → ∃ xs e o, PMembersR ac d xs e o) := by
  induction n using Nat.strongRecOn with
  | _ n ih =>
    have hv : ∀ d : De, d.rem ≤ n → ∃ t o, PValR d t o := by
      intro d hd
      cases he : d.eventA .release with
      | err => exact ⟨_, _, .err he⟩
      | panic => exact ⟨_, _, .panic he⟩
      | ok p =>
        obtain ⟨ev, d1⟩ := p
        have hr := eventR_rem he
        by_cases hl : ev.isLeaf = true
        · exact ⟨_, _, .leaf he hl⟩
        · cases ev <;> simp [Event.isLeaf] at hl
          · obtain ⟨xs, e, o, h⟩ := (ih d1.rem (by omega)).2.1 false d1 (Nat.le_refl _)
            exact ⟨_, _, .seq he h⟩
          · obtain ⟨xs, e, o, h⟩ := (ih d1.rem (by omega)).2.2 false d1 (Nat.le_refl _)
            exact ⟨_, _, .map he h⟩
    refine ⟨hv, ?_, ?_⟩
    · intro ac d hd
      cases hs : sepStep 0x5D ac d with
      | close d' => exact ⟨_, _, _, .close hs⟩
      | stop => exact ⟨_, _, _, .stop hs⟩
      | child d1 =>
        have h1 := sepStep_child_rem (by simp) hs
        obtain ⟨t, o, ht⟩ := hv d1 (by omega)
        cases o with
        | none => exact ⟨_, _, _, .last hs ht⟩
        | some d2 =>
          obtain ⟨c, hc, te⟩ := ht.eats
          have := te.rem
          have : 0 < c.length := List.length_pos_iff.2 hc
          obtain ⟨xs, e, o, h⟩ := (ih d2.rem (by omega)).2.1 true d2 (Nat.le_refl _)
          exact ⟨_, _, _, .child hs ht h⟩
    · intro ac d hd
      cases hs : sepStep 0x7D ac d with
      | close d' => exact ⟨_, _, _, .close hs⟩
      | stop => exact ⟨_, _, _, .stop hs⟩
      | child d1 =>
        have h1 := sepStep_child_rem (by simp) hs
        cases hk : keyStep d1 with
        | stop p => exact ⟨_, _, _, .keyStop hs hk⟩
        | noColon k => exact ⟨_, _, _, .noColon hs hk⟩
        | key k d2 =>
          have h2 := keyStep_rem hk
          obtain ⟨t, o, ht⟩ := hv d2 (by omega)
          cases o with
          | none => exact ⟨_, _, _, .last hs hk ht⟩
          | some d3 =>
            obtain ⟨c, hc, te⟩ := ht.eats
            have := te.rem
            have : 0 < c.length := List.length_pos_iff.2 hc
            obtain ⟨xs, e, o, h⟩ := (ih d3.rem (by omega)).2.2 true d3 (Nat.le_refl _)
            exact ⟨_, _, _, .child hs hk ht h⟩

section
variable {σ : Type} (P : Proto σ)

/-- The part of `outerLoopA` after the inner loop. -/
def resumeR (fuel : Nat) (next : Res (LoopExit P) × σ) : Option (Res Unit × σ) :=
  match next with
  | (.ok (.child d visitor layer stack), w) =>
    match openChild P d visitor layer stack w with
    | (.ok (d, visitor, stack), w) => outerLoopA P .release fuel d visitor stack w
    | (r, w) => some (r.fail, w)
  | (.ok (.done d), w) => some (trailing d, w)
  | (r, w) => some (r.fail, w)


theorem outerLoop_errR {fuel : Nat} {d : De} {v : P.V} {st : List (Frame P)} {w : σ} (h : d.eventA .release = .err) :
    outerLoopA P .release (fuel + 1) d v st w = some (.err, dropStack st w) := by
  simp [outerLoopA, h]


theorem outerLoop_panicR {fuel : Nat} {d : De} {v : P.V} {st : List (Frame P)} {w : σ} (h : d.eventA .release = .panic) :
    outerLoopA P .release (fuel + 1) d v st w = some (.panic, dropStack st w) := by
  simp [outerLoopA, h]


theorem outerLoop_leafR {fuel : Nat} {d d' : De} {ev : Event} {v : P.V} {st : List (Frame P)} {w : σ}
    (h : d.eventA .release = .ok (ev, d')) (hl : ev.isLeaf = true) :
    outerLoopA P .release (fuel + 1) d v st w =
      match leafCall P v ev w with
      | (.ok _, w) => resumeR P fuel (after P d' st w)
      | (.err, w) => some (.err, dropStack st w)
      | (.panic, w) => some (.panic, dropStack st w) := by
  rw [outerLoopA, h]
  simp only
  have fin : ∀ (x : Res Unit × σ), visitEvent P v ev w = (x.1.map fun _ => none, x.2) → leafCall P v ev w = x →
      (match visitEvent P v ev w with
      | (.ok layer?, w) =>
        let next : Res (LoopExit P) × σ :=
          match layer? with
          | some layer => closeLoop P d' false v layer st w
          | none =>
            match st with
            | frame :: stack => closeLoop P d' true frame.1 frame.2 stack w
            | [] => (.ok (.done d'), w)
        match next with
        | (.ok (.child d visitor layer stack), w) =>
          match openChild P d visitor layer stack w with
          | (.ok (d, visitor, stack), w) => outerLoopA P .release fuel d visitor stack w
          | (r, w) => some (r.fail, w)
        | (.ok (.done d), w) => some (trailing d, w)
        | (r, w) => some (r.fail, w)
      | (r, w) => some (r.fail, dropStack st w)) =
      match leafCall P v ev w with
      | (.ok _, w) => resumeR P fuel (after P d' st w)
      | (.err, w) => some (.err, dropStack st w)
      | (.panic, w) => some (.panic, dropStack st w) := by
    rintro ⟨x, w'⟩ hx hx'
    rw [hx, hx']
    cases x with
    | ok u => cases st <;> rfl
    | err => rfl
    | panic => rfl
  cases ev <;> first | exact fin _ rfl rfl | cases hl


theorem outerLoop_seqR {fuel : Nat} {d d' : De} {v : P.V} {st : List (Frame P)} {w : σ}
    (h : d.eventA .release = .ok (.seqStart, d')) :
    outerLoopA P .release (fuel + 1) d v st w =
      match P.seq v w with
      | (.ok q, w) => resumeR P fuel (closeLoop P d' false v (.seq q) st w)
      | (.err, w) => some (.err, dropStack st w)
      | (.panic, w) => some (.panic, dropStack st w) := by
  rw [outerLoopA, h]
  simp only [visitEvent]
  rcases hq : P.seq v w with ⟨q, w'⟩
  cases q <;> rfl


theorem outerLoop_mapR {fuel : Nat} {d d' : De} {v : P.V} {st : List (Frame P)} {w : σ}
    (h : d.eventA .release = .ok (.mapStart, d')) :
    outerLoopA P .release (fuel + 1) d v st w =
      match P.map v w with
      | (.ok m, w) => resumeR P fuel (closeLoop P d' false v (.map m) st w)
      | (.err, w) => some (.err, dropStack st w)
      | (.panic, w) => some (.panic, dropStack st w) := by
  rw [outerLoopA, h]
  simp only [visitEvent]
  rcases hq : P.map v w with ⟨q, w'⟩
  cases q <;> rfl


/-- Resume after a traversal with result `r` that ended at `o`. -/
def finishWithR (fuel : Nat) (stack : List (Frame P)) (o : Option De) (r : Res Unit × σ) : Option (Res Unit × σ) :=
  match r with
  | (.ok _, w) =>
    match o with
    | some d' => resumeR P fuel (after P d' stack w)
    | none => none
  | (.err, w) => some (.err, dropStack stack w)
  | (.panic, w) => some (.panic, dropStack stack w)


mutual

theorem PValR.none_not_ok (v : P.V) : ∀ {d t o} (_ : PValR d t o) (w : σ), o = none → (drivePT P v t w).1 ≠ .ok ()
  | _, _, _, .err _, w, _ => by simp [drivePT, failure]
  | _, _, _, .panic _, w, _ => by simp [drivePT, failure]
  | _, _, _, .leaf _ _, w, h => by cases h
  | _, _, _, .seq _ hs, w, h => by
    rw [drivePT]
    rcases P.seq v w with ⟨q, w'⟩
    cases q with
    | ok q => exact hs.none_not_ok q w' h
    | err => simp
    | panic => simp
  | _, _, _, .map _ hs, w, h => by
    rw [drivePT]
    rcases P.map v w with ⟨q, w'⟩
    cases q with
    | ok q => exact hs.none_not_ok q w' h
    | err => simp
    | panic => simp

theorem PElemsR.none_not_ok (q : P.Q) : ∀ {ac d xs e o} (_ : PElemsR ac d xs e o) (w : σ), o = none →
    (driveElemsPT P q xs e w).1 ≠ .ok ()
  | _, _, _, _, _, .close _, _, h => by cases h
  | _, _, _, _, _, .stop _, w, _ => by simp [driveElemsPT, failure]
  | _, _, _, _, _, .child (x := x) _ _ hr, w, h => by
    rw [driveElemsPT]
    rcases P.element q w with ⟨v, w1⟩
    cases v with
    | ok v =>
      simp only
      rcases drivePT P v x w1 with ⟨r, w2⟩
      cases r with
      | ok _ => exact hr.none_not_ok q w2 h
      | err => simp
      | panic => simp
    | err => simp
    | panic => simp
  | _, _, _, _, _, .last (x := x) _ hx, w, _ => by
    rw [driveElemsPT]
    rcases P.element q w with ⟨v, w1⟩
    cases v with
    | ok v =>
      simp only
      have := hx.none_not_ok v w1 rfl
      rcases hh : drivePT P v x w1 with ⟨r, w2⟩
      rw [hh] at this
      cases r with
      | ok _ => exact absurd rfl this
      | err => simp
      | panic => simp
    | err => simp
    | panic => simp

theorem PMembersR.none_not_ok (m : P.M) : ∀ {ac d xs e o} (_ : PMembersR ac d xs e o) (w : σ), o = none →
    (driveMembersPT P m xs e w).1 ≠ .ok ()
  | _, _, _, _, _, .close _, _, h => by cases h
  | _, _, _, _, _, .stop _, w, _ => by simp [driveMembersPT, failure]
  | _, _, _, _, _, .keyStop (p := p) _ _, w, _ => by cases p <;> simp [driveMembersPT, failure]
  | _, _, _, _, _, .noColon (k := k) _ _, w, _ => by
    rw [driveMembersPT]
    rcases P.key m k w with ⟨v, w1⟩
    cases v <;> simp [drivePT, failure]
  | _, _, _, _, _, .child (k := k) (x := x) _ _ _ hr, w, h => by
    rw [driveMembersPT]
    rcases P.key m k w with ⟨v, w1⟩
    cases v with
    | ok v =>
      simp only
      rcases drivePT P v x w1 with ⟨r, w2⟩
      cases r with
      | ok _ => exact hr.none_not_ok m w2 h
      | err => simp
      | panic => simp
    | err => simp
    | panic => simp
  | _, _, _, _, _, .last (k := k) (x := x) _ _ hx, w, _ => by
    rw [driveMembersPT]
    rcases P.key m k w with ⟨v, w1⟩
    cases v with
    | ok v =>
      simp only
      have := hx.none_not_ok v w1 rfl
      rcases hh : drivePT P v x w1 with ⟨r, w2⟩
      rw [hh] at this
      cases r with
      | ok _ => exact absurd rfl this
      | err => simp
      | panic => simp
    | err => simp
    | panic => simp

end

mutual

/-- The `'outer` loop, started at a value, traverses the partial tree of that value. -/
theorem PValR.run : ∀ {d t o} (_ : PValR d t o) (fuel : Nat) (v : P.V) (st : List (Frame P)) (w : σ), d.rem < fuel →
    ∃ fuel', (∀ d', o = some d' → d'.rem < fuel') ∧
      outerLoopA P .release fuel d v st w = finishWithR P fuel' st o (drivePT P v t w)
  | _, _, _, .err h, fuel + 1, v, st, w, _ => ⟨0, by simp, by
      rw [outerLoop_errR P h]; simp [drivePT, failure, finishWithR]⟩
  | _, _, _, .panic h, fuel + 1, v, st, w, _ => ⟨0, by simp, by
      rw [outerLoop_panicR P h]; simp [drivePT, failure, finishWithR]⟩
  | _, _, _, .leaf (d' := d1) h hl, fuel + 1, v, st, w, hf => ⟨fuel, by
      have := eventR_rem h
      intro d' hd; simp at hd; subst hd; omega, by
      rw [outerLoop_leafR P h hl, drivePT]; rfl⟩
  | _, _, _, .seq (xs := xs) (e := e) h hs, fuel + 1, v, st, w, hf => by
    have hr := eventR_rem h
    rw [outerLoop_seqR P h, drivePT]
    rcases P.seq v w with ⟨q, w1⟩
    cases q with
    | ok q => exact hs.run fuel v q st w1 (by omega)
    | err => exact ⟨fuel, by
        intro d' hd
        obtain ⟨c, js, -, te, -, -⟩ := hs.sound hd
        have := te.rem; omega, rfl⟩
    | panic => exact ⟨fuel, by
        intro d' hd
        obtain ⟨c, js, -, te, -, -⟩ := hs.sound hd
        have := te.rem; omega, rfl⟩
  | _, _, _, .map h hs, fuel + 1, v, st, w, hf => by
    have hr := eventR_rem h
    rw [outerLoop_mapR P h, drivePT]
    rcases P.map v w with ⟨q, w1⟩
    cases q with
    | ok q => exact hs.run fuel v q st w1 (by omega)
    | err => exact ⟨fuel, by
        intro d' hd
        obtain ⟨c, js, -, te, -, -⟩ := hs.sound hd
        have := te.rem; omega, rfl⟩
    | panic => exact ⟨fuel, by
        intro d' hd
        obtain ⟨c, js, -, te, -, -⟩ := hs.sound hd
        have := te.rem; omega, rfl⟩

theorem PElemsR.run : ∀ {ac d xs e o} (_ : PElemsR ac d xs e o) (fuel : Nat) (v : P.V) (q : P.Q) (st : List (Frame P)) (w : σ),
    d.rem < fuel → ∃ fuel', (∀ d', o = some d' → d'.rem < fuel') ∧
      resumeR P fuel (closeLoop P d ac v (.seq q) st w) =
        finishWithR P fuel' st o ((driveElemsPT P q xs e w).1, P.dropSeq q (driveElemsPT P q xs e w).2)
  | _, _, _, _, _, .close (d' := d') h, fuel, v, q, st, w, hf => by
    have hr := sepStep_close_rem (by simp) h
    refine ⟨fuel, by intro d' hd; simp at hd; subst hd; omega, ?_⟩
    rw [closeLoop_seq_close P h, driveElemsPT]
    rcases P.seqFinish q w with ⟨r, w1⟩
    cases r <;> rfl
  | _, _, _, _, _, .stop h, fuel, v, q, st, w, hf => by
    refine ⟨fuel, by simp, ?_⟩
    rw [closeLoop_stop P (layer := .seq q) h]
    simp [driveElemsPT, failure, finishWithR, resumeR, Layer.drop]
  | _, _, _, _, _, .child (x := x) (d1 := d1) (o := o) h hx hr, fuel, v, q, st, w, hf => by
    have h1 := sepStep_child_rem (by simp) h
    have fin : ∀ d' : De, o = some d' → d'.rem < fuel := by
      intro d' hd
      obtain ⟨c, js, -, te, -, -⟩ := hr.sound hd
      obtain ⟨c2, -, te2⟩ := hx.eats
      have := te.rem
      have := te2.rem
      omega
    rw [closeLoop_child P h, driveElemsPT]
    simp only [resumeR, openChild]
    rcases P.element q w with ⟨el, w1⟩
    cases el with
    | ok v' =>
      simp only
      obtain ⟨f2, g1, g2⟩ := hx.run fuel v' ((v, .seq q) :: st) w1 (by omega)
      rw [g2]
      rcases drivePT P v' x w1 with ⟨r, w2⟩
      cases r with
      | ok _ => exact hr.run f2 v q st w2 (g1 _ rfl)
      | err => exact ⟨fuel, fin, rfl⟩
      | panic => exact ⟨fuel, fin, rfl⟩
    | err => exact ⟨fuel, fin, rfl⟩
    | panic => exact ⟨fuel, fin, rfl⟩
  | _, _, _, _, _, .last (x := x) (d1 := d1) h hx, fuel, v, q, st, w, hf => by
    have h1 := sepStep_child_rem (by simp) h
    refine ⟨0, by simp, ?_⟩
    rw [closeLoop_child P h, driveElemsPT]
    simp only [resumeR, openChild]
    rcases P.element q w with ⟨el, w1⟩
    cases el with
    | ok v' =>
      simp only
      obtain ⟨f2, g1, g2⟩ := hx.run fuel v' ((v, .seq q) :: st) w1 (by omega)
      rw [g2]
      have := hx.none_not_ok P v' w1 rfl
      rcases hh : drivePT P v' x w1 with ⟨r, w2⟩
      rw [hh] at this
      cases r with
      | ok _ => exact absurd rfl this
      | err => rfl
      | panic => rfl
    | err => rfl
    | panic => rfl

theorem PMembersR.run : ∀ {ac d xs e o} (_ : PMembersR ac d xs e o) (fuel : Nat) (v : P.V) (m : P.M) (st : List (Frame P)) (w : σ),
    d.rem < fuel → ∃ fuel', (∀ d', o = some d' → d'.rem < fuel') ∧
      resumeR P fuel (closeLoop P d ac v (.map m) st w) =
        finishWithR P fuel' st o ((driveMembersPT P m xs e w).1, P.dropMap m (driveMembersPT P m xs e w).2)
  | _, _, _, _, _, .close (d' := d') h, fuel, v, q, st, w, hf => by
    have hr := sepStep_close_rem (by simp) h
    refine ⟨fuel, by intro d' hd; simp at hd; subst hd; omega, ?_⟩
    rw [closeLoop_map_close P h, driveMembersPT]
    rcases P.mapFinish q w with ⟨r, w1⟩
    cases r <;> rfl
  | _, _, _, _, _, .stop h, fuel, v, q, st, w, hf => by
    refine ⟨fuel, by simp, ?_⟩
    rw [closeLoop_stop P (layer := .map q) h]
    simp [driveMembersPT, failure, finishWithR, resumeR, Layer.drop]
  | _, _, _, _, _, .keyStop (p := p) h hk, fuel, v, q, st, w, hf => by
    refine ⟨fuel, by simp, ?_⟩
    rw [closeLoop_child P h, driveMembersPT]
    simp only [resumeR, openChild_map, hk]
    cases p <;> rfl
  | _, _, _, _, _, .noColon (k := k) h hk, fuel, v, q, st, w, hf => by
    refine ⟨fuel, by simp, ?_⟩
    rw [closeLoop_child P h, driveMembersPT]
    simp only [resumeR, openChild_map, hk]
    rcases P.key q k w with ⟨el, w1⟩
    cases el <;> simp [drivePT, failure, finishWithR]
  | _, _, _, _, _, .child (x := x) (k := k) (d1 := d1) (o := o) h hk hx hr, fuel, v, q, st, w, hf => by
    have h1 := sepStep_child_rem (by simp) h
    have h2 := keyStep_rem hk
    have fin : ∀ d' : De, o = some d' → d'.rem < fuel := by
      intro d' hd
      obtain ⟨c, js, -, te, -, -⟩ := hr.sound hd
      obtain ⟨c2, -, te2⟩ := hx.eats
      have := te.rem
      have := te2.rem
      omega
    rw [closeLoop_child P h, driveMembersPT]
    simp only [resumeR, openChild_map, hk]
    rcases P.key q k w with ⟨el, w1⟩
    cases el with
    | ok v' =>
      simp only
      obtain ⟨f2, g1, g2⟩ := hx.run fuel v' ((v, .map q) :: st) w1 (by omega)
      rw [g2]
      rcases drivePT P v' x w1 with ⟨r, w2⟩
      cases r with
      | ok _ => exact hr.run f2 v q st w2 (g1 _ rfl)
      | err => exact ⟨fuel, fin, rfl⟩
      | panic => exact ⟨fuel, fin, rfl⟩
    | err => exact ⟨fuel, fin, rfl⟩
    | panic => exact ⟨fuel, fin, rfl⟩
  | _, _, _, _, _, .last (x := x) (k := k) (d1 := d1) h hk hx, fuel, v, q, st, w, hf => by
    have h1 := sepStep_child_rem (by simp) h
    have h2 := keyStep_rem hk
    refine ⟨0, by simp, ?_⟩
    rw [closeLoop_child P h, driveMembersPT]
    simp only [resumeR, openChild_map, hk]
    rcases P.key q k w with ⟨el, w1⟩
    cases el with
    | ok v' =>
      simp only
      obtain ⟨f2, g1, g2⟩ := hx.run fuel v' ((v, .map q) :: st) w1 (by omega)
      rw [g2]
      have := hx.none_not_ok P v' w1 rfl
      rcases hh : drivePT P v' x w1 with ⟨r, w2⟩
      rw [hh] at this
      cases r with
      | ok _ => exact absurd rfl this
      | err => rfl
      | panic => rfl
    | err => rfl
    | panic => rfl

end

theorem fromStrImpl_eqR {j : Bytes} {t : PT} {o : Option De} (h : PValR (initDe j) t o) (fuel : Nat) (hf : j.length < fuel)
    (v : P.V) (w : σ) : outerLoopA P .release fuel (initDe j) v [] w = some (outcome o (drivePT P v t w)) := by
  obtain ⟨f, h1, h2⟩ := h.run P fuel v [] w (by rw [initDe_rem]; exact hf)
  show outerLoopA P .release fuel (initDe j) v [] w = _
  rw [h2]
  have hn := fun ho => h.none_not_ok P v w ho
  rcases hh : drivePT P v t w with ⟨r, w2⟩
  rw [hh] at hn
  cases r with
  | ok u =>
    cases o with
    | none => exact absurd rfl (hn rfl)
    | some d' => rfl
  | err => rfl
  | panic => rfl

end

/-- The partial tree `t` is traversed like the tree `j`; if reading ended it consumed `c`. -/
structure ReadsAsR (d : De) (j : Json) (c r : Bytes) (t : PT) (o : Option De) : Prop where
  same : ∀ {σ : Type} (P : Proto σ) (v : P.V) (w : σ), drivePT P v t w = drivePT P v (toPTR j) w
  eats : ∀ d', o = some d' → Eats d d' c ∧ d'.rest = r


structure ReadsElemsR (d : De) (js : List Json) (c r : Bytes) (xs : List PT) (e : End) (o : Option De) : Prop where
  same : ∀ {σ : Type} (P : Proto σ) (q : P.Q) (w : σ), driveElemsPT P q xs e w = driveElemsPT P q (toPTsR js) .closed w
  eats : ∀ d', o = some d' → Eats d d' c ∧ d'.rest = r


structure ReadsMembersR (d : De) (js : List (Bytes × Json)) (c r : Bytes) (xs : List (Bytes × PT)) (e : End) (o : Option De) :
    Prop where
  same : ∀ {σ : Type} (P : Proto σ) (m : P.M) (w : σ), driveMembersPT P m xs e w = driveMembersPT P m (toPTmsR js) .closed w
  eats : ∀ d', o = some d' → Eats d d' c ∧ d'.rest = r


/-- A child whose reading stopped: whatever follows in the tree is never reached. -/
theorem elems_lastR {d : De} {x x' : PT} {xs xs' : List PT} {e e' : End} (hx : PValR d x none)
    (h1 : ∀ {σ : Type} (P : Proto σ) (v : P.V) (w : σ), drivePT P v x w = drivePT P v x' w)
    {σ : Type} (P : Proto σ) (q : P.Q) (w : σ) :
    driveElemsPT P q (x :: xs) e w = driveElemsPT P q (x' :: xs') e' w := by
  simp only [driveElemsPT, ← h1]
  rcases P.element q w with ⟨v, w1⟩
  cases v with
  | ok v =>
    simp only
    have := hx.none_not_ok P v w1 rfl
    rcases hh : drivePT P v x w1 with ⟨r, w2⟩
    rw [hh] at this
    cases r with
    | ok _ => exact absurd rfl this
    | err => rfl
    | panic => rfl
  | err => rfl
  | panic => rfl


theorem members_lastR {d : De} {k : Bytes} {x x' : PT} {xs xs' : List (Bytes × PT)} {e e' : End} (hx : PValR d x none)
    (h1 : ∀ {σ : Type} (P : Proto σ) (v : P.V) (w : σ), drivePT P v x w = drivePT P v x' w)
    {σ : Type} (P : Proto σ) (q : P.M) (w : σ) :
    driveMembersPT P q ((k, x) :: xs) e w = driveMembersPT P q ((k, x') :: xs') e' w := by
  simp only [driveMembersPT, ← h1]
  rcases P.key q k w with ⟨v, w1⟩
  cases v with
  | ok v =>
    simp only
    have := hx.none_not_ok P v w1 rfl
    rcases hh : drivePT P v x w1 with ⟨r, w2⟩
    rw [hh] at this
    cases r with
    | ok _ => exact absurd rfl this
    | err => rfl
    | panic => rfl
  | err => rfl
  | panic => rfl


theorem eventR_ws {d d1 : De} {p : Option UInt8} (h : d.parseWhitespace = (p, d1)) : d1.eventA .release = d.eventA .release := by
  unfold eventA
  rw [h, parseWhitespace_idem h]


theorem PValR.ws {d d1 : De} {t : PT} {o : Option De} {p : Option UInt8} (hp : PValR d t o)
    (h : d.parseWhitespace = (p, d1)) : PValR d1 t o := by
  have he := eventR_ws h
  cases hp with
  | err h => exact .err (he.trans h)
  | panic h => exact .panic (he.trans h)
  | leaf h hl => exact .leaf (he.trans h) hl
  | seq h hs => exact .seq (he.trans h) hs
  | map h hs => exact .map (he.trans h) hs


/-- The position before a child of an array. -/
inductive ElemsAtR (d : De) : List PT → End → Option De → Prop
  | child {x d2 xs e o} (hx : PValR d x (some d2)) (hs : PElemsR true d2 xs e o) : ElemsAtR d (x :: xs) e o
  | last {x} (hx : PValR d x none) : ElemsAtR d [x] (.stop false) none


inductive MembersAtR (d : De) : List (Bytes × PT) → End → Option De → Prop
  | child {k d1 x d2 xs e o} (hk : keyStep d = .key k d1) (hx : PValR d1 x (some d2)) (hs : PMembersR true d2 xs e o) :
      MembersAtR d ((k, x) :: xs) e o
  | last {k d1 x} (hk : keyStep d = .key k d1) (hx : PValR d1 x none) : MembersAtR d [(k, x)] (.stop false) none


theorem ElemsAtR.elems {d d1 : De} {ac : Bool} {xs : List PT} {e : End} {o : Option De} (h : ElemsAtR d1 xs e o)
    (hs : sepStep 0x5D ac d = .child d1) : PElemsR ac d xs e o := by
  cases h with
  | child h1 h2 => exact .child hs h1 h2
  | last h1 => exact .last hs h1


theorem MembersAtR.members {d d1 : De} {ac : Bool} {xs : List (Bytes × PT)} {e : End} {o : Option De}
    (h : MembersAtR d1 xs e o) (hs : sepStep 0x7D ac d = .child d1) : PMembersR ac d xs e o := by
  cases h with
  | child h0 h1 h2 => exact .child hs h0 h1 h2
  | last h0 h1 => exact .last hs h0 h1


theorem ElemsAtR.ws {d d1 : De} {p : Option UInt8} {xs : List PT} {e : End} {o : Option De} (h : ElemsAtR d xs e o)
    (hp : d.parseWhitespace = (p, d1)) : ElemsAtR d1 xs e o := by
  cases h with
  | child h1 h2 => exact .child (h1.ws hp) h2
  | last h1 => exact .last (h1.ws hp)


theorem MembersAtR.ws {d d1 : De} {p : Option UInt8} {xs : List (Bytes × PT)} {e : End} {o : Option De}
    (h : MembersAtR d xs e o) (hp : d.parseWhitespace = (p, d1)) : MembersAtR d1 xs e o := by
  cases h with
  | child h0 h1 h2 => exact .child ((keyStep_ws hp).trans h0) h1 h2
  | last h0 h1 => exact .last ((keyStep_ws hp).trans h0) h1


mutual

theorem JValue.completeR : ∀ {t j} (_ : JValue t j) {d : De} {w r : Bytes}, d.rest = w ++ (t ++ r) → Ws w → TokEnd r →
    ∃ pt o, PValR d pt o ∧ ReadsAsR d j (w ++ t) r pt o
  | _, _, .null, d, w, r, h, hw, _ => by
    obtain ⟨d', t, e, he⟩ := eventR_null h hw
    exact ⟨_, _, .leaf he rfl, fun P v w => by simp [toPTR], fun _ hd => by cases hd; exact ⟨t, e⟩⟩
  | _, _, .true, d, w, r, h, hw, _ => by
    obtain ⟨d', t, e, he⟩ := eventR_true h hw
    exact ⟨_, _, .leaf he rfl, fun P v w => by simp [toPTR], fun _ hd => by cases hd; exact ⟨t, e⟩⟩
  | _, _, .false, d, w, r, h, hw, _ => by
    obtain ⟨d', t, e, he⟩ := eventR_false h hw
    exact ⟨_, _, .leaf he rfl, fun P v w => by simp [toPTR], fun _ hd => by cases hd; exact ⟨t, e⟩⟩
  | _, _, .num l hl, d, w, r, h, hw, hr => by
    obtain ⟨d', t, e, he⟩ := eventR_num h hw hl (hr.follow _ _)
    cases hn : numEventR l with
    | ok ev =>
      rw [hn] at he
      exact ⟨_, _, .leaf he (numEvent_isLeafR hn), fun P v w => by simp [toPTR, hn], fun _ hd => by cases hd; exact ⟨t, e⟩⟩
    | err =>
      rw [hn] at he
      exact ⟨_, _, .err he, fun P v w => by simp [toPTR, hn], fun _ hd => by cases hd⟩
    | panic =>
      rw [hn] at he
      exact ⟨_, _, .panic he, fun P v w => by simp [toPTR, hn], fun _ hd => by cases hd⟩
  | _, _, .str hs, d, w, r, h, hw, hr => by
    obtain ⟨d', t, e, he⟩ := eventR_str h hw hs
    exact ⟨_, _, .leaf he rfl, fun P v w => by simp [toPTR], fun _ hd => by cases hd; exact ⟨t, e⟩⟩
  | _, _, .arrEmpty (w := u) hu, d, w, r, h, hw, hr => by
    obtain ⟨d1, t, e, he⟩ := eventR_open (r := u ++ 0x5D :: r) (by rw [h]; simp) hw
    obtain ⟨d2, hs, t2, e2⟩ := sepStep_close (by simp) (ac := Bool.false) e hu
    exact ⟨_, _, .seq he (.close hs), fun P v w => by simp [toPTR, toPTsR],
      fun _ hd => by cases hd; exact ⟨by simpa using t.trans t2, e2⟩⟩
  | _, _, .objEmpty (w := u) hu, d, w, r, h, hw, hr => by
    obtain ⟨d1, t, e, he⟩ := eventR_brace (r := u ++ 0x7D :: r) (by rw [h]; simp) hw
    obtain ⟨d2, hs, t2, e2⟩ := sepStep_close (by simp) (ac := Bool.false) e hu
    exact ⟨_, _, .map he (.close hs), fun P v w => by simp [toPTR, toPTmsR],
      fun _ hd => by cases hd; exact ⟨by simpa using t.trans t2, e2⟩⟩
  | _, _, .arr (t := u) hu, d, w, r, h, hw, hr => by
    obtain ⟨d1, t, e, he⟩ := eventR_open (r := u ++ 0x5D :: r) (by rw [h]; simp) hw
    obtain ⟨xs, en, o, h1, h2⟩ := hu.completeR e
    obtain ⟨p, d2, g1, g2⟩ := sepStep_at (close := 0x5D) e (elements_head hu)
    exact ⟨_, _, .seq he ((h1.ws g1).elems g2), fun P v w => by simp [toPTR, drivePT, h2.same],
      fun d' hd => ⟨by simpa using t.trans (h2.eats d' hd).1, (h2.eats d' hd).2⟩⟩
  | _, _, .obj (t := u) hu, d, w, r, h, hw, hr => by
    obtain ⟨d1, t, e, he⟩ := eventR_brace (r := u ++ 0x7D :: r) (by rw [h]; simp) hw
    obtain ⟨xs, en, o, h1, h2⟩ := hu.completeR e
    obtain ⟨p, d2, g1, g2⟩ := sepStep_at (close := 0x7D) e (members_head hu)
    exact ⟨_, _, .map he ((h1.ws g1).members g2), fun P v w => by simp [toPTR, drivePT, h2.same],
      fun d' hd => ⟨by simpa using t.trans (h2.eats d' hd).1, (h2.eats d' hd).2⟩⟩

theorem JElements.completeR : ∀ {t js} (_ : JElements t js) {d : De} {r : Bytes}, d.rest = t ++ 0x5D :: r →
    ∃ xs e o, ElemsAtR d xs e o ∧ ReadsElemsR d js (t ++ [0x5D]) r xs e o
  | _, _, .one (w₁ := w1) (t := tv) (w₂ := w2) h1 hv h2, d, r, h => by
    obtain ⟨pt, o, p1, p2⟩ := hv.completeR (d := d) (w := w1) (r := w2 ++ 0x5D :: r) (by rw [h]; simp) h1
      (tokEnd_ws h2 (tokEnd_cons (by simp)))
    cases o with
    | none =>
      exact ⟨_, _, _, .last p1, fun P q w => by rw [toPTsR]; exact elems_lastR p1 p2.same P q w, fun _ hd => by cases hd⟩
    | some d2 =>
      obtain ⟨t1, e1⟩ := p2.eats d2 rfl
      obtain ⟨d3, hs, t3, e3⟩ := sepStep_close (by simp) (ac := Bool.true) e1 h2
      exact ⟨_, _, _, .child p1 (.close hs), fun P q w => by
          rw [toPTsR]; exact elems_child p2.same (fun P q w => by simp [toPTsR]) P q w,
        fun _ hd => by cases hd; exact ⟨by simpa using t1.trans t3, e3⟩⟩
  | _, _, .cons (w₁ := w1) (t := tv) (w₂ := w2) (ts := ts) h1 hv h2 hs, d, r, h => by
    obtain ⟨pt, o, p1, p2⟩ := hv.completeR (d := d) (w := w1) (r := w2 ++ 0x2C :: (ts ++ 0x5D :: r)) (by rw [h]; simp) h1
      (tokEnd_ws h2 (tokEnd_cons (by simp)))
    cases o with
    | none =>
      exact ⟨_, _, _, .last p1, fun P q w => by rw [toPTsR]; exact elems_lastR p1 p2.same P q w, fun _ hd => by cases hd⟩
    | some d2 =>
      obtain ⟨t1, e1⟩ := p2.eats d2 rfl
      obtain ⟨d3, hs3, t3, e3⟩ := sepStep_comma 0x5D e1 h2
      obtain ⟨xs, e, o, g1, g2⟩ := hs.completeR e3
      exact ⟨_, _, _, .child p1 (g1.elems hs3), fun P q w => by
          rw [toPTsR]; exact elems_child p2.same g2.same P q w,
        fun d' hd => ⟨by simpa using t1.trans (t3.trans (g2.eats d' hd).1), (g2.eats d' hd).2⟩⟩

theorem JMembers.completeR : ∀ {t js} (_ : JMembers t js) {d : De} {r : Bytes}, d.rest = t ++ 0x7D :: r →
    ∃ xs e o, MembersAtR d xs e o ∧ ReadsMembersR d js (t ++ [0x7D]) r xs e o
  | _, _, .one (w₁ := w1) (k := k) (w₂ := w2) (w₃ := w3) (t := tv) (w₄ := w4) h1 hk h2 h3 hv h4, d, r, h => by
    obtain ⟨d0, k1, k2, k3⟩ := keyStep_complete (d := d) (w1 := w1) (r := w3 ++ (tv ++ (w4 ++ 0x7D :: r))) (by rw [h]; simp) h1 hk h2
    obtain ⟨pt, o, p1, p2⟩ := hv.completeR k3 h3 (tokEnd_ws h4 (tokEnd_cons (by simp)))
    cases o with
    | none =>
      exact ⟨_, _, _, .last k1 p1, fun P q w => by rw [toPTmsR]; exact members_lastR p1 p2.same P q w, fun _ hd => by cases hd⟩
    | some d2 =>
      obtain ⟨t1, e1⟩ := p2.eats d2 rfl
      obtain ⟨d3, hs, t3, e3⟩ := sepStep_close (by simp) (ac := Bool.true) e1 h4
      exact ⟨_, _, _, .child k1 p1 (.close hs), fun P q w => by
          rw [toPTmsR]; exact members_child p2.same (fun P q w => by simp [toPTmsR]) P q w,
        fun _ hd => by cases hd; exact ⟨by simpa using k2.trans (t1.trans t3), e3⟩⟩
  | _, _, .cons (w₁ := w1) (k := k) (w₂ := w2) (w₃ := w3) (t := tv) (w₄ := w4) (ts := ts) h1 hk h2 h3 hv h4 hs, d, r, h => by
    obtain ⟨d0, k1, k2, k3⟩ := keyStep_complete (d := d) (w1 := w1) (r := w3 ++ (tv ++ (w4 ++ 0x2C :: (ts ++ 0x7D :: r))))
      (by rw [h]; simp) h1 hk h2
    obtain ⟨pt, o, p1, p2⟩ := hv.completeR k3 h3 (tokEnd_ws h4 (tokEnd_cons (by simp)))
    cases o with
    | none =>
      exact ⟨_, _, _, .last k1 p1, fun P q w => by rw [toPTmsR]; exact members_lastR p1 p2.same P q w, fun _ hd => by cases hd⟩
    | some d2 =>
      obtain ⟨t1, e1⟩ := p2.eats d2 rfl
      obtain ⟨d3, hs3, t3, e3⟩ := sepStep_comma 0x7D e1 h4
      obtain ⟨xs, e, o, g1, g2⟩ := hs.completeR e3
      exact ⟨_, _, _, .child k1 p1 (g1.members hs3), fun P q w => by
          rw [toPTmsR]; exact members_child p2.same g2.same P q w,
        fun d' hd => ⟨by simpa using k2.trans (t1.trans (t3.trans (g2.eats d' hd).1)), (g2.eats d' hd).2⟩⟩

end

/-- On a JSON text, `from_str_impl` is the traversal of the tree. -/
theorem fromStrImpl_textR {s : Bytes} {j : Json} (h : JText s j) {σ : Type} (P : Proto σ) (v : P.V) (w : σ) (fuel : Nat)
    (hf : s.length < fuel) : outerLoopA P .release fuel (initDe s) v [] w = some (driveR P v j w) := by
  obtain ⟨w1, t, w2, rfl, h1, hv, h2⟩ := h
  obtain ⟨pt, o, p1, p2⟩ := hv.completeR (d := initDe (w1 ++ (t ++ w2))) (r := w2) (by simp) h1 (by
    simpa using tokEnd_ws h2 tokEnd_nil)
  rw [fromStrImpl_eqR P p1 fuel hf, p2.same, ← drive_eqR P]
  rcases hd : driveR P v j w with ⟨r, w'⟩
  cases r with
  | err => rfl
  | panic => rfl
  | ok u =>
    cases o with
    | none =>
      have := p1.none_not_ok P v w rfl
      rw [p2.same, ← drive_eqR P, hd] at this
      exact absurd rfl this
    | some d' =>
      obtain ⟨-, e⟩ := p2.eats d' rfl
      simp only [outcome]
      rw [trailing_ws (by rw [e]; exact h2)]


/-- Whatever the visitor, `Ok` means that the input is a JSON text. -/
theorem fromStrImpl_okR {s : Bytes} {σ : Type} {P : Proto σ} {v : P.V} {w w' : σ} {fuel : Nat} (hf : s.length < fuel)
    (h : outerLoopA P .release fuel (initDe s) v [] w = some (.ok (), w')) : ∃ j, JText s j := by
  obtain ⟨t, o, p⟩ := (parse_totalR (initDe s).rem).1 (initDe s) (Nat.le_refl _)
  rw [fromStrImpl_eqR P p fuel hf] at h
  simp only [Option.some.injEq] at h
  unfold outcome at h
  split at h
  · cases o with
    | none => simp at h
    | some d' =>
      simp only [Prod.mk.injEq] at h
      obtain ⟨w1, tx, j, hw1, hj, te, -⟩ := p.sound rfl
      have := te.rest
      simp at this
      exact ⟨j, w1, tx, _, this, hw1, hj, trailing_ok h.1⟩
  · simp at h
  · simp at h


/-- `from_str_impl` always finishes. -/
theorem fromStrImpl_totalR (s : Bytes) {σ : Type} (P : Proto σ) (v : P.V) (w : σ) (fuel : Nat) (hf : s.length < fuel) :
    ∃ r, outerLoopA P .release fuel (initDe s) v [] w = some r := by
  obtain ⟨t, o, p⟩ := (parse_totalR (initDe s).rem).1 (initDe s) (Nat.le_refl _)
  exact ⟨_, fromStrImpl_eqR P p fuel hf v w⟩

end Miniserde
