import Verif.Proof.EventSpec

/-!
# A completed partial tree is the tree of a JSON value
-/

namespace Miniserde
open De

mutual
/-- A JSON tree as a partial tree (numbers replaced by what they are delivered as). -/
def toPT : Json → PT
  | .null => .leaf .null
  | .bool b => .leaf (.bool b)
  | .num l => match numEvent l with
    | .ok ev => .leaf ev
    | .err => .bad false
    | .panic => .bad true
  | .str s => .leaf (.str s)
  | .arr xs => .seq (toPTs xs) .closed
  | .obj ms => .map (toPTms ms) .closed

def toPTs : List Json → List PT
  | [] => []
  | x :: xs => toPT x :: toPTs xs

def toPTms : List (Bytes × Json) → List (Bytes × PT)
  | [] => []
  | (k, x) :: ms => (k, toPT x) :: toPTms ms
end

theorem numEvent_cases (l : NumLit) : numEvent l = .err ∨ numEvent l = .panic ∨
    (∃ n, numEvent l = .ok (.negative n)) ∨ (∃ n, numEvent l = .ok (.nonnegative n)) ∨
    (∃ f, numEvent l = .ok (.float f)) := by
  unfold numEvent
  simp only
  split
  · split
    · split <;> simp
    · simp
  · cases i32 ((accum U64_MAX 0 l.int).2 : Int) with
    | ok e => simp only [Res.bind_ok']; cases fracValue (!l.minus) (accum U64_MAX 0 l.int).1 e l.exp l.frac <;> simp
    | err => simp
    | panic => simp

theorem numEvent_isLeaf {l : NumLit} {ev : Event} (h : numEvent l = .ok ev) : ev.isLeaf = true := by
  rcases numEvent_cases l with h' | h' | ⟨n, h'⟩ | ⟨n, h'⟩ | ⟨n, h'⟩ <;> rw [h'] at h <;> cases h <;> rfl

/-- `driveNum` is the leaf call of the delivered event. -/
theorem drive_num {σ : Type} (P : Proto σ) (v : P.V) (l : NumLit) (w : σ) :
    driveNum P v l w = drivePT P v (toPT (.num l)) w := by
  unfold driveNum toPT
  rcases numEvent_cases l with h | h | ⟨n, h⟩ | ⟨n, h⟩ | ⟨n, h⟩ <;> simp only [h] <;> simp [drivePT, leafCall, failure]

mutual
/-- `drive` is the traversal of the tree. -/
theorem drive_eq {σ : Type} (P : Proto σ) (v : P.V) : ∀ (j : Json) (w : σ), drive P v j w = drivePT P v (toPT j) w
  | .null, w => by simp [drive, toPT, drivePT, leafCall]
  | .bool b, w => by simp [drive, toPT, drivePT, leafCall]
  | .num l, w => by rw [drive]; exact drive_num P v l w
  | .str s, w => by simp [drive, toPT, drivePT, leafCall]
  | .arr xs, w => by
    simp only [drive, toPT, drivePT, driveElems_eq P]
    rfl
  | .obj ms, w => by
    simp only [drive, toPT, drivePT, driveMembers_eq P]
    rfl

theorem driveElems_eq {σ : Type} (P : Proto σ) (q : P.Q) : ∀ (xs : List Json) (w : σ),
    driveElems P q xs w = driveElemsPT P q (toPTs xs) .closed w
  | [], w => by simp [driveElems, toPTs, driveElemsPT]
  | x :: xs, w => by
    simp only [driveElems, toPTs, driveElemsPT, drive_eq P _ x, driveElems_eq P q xs]
    rfl

theorem driveMembers_eq {σ : Type} (P : Proto σ) (m : P.M) : ∀ (ms : List (Bytes × Json)) (w : σ),
    driveMembers P m ms w = driveMembersPT P m (toPTms ms) .closed w
  | [], w => by simp [driveMembers, toPTms, driveMembersPT]
  | (k, x) :: ms, w => by
    simp only [driveMembers, toPTms, driveMembersPT, drive_eq P _ x, driveMembers_eq P m ms]
    rfl
end

/-- Steps at separators. -/
theorem sepStep_spec (close : UInt8) (hcl : close = 0x5D ∨ close = 0x7D) (ac : Bool) (d : De) :
    (∃ w d', sepStep close ac d = .close d' ∧ Ws w ∧ Eats d d' (w ++ [close])) ∨
    (∃ w d', ac = true ∧ sepStep close ac d = .child d' ∧ Ws w ∧ Eats d d' (w ++ [0x2C])) ∨
    (∃ w d', ac = false ∧ sepStep close ac d = .child d' ∧ Ws w ∧ Eats d d' w) ∨
    sepStep close ac d = .stop := by
  obtain ⟨w, d1, hw, ws, tw, -, hn⟩ := parseWhitespace_spec d
  unfold sepStep
  rw [hw]
  simp only
  have head : ∀ c, d1.rest.head?.getD 0 = c → c ≠ 0 → Eats d d1.bump (w ++ [c]) := by
    intro c hc h0
    rcases d1.head_cases with h | ⟨x, r, h⟩
    · rw [h] at hc; simp at hc; exact absurd hc.symm h0
    · rw [h] at hc; simp at hc; subst hc
      exact tw.trans (rest_cons h).2.2.2
  split
  · rename_i h
    right; left
    exact ⟨w, _, h.2, rfl, ws, head _ h.1 (by decide)⟩
  · split
    · split
      · rename_i h
        left
        refine ⟨w, _, rfl, ws, head _ h ?_⟩
        rcases hcl with rfl | rfl <;> decide
      · simp
    · cases ac with
      | true => simp
      | false => right; right; left; exact ⟨w, _, rfl, rfl, ws, tw⟩

theorem keyStep_spec (d : De) :
    (∃ w1 k key w2 d', keyStep d = .key key d' ∧ Ws w1 ∧ JString k key ∧ Ws w2 ∧ Eats d d' (w1 ++ (k ++ (w2 ++ [0x3A])))) ∨
    (∃ k, keyStep d = .noColon k ∧ ∃ w1 kt r, Ws w1 ∧ JString kt k ∧ d.rest = w1 ++ (kt ++ r)) ∨ keyStep d = .stop false := by
  obtain ⟨w, d1, hw, ws, tw, -, hn⟩ := parseWhitespace_spec d
  unfold keyStep
  rw [hw]
  simp only
  split
  · rename_i h
    have hq : d1.rest = 0x22 :: d1.bump.rest := by
      rcases d1.head_cases with h' | ⟨x, r, h'⟩
      · rw [h'] at h; simp at h
      · rw [h'] at h; simp at h; subst h; rw [(rest_cons h').2.2.1, h']
    have t1 := (rest_cons hq).2.2.2
    rcases d1.bump.parseStr_spec with ⟨e, -⟩ | ⟨body, s, d2, e, hb, te⟩
    · rw [e]; simp
    · rw [e]
      simp only
      obtain ⟨w2, d3, hw2, ws2, tw2, -, -⟩ := parseWhitespace_spec d2
      rw [hw2]
      simp only
      split
      · rename_i h3
        have hc : d3.rest = 0x3A :: d3.bump.rest := by
          rcases d3.head_cases with h' | ⟨x, r, h'⟩
          · rw [h'] at h3; simp at h3
          · rw [h'] at h3; simp at h3; subst h3; rw [(rest_cons h').2.2.1, h']
        left
        refine ⟨w, 0x22 :: (body ++ [0x22]), s, w2, d3.bump, rfl, ws, .mk hb, ws2, ?_⟩
        exact tw.trans ((t1.cons te).trans (tw2.trans (rest_cons hc).2.2.2))
      · right; left
        refine ⟨s, rfl, w, 0x22 :: (body ++ [0x22]), d2.rest, ws, .mk hb, ?_⟩
        have := (tw.trans (t1.cons te)).rest
        simpa using this
  · simp

/-- What was consumed between the last child (or the opening bracket) and the closing bracket of an array. -/
inductive ElemsRest : Bool → List Json → Bytes → Prop
  | nil {ac : Bool} {w : Bytes} (hw : Ws w) : ElemsRest ac [] (w ++ [0x5D])
  | first {t : Bytes} {xs : List Json} (h : JElements t xs) : ElemsRest false xs (t ++ [0x5D])
  | next {w t : Bytes} {xs : List Json} (hw : Ws w) (h : JElements t xs) : ElemsRest true xs (w ++ (0x2C :: (t ++ [0x5D])))

/-- The same for objects. -/
inductive MembersRest : Bool → List (Bytes × Json) → Bytes → Prop
  | nil {ac : Bool} {w : Bytes} (hw : Ws w) : MembersRest ac [] (w ++ [0x7D])
  | first {t : Bytes} {xs : List (Bytes × Json)} (h : JMembers t xs) : MembersRest false xs (t ++ [0x7D])
  | next {w t : Bytes} {xs : List (Bytes × Json)} (hw : Ws w) (h : JMembers t xs) :
      MembersRest true xs (w ++ (0x2C :: (t ++ [0x7D])))

theorem Tok.isLeaf_cases {t : Bytes} {ev : Event} (h : Tok t ev) (hl : ev.isLeaf = Bool.true) :
    ∃ j, JValue t j ∧ toPT j = .leaf ev := by
  cases h with
  | null => exact ⟨.null, .null, rfl⟩
  | true => exact ⟨.bool .true, .true, rfl⟩
  | false => exact ⟨.bool .false, .false, rfl⟩
  | num l h ev he => exact ⟨.num l, .num l h, by simp [toPT, he]⟩
  | str h => exact ⟨_, .str h, rfl⟩
  | open_ => cases hl
  | brace => cases hl

theorem Tok.numLeaf {l : NumLit} {ev : Event} (he : numEvent l = .ok ev) : ev ≠ .seqStart ∧ ev ≠ .mapStart := by
  have := numEvent_isLeaf he
  constructor <;> rintro rfl <;> cases this

theorem Tok.seqStart {t : Bytes} (h : Tok t .seqStart) : t = [0x5B] := by
  cases h with
  | num l h _ he => exact absurd rfl (Tok.numLeaf he).1
  | open_ => rfl

theorem Tok.mapStart {t : Bytes} (h : Tok t .mapStart) : t = [0x7B] := by
  cases h with
  | num l h _ he => exact absurd rfl (Tok.numLeaf he).2
  | brace => rfl

theorem event_ok_spec {d d' : De} {ev : Event} (h : d.event = .ok (ev, d')) :
    ∃ w t, Ws w ∧ Tok t ev ∧ Eats d d' (w ++ t) := by
  rcases d.event_spec with hb | ⟨w, t, ev', d'', h', hw, ht, te⟩
  · rw [h] at hb; exact hb.not_ok.elim
  · rw [h] at h'
    simp only [Res.ok.injEq, Prod.mk.injEq] at h'
    obtain ⟨rfl, rfl⟩ := h'
    exact ⟨w, t, hw, ht, te⟩

mutual

theorem PVal.sound : ∀ {d t o} (_ : PVal d t o) {d'}, o = some d' →
    ∃ w tx j, Ws w ∧ JValue tx j ∧ Eats d d' (w ++ tx) ∧ t = toPT j
  | _, _, _, .err _, _, h => by cases h
  | _, _, _, .panic _, _, h => by cases h
  | _, _, _, .leaf he hl, d', h => by
    simp only [Option.some.injEq] at h
    subst h
    obtain ⟨w, t, hw, ht, te⟩ := event_ok_spec he
    obtain ⟨j, hj, e⟩ := ht.isLeaf_cases hl
    exact ⟨w, t, j, hw, hj, te, e.symm⟩
  | _, _, _, .seq he hs, d', h => by
    obtain ⟨c, js, hc, te, e1, e2⟩ := hs.sound h
    obtain ⟨w, t, hw, ht, te0⟩ := event_ok_spec he
    have := ht.seqStart
    subst this
    refine ⟨w, 0x5B :: c, .arr js, hw, ?_, by simpa using te0.trans te, by rw [e1, e2, toPT]⟩
    cases hc with
    | nil hw => exact .arrEmpty hw
    | first h => exact .arr h
  | _, _, _, .map he hs, d', h => by
    obtain ⟨c, js, hc, te, e1, e2⟩ := hs.sound h
    obtain ⟨w, t, hw, ht, te0⟩ := event_ok_spec he
    have := ht.mapStart
    subst this
    refine ⟨w, 0x7B :: c, .obj js, hw, ?_, by simpa using te0.trans te, by rw [e1, e2, toPT]⟩
    cases hc with
    | nil hw => exact .objEmpty hw
    | first h => exact .obj h

theorem PElems.sound : ∀ {ac d xs e o} (_ : PElems ac d xs e o) {d'}, o = some d' →
    ∃ c js, ElemsRest ac js c ∧ Eats d d' c ∧ xs = toPTs js ∧ e = .closed
  | ac, d, _, _, _, .close hs, d', h => by
    simp only [Option.some.injEq] at h
    subst h
    rcases sepStep_spec 0x5D (by simp) ac d with ⟨w, d2, h1, h2, h3⟩ | ⟨w, d2, -, h1, h2, h3⟩ | ⟨w, d2, -, h1, h2, h3⟩ | h1 <;>
      rw [hs] at h1 <;> cases h1
    exact ⟨_, [], .nil h2, h3, by simp [toPTs], rfl⟩
  | _, _, _, _, _, .stop _, _, h => by cases h
  | ac, d, _, _, _, .child (d1 := d1) hs hx hr, d', h => by
    obtain ⟨w1, tx, j, hw1, hj, t1, rfl⟩ := hx.sound rfl
    obtain ⟨c, js, hc, t2, rfl, rfl⟩ := hr.sound h
    have key : ∀ w0, Ws w0 → ∃ el, JElements el (j :: js) ∧ w0 ++ (w1 ++ (tx ++ c)) = el ++ [0x5D] := by
      intro w0 hw0
      cases hc with
      | nil hw => exact ⟨(w0 ++ w1) ++ (tx ++ _), .one (ws_append hw0 hw1) hj hw, by simp⟩
      | next hw h => exact ⟨(w0 ++ w1) ++ (tx ++ (_ ++ 0x2C :: _)), .cons (ws_append hw0 hw1) hj hw h, by simp⟩
    rcases sepStep_spec 0x5D (by simp) ac d with ⟨w, d2, h1, h2, h3⟩ | ⟨w, d2, hac, h1, h2, h3⟩ | ⟨w, d2, hac, h1, h2, h3⟩ | h1 <;>
      rw [hs] at h1 <;> cases h1
    · subst hac
      obtain ⟨el, hel, e⟩ := key [] ws_nil
      simp only [List.nil_append] at e
      refine ⟨_, j :: js, .next h2 hel, ?_, by simp [toPTs], rfl⟩
      have := h3.trans (t1.trans t2)
      simpa [e] using this
    · subst hac
      obtain ⟨el, hel, e⟩ := key w h2
      refine ⟨_, j :: js, .first hel, ?_, by simp [toPTs], rfl⟩
      have := h3.trans (t1.trans t2)
      rw [← e]
      simpa using this
  | _, _, _, _, _, .last _ _, _, h => by cases h

theorem PMembers.sound : ∀ {ac d xs e o} (_ : PMembers ac d xs e o) {d'}, o = some d' →
    ∃ c js, MembersRest ac js c ∧ Eats d d' c ∧ xs = toPTms js ∧ e = .closed
  | ac, d, _, _, _, .close hs, d', h => by
    simp only [Option.some.injEq] at h
    subst h
    rcases sepStep_spec 0x7D (by simp) ac d with ⟨w, d2, h1, h2, h3⟩ | ⟨w, d2, -, h1, h2, h3⟩ | ⟨w, d2, -, h1, h2, h3⟩ | h1 <;>
      rw [hs] at h1 <;> cases h1
    exact ⟨_, [], .nil h2, h3, by simp [toPTms], rfl⟩
  | _, _, _, _, _, .stop _, _, h => by cases h
  | _, _, _, _, _, .keyStop _ _, _, h => by cases h
  | _, _, _, _, _, .noColon _ _, _, h => by cases h
  | ac, d, _, _, _, .child (d1 := d1) (k := k0) hs hk hx hr, d', h => by
    obtain ⟨w1, tx, j, hw1, hj, t1, rfl⟩ := hx.sound rfl
    obtain ⟨c, js, hc, t2, rfl, rfl⟩ := hr.sound h
    rcases keyStep_spec d1 with ⟨u1, kt, key, u2, d5, k1, k2, k3, k4, k5⟩ | ⟨k, k1, -⟩ | k1 <;>
      rw [hk] at k1 <;> cases k1
    have key : ∀ w0, Ws w0 → ∃ el, JMembers el ((k0, j) :: js) ∧
        w0 ++ (u1 ++ (kt ++ (u2 ++ [0x3A])) ++ (w1 ++ tx ++ c)) = el ++ [0x7D] := by
      intro w0 hw0
      cases hc with
      | nil hw =>
        exact ⟨(w0 ++ u1) ++ (kt ++ (u2 ++ 0x3A :: (w1 ++ (tx ++ _)))), .one (ws_append hw0 k2) k3 k4 hw1 hj hw, by simp⟩
      | next hw h =>
        exact ⟨(w0 ++ u1) ++ (kt ++ (u2 ++ 0x3A :: (w1 ++ (tx ++ (_ ++ 0x2C :: _))))),
          .cons (ws_append hw0 k2) k3 k4 hw1 hj hw h, by simp⟩
    rcases sepStep_spec 0x7D (by simp) ac d with ⟨w, d2, h1, h2, h3⟩ | ⟨w, d2, hac, h1, h2, h3⟩ | ⟨w, d2, hac, h1, h2, h3⟩ | h1 <;>
      rw [hs] at h1 <;> cases h1
    · subst hac
      obtain ⟨el, hel, e⟩ := key [] ws_nil
      simp only [List.nil_append] at e
      refine ⟨_, (k0, j) :: js, .next h2 hel, ?_, by simp [toPTms], rfl⟩
      have := h3.trans (k5.trans (t1.trans t2))
      rw [e] at this
      simpa using this
    · subst hac
      obtain ⟨el, hel, e⟩ := key w h2
      refine ⟨_, (k0, j) :: js, .first hel, ?_, by simp [toPTms], rfl⟩
      have := h3.trans (k5.trans (t1.trans t2))
      rw [← e]
      exact this
  | _, _, _, _, _, .last _ _ _, _, h => by cases h

end

theorem JValue.ne_nil {t : Bytes} {j : Json} (h : JValue t j) : t ≠ [] := by
  cases h with
  | num l h =>
    have := h.int_digits.1
    unfold NumLit.text
    intro h'
    simp at h'
    exact this h'.2.1
  | str h => cases h; simp
  | _ => simp

theorem PVal.eats {d t d'} (h : PVal d t (some d')) : ∃ c, c ≠ [] ∧ Eats d d' c := by
  obtain ⟨w, tx, j, -, hj, te, -⟩ := h.sound rfl
  exact ⟨w ++ tx, by simp [hj.ne_nil], te⟩

theorem event_rem {d d' : De} {ev : Event} (h : d.event = .ok (ev, d')) : d'.rem < d.rem := by
  obtain ⟨w, t, -, ht, te⟩ := event_ok_spec h
  have := te.rem
  have h2 : 0 < t.length := List.length_pos_iff.2 ht.ne_nil
  simp at this
  omega

theorem sepStep_child_rem {close : UInt8} (hcl : close = 0x5D ∨ close = 0x7D) {ac : Bool} {d d' : De}
    (h : sepStep close ac d = .child d') : d'.rem ≤ d.rem := by
  rcases sepStep_spec close hcl ac d with ⟨w, d2, h1, h2, h3⟩ | ⟨w, d2, hac, h1, h2, h3⟩ | ⟨w, d2, hac, h1, h2, h3⟩ | h1 <;>
    rw [h] at h1 <;> cases h1 <;> (have := h3.rem; omega)

theorem sepStep_close_rem {close : UInt8} (hcl : close = 0x5D ∨ close = 0x7D) {ac : Bool} {d d' : De}
    (h : sepStep close ac d = .close d') : d'.rem < d.rem := by
  rcases sepStep_spec close hcl ac d with ⟨w, d2, h1, h2, h3⟩ | ⟨w, d2, hac, h1, h2, h3⟩ | ⟨w, d2, hac, h1, h2, h3⟩ | h1 <;>
    rw [h] at h1 <;> cases h1 <;> (have := h3.rem; simp at this; omega)

theorem keyStep_rem {d d' : De} {k : Bytes} (h : keyStep d = .key k d') : d'.rem ≤ d.rem := by
  rcases keyStep_spec d with ⟨u1, kt, key, u2, d5, k1, k2, k3, k4, k5⟩ | ⟨k, k1, -⟩ | k1 <;>
      rw [h] at k1 <;> cases k1
  have := k5.rem
  omega

/-- Every input determines a partial tree. -/
theorem parse_total (n : Nat) :
    (∀ d : De, d.rem ≤ n → ∃ t o, PVal d t o) ∧
    (∀ (ac : Bool) (d : De), d.rem ≤ n → ∃ xs e o, PElems ac d xs e o) ∧
    (∀ (ac : Bool) (d : De), d.rem ≤ n → ∃ xs e o, PMembers ac d xs e o) := by
  induction n using Nat.strongRecOn with
  | _ n ih =>
    have hv : ∀ d : De, d.rem ≤ n → ∃ t o, PVal d t o := by
      intro d hd
      cases he : d.event with
      | err => exact ⟨_, _, .err he⟩
      | panic => exact ⟨_, _, .panic he⟩
      | ok p =>
        obtain ⟨ev, d1⟩ := p
        have hr := event_rem he
        by_cases hl : ev.isLeaf = true
        · exact ⟨_, _, .leaf he hl⟩
        · cases ev <;> simp [Event.isLeaf] at hl
          · obtain ⟨xs, e, o, h⟩ := (ih d1.rem (by omega)).2.1 false d1 (Nat.le_refl _)
            exact ⟨_, _, .seq he h⟩
          · obtain ⟨xs, e, o, h⟩ := (ih d1.rem (by omega)).2.2 false d1 (Nat.le_refl _)
            exact ⟨_, _, .map he h⟩
    refine ⟨hv, ?_, ?_⟩
    · intro ac d hd
      cases hs : sepStep 0x5D ac d with
      | close d' => exact ⟨_, _, _, .close hs⟩
      | stop => exact ⟨_, _, _, .stop hs⟩
      | child d1 =>
        have h1 := sepStep_child_rem (by simp) hs
        obtain ⟨t, o, ht⟩ := hv d1 (by omega)
        cases o with
        | none => exact ⟨_, _, _, .last hs ht⟩
        | some d2 =>
          obtain ⟨c, hc, te⟩ := ht.eats
          have := te.rem
          have : 0 < c.length := List.length_pos_iff.2 hc
          obtain ⟨xs, e, o, h⟩ := (ih d2.rem (by omega)).2.1 true d2 (Nat.le_refl _)
          exact ⟨_, _, _, .child hs ht h⟩
    · intro ac d hd
      cases hs : sepStep 0x7D ac d with
      | close d' => exact ⟨_, _, _, .close hs⟩
      | stop => exact ⟨_, _, _, .stop hs⟩
      | child d1 =>
        have h1 := sepStep_child_rem (by simp) hs
        cases hk : keyStep d1 with
        | stop p => exact ⟨_, _, _, .keyStop hs hk⟩
        | noColon k => exact ⟨_, _, _, .noColon hs hk⟩
        | key k d2 =>
          have h2 := keyStep_rem hk
          obtain ⟨t, o, ht⟩ := hv d2 (by omega)
          cases o with
          | none => exact ⟨_, _, _, .last hs hk ht⟩
          | some d3 =>
            obtain ⟨c, hc, te⟩ := ht.eats
            have := te.rem
            have : 0 < c.length := List.length_pos_iff.2 hc
            obtain ⟨xs, e, o, h⟩ := (ih d3.rem (by omega)).2.2 true d3 (Nat.le_refl _)
            exact ⟨_, _, _, .child hs hk ht h⟩

end Miniserde
