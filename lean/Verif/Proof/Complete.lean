import Verif.Proof.Machine

/-!
# On a JSON text the driver traverses the whole tree
-/

namespace Miniserde
open De

/-- What may follow a value inside a text: end of input, whitespace, a separator or a closing bracket. -/
def TokEnd (r : Bytes) : Prop :=
  ∀ c, r.head? = some c → isDigit c = false ∧ c ≠ 0x2E ∧ c ≠ 0x65 ∧ c ≠ 0x45

theorem TokEnd.follow {r : Bytes} (h : TokEnd r) (fo : Option Bytes) (xo : Option ExpPart) : Follow fo xo r :=
  ⟨fun c hc => (h c hc).1, fun _ c hc => ⟨(h c hc).2.2.1, (h c hc).2.2.2⟩, fun _ _ c hc => (h c hc).2.1⟩

theorem tokEnd_ws {w r : Bytes} (hw : Ws w) (hr : TokEnd r) : TokEnd (w ++ r) := by
  cases w with
  | nil => exact hr
  | cons c w =>
    intro c' hc
    simp at hc
    subst hc
    rcases hw c (by simp) with rfl | rfl | rfl | rfl <;> decide

theorem tokEnd_cons {c : UInt8} {r : Bytes} (h : c = 0x2C ∨ c = 0x5D ∨ c = 0x7D) : TokEnd (c :: r) := by
  intro c' hc
  simp at hc
  subst hc
  rcases h with rfl | rfl | rfl <;> decide

theorem tokEnd_nil : TokEnd [] := by intro c hc; simp at hc

theorem jstring_head {t s : Bytes} (h : JString t s) : ∃ r, t = 0x22 :: r := by cases h; exact ⟨_, rfl⟩

/-- A value starts with a byte that is neither whitespace nor a separator nor a closing bracket. -/
theorem jvalue_head {t : Bytes} {j : Json} (h : JValue t j) :
    ∃ c r, t = c :: r ∧ isWs c = false ∧ c ≠ 0x2C ∧ c ≠ 0x5D ∧ c ≠ 0x7D := by
  cases h with
  | null => exact ⟨_, _, rfl, by decide, by decide, by decide, by decide⟩
  | true => exact ⟨_, _, rfl, by decide, by decide, by decide, by decide⟩
  | «false» => exact ⟨_, _, rfl, by decide, by decide, by decide, by decide⟩
  | num l h =>
    obtain ⟨hi, hd⟩ := h.int_digits
    obtain ⟨mn, int, fo, xo⟩ := l
    cases int with
    | nil => exact absurd rfl hi
    | cons c cs =>
      have hc := hd c (by simp)
      cases mn with
      | true => exact ⟨0x2D, _, by simp [NumLit.text]; rfl, by decide, by decide, by decide, by decide⟩
      | false =>
        refine ⟨c, _, by simp [NumLit.text]; rfl, ?_⟩
        clear h hi hd
        revert c
        apply forall_byte
        decide +kernel
  | str h =>
    cases h
    exact ⟨_, _, rfl, by decide, by decide, by decide, by decide⟩
  | arrEmpty => exact ⟨_, _, rfl, by decide, by decide, by decide, by decide⟩
  | arr => exact ⟨_, _, rfl, by decide, by decide, by decide, by decide⟩
  | objEmpty => exact ⟨_, _, rfl, by decide, by decide, by decide, by decide⟩
  | obj => exact ⟨_, _, rfl, by decide, by decide, by decide, by decide⟩

/-- A separator position before a closing bracket. -/
theorem sepStep_close {close : UInt8} (hcl : close = 0x5D ∨ close = 0x7D) {ac : Bool} {d : De} {w r : Bytes}
    (h : d.rest = w ++ close :: r) (hw : Ws w) :
    ∃ d', sepStep close ac d = .close d' ∧ Eats d d' (w ++ [close]) ∧ d'.rest = r := by
  obtain ⟨d1, e1, t1, e2⟩ := parseWhitespace_complete h hw (by
    intro c' hc'; simp at hc'; subst hc'; rcases hcl with rfl | rfl <;> rfl)
  obtain ⟨-, -, h3, h4⟩ := rest_cons e2
  refine ⟨d1.bump, ?_, t1.trans h4, h3⟩
  unfold sepStep
  rw [e1]
  rcases hcl with rfl | rfl <;> simp

/-- A separator position before a comma. -/
theorem sepStep_comma (close : UInt8) {d : De} {w r : Bytes} (h : d.rest = w ++ 0x2C :: r) (hw : Ws w) :
    ∃ d', sepStep close true d = .child d' ∧ Eats d d' (w ++ [0x2C]) ∧ d'.rest = r := by
  obtain ⟨d1, e1, t1, e2⟩ := parseWhitespace_complete h hw (by intro c' hc'; simp at hc'; subst hc'; rfl)
  obtain ⟨-, -, h3, h4⟩ := rest_cons e2
  refine ⟨d1.bump, ?_, t1.trans h4, h3⟩
  unfold sepStep
  rw [e1]
  simp

/-- The position after an opening bracket, before the first child. -/
theorem sepStep_first (close : UInt8) {d : De} {w r : Bytes} {c : UInt8} (h : d.rest = w ++ c :: r) (hw : Ws w)
    (hc : isWs c = false ∧ c ≠ 0x2C ∧ c ≠ 0x5D ∧ c ≠ 0x7D) :
    ∃ d', sepStep close false d = .child d' ∧ Eats d d' w ∧ d'.rest = c :: r := by
  obtain ⟨d1, e1, t1, e2⟩ := parseWhitespace_complete h hw (by intro c' hc'; simp at hc'; subst hc'; exact hc.1)
  refine ⟨d1, ?_, t1, e2⟩
  unfold sepStep
  rw [e1]
  simp [hc.2.2]

theorem keyStep_complete {d : De} {w1 k key w2 r : Bytes} (h : d.rest = w1 ++ (k ++ (w2 ++ 0x3A :: r))) (h1 : Ws w1)
    (hk : JString k key) (h2 : Ws w2) :
    ∃ d', keyStep d = .key key d' ∧ Eats d d' (w1 ++ (k ++ (w2 ++ [0x3A]))) ∧ d'.rest = r := by
  cases hk with
  | @mk body _ hb =>
    obtain ⟨d1, e1, t1, e2⟩ := parseWhitespace_complete h h1 (by intro c' hc'; simp at hc'; subst hc'; rfl)
    obtain ⟨-, -, h3, h4⟩ := rest_cons e2
    obtain ⟨d2, e3, t3, e4⟩ := parseStr_complete (r := w2 ++ 0x3A :: r) (by rw [h3]; simp) hb
    obtain ⟨d3, e5, t5, e6⟩ := parseWhitespace_complete e4 h2 (by intro c' hc'; simp at hc'; subst hc'; rfl)
    obtain ⟨-, -, h7, h8⟩ := rest_cons e6
    refine ⟨d3.bump, ?_, ?_, h7⟩
    · unfold keyStep
      rw [e1]
      simp [e3, e5]
    · exact t1.trans ((h4.cons t3).trans (t5.trans h8))

/-- The partial tree `t` is traversed like the tree `j`; if reading ended it consumed `c`. -/
structure ReadsAs (d : De) (j : Json) (c r : Bytes) (t : PT) (o : Option De) : Prop where
  same : ∀ {σ : Type} (P : Proto σ) (v : P.V) (w : σ), drivePT P v t w = drivePT P v (toPT j) w
  eats : ∀ d', o = some d' → Eats d d' c ∧ d'.rest = r

structure ReadsElems (d : De) (js : List Json) (c r : Bytes) (xs : List PT) (e : End) (o : Option De) : Prop where
  same : ∀ {σ : Type} (P : Proto σ) (q : P.Q) (w : σ), driveElemsPT P q xs e w = driveElemsPT P q (toPTs js) .closed w
  eats : ∀ d', o = some d' → Eats d d' c ∧ d'.rest = r

structure ReadsMembers (d : De) (js : List (Bytes × Json)) (c r : Bytes) (xs : List (Bytes × PT)) (e : End) (o : Option De) :
    Prop where
  same : ∀ {σ : Type} (P : Proto σ) (m : P.M) (w : σ), driveMembersPT P m xs e w = driveMembersPT P m (toPTms js) .closed w
  eats : ∀ d', o = some d' → Eats d d' c ∧ d'.rest = r

/-- A child read completely, then the rest. -/
theorem elems_child {x x' : PT} {xs xs' : List PT} {e : End}
    (h1 : ∀ {σ : Type} (P : Proto σ) (v : P.V) (w : σ), drivePT P v x w = drivePT P v x' w)
    (h2 : ∀ {σ : Type} (P : Proto σ) (q : P.Q) (w : σ), driveElemsPT P q xs e w = driveElemsPT P q xs' .closed w)
    {σ : Type} (P : Proto σ) (q : P.Q) (w : σ) :
    driveElemsPT P q (x :: xs) e w = driveElemsPT P q (x' :: xs') .closed w := by
  simp only [driveElemsPT, h1, h2]

theorem members_child {k : Bytes} {x x' : PT} {xs xs' : List (Bytes × PT)} {e : End}
    (h1 : ∀ {σ : Type} (P : Proto σ) (v : P.V) (w : σ), drivePT P v x w = drivePT P v x' w)
    (h2 : ∀ {σ : Type} (P : Proto σ) (q : P.M) (w : σ), driveMembersPT P q xs e w = driveMembersPT P q xs' .closed w)
    {σ : Type} (P : Proto σ) (q : P.M) (w : σ) :
    driveMembersPT P q ((k, x) :: xs) e w = driveMembersPT P q ((k, x') :: xs') .closed w := by
  simp only [driveMembersPT, h1, h2]

/-- A child whose reading stopped: whatever follows in the tree is never reached. -/
theorem elems_last {d : De} {x x' : PT} {xs xs' : List PT} {e e' : End} (hx : PVal d x none)
    (h1 : ∀ {σ : Type} (P : Proto σ) (v : P.V) (w : σ), drivePT P v x w = drivePT P v x' w)
    {σ : Type} (P : Proto σ) (q : P.Q) (w : σ) :
    driveElemsPT P q (x :: xs) e w = driveElemsPT P q (x' :: xs') e' w := by
  simp only [driveElemsPT, ← h1]
  rcases P.element q w with ⟨v, w1⟩
  cases v with
  | ok v =>
    simp only
    have := hx.none_not_ok P v w1 rfl
    rcases hh : drivePT P v x w1 with ⟨r, w2⟩
    rw [hh] at this
    cases r with
    | ok _ => exact absurd rfl this
    | err => rfl
    | panic => rfl
  | err => rfl
  | panic => rfl

theorem members_last {d : De} {k : Bytes} {x x' : PT} {xs xs' : List (Bytes × PT)} {e e' : End} (hx : PVal d x none)
    (h1 : ∀ {σ : Type} (P : Proto σ) (v : P.V) (w : σ), drivePT P v x w = drivePT P v x' w)
    {σ : Type} (P : Proto σ) (q : P.M) (w : σ) :
    driveMembersPT P q ((k, x) :: xs) e w = driveMembersPT P q ((k, x') :: xs') e' w := by
  simp only [driveMembersPT, ← h1]
  rcases P.key q k w with ⟨v, w1⟩
  cases v with
  | ok v =>
    simp only
    have := hx.none_not_ok P v w1 rfl
    rcases hh : drivePT P v x w1 with ⟨r, w2⟩
    rw [hh] at this
    cases r with
    | ok _ => exact absurd rfl this
    | err => rfl
    | panic => rfl
  | err => rfl
  | panic => rfl

/-- Skipping whitespace twice is skipping it once. -/
theorem parseWhitespace_idem {d d1 : De} {p : Option UInt8} (h : d.parseWhitespace = (p, d1)) :
    d1.parseWhitespace = (p, d1) := by
  fun_induction parseWhitespace d with
  | case1 d c h1 hc ih => exact ih h
  | case2 d c h1 hc =>
    simp only [Prod.mk.injEq] at h
    obtain ⟨rfl, rfl⟩ := h
    unfold parseWhitespace
    split
    · rename_i c' h'
      rw [h1] at h'
      cases h'
      simp [hc]
    · rename_i h'
      rw [h1] at h'
      cases h'
  | case3 d h1 =>
    simp only [Prod.mk.injEq] at h
    obtain ⟨rfl, rfl⟩ := h
    unfold parseWhitespace
    split
    · rename_i c' h'
      rw [h1] at h'
      cases h'
    · rfl

theorem event_ws {d d1 : De} {p : Option UInt8} (h : d.parseWhitespace = (p, d1)) : d1.event = d.event := by
  unfold event
  rw [h, parseWhitespace_idem h]

theorem keyStep_ws {d d1 : De} {p : Option UInt8} (h : d.parseWhitespace = (p, d1)) : keyStep d1 = keyStep d := by
  unfold keyStep
  rw [h, parseWhitespace_idem h]

theorem PVal.ws {d d1 : De} {t : PT} {o : Option De} {p : Option UInt8} (hp : PVal d t o)
    (h : d.parseWhitespace = (p, d1)) : PVal d1 t o := by
  have he := event_ws h
  cases hp with
  | err h => exact .err (he.trans h)
  | panic h => exact .panic (he.trans h)
  | leaf h hl => exact .leaf (he.trans h) hl
  | seq h hs => exact .seq (he.trans h) hs
  | map h hs => exact .map (he.trans h) hs

/-- The position before a child of an array. -/
inductive ElemsAt (d : De) : List PT → End → Option De → Prop
  | child {x d2 xs e o} (hx : PVal d x (some d2)) (hs : PElems true d2 xs e o) : ElemsAt d (x :: xs) e o
  | last {x} (hx : PVal d x none) : ElemsAt d [x] (.stop false) none

inductive MembersAt (d : De) : List (Bytes × PT) → End → Option De → Prop
  | child {k d1 x d2 xs e o} (hk : keyStep d = .key k d1) (hx : PVal d1 x (some d2)) (hs : PMembers true d2 xs e o) :
      MembersAt d ((k, x) :: xs) e o
  | last {k d1 x} (hk : keyStep d = .key k d1) (hx : PVal d1 x none) : MembersAt d [(k, x)] (.stop false) none

theorem ElemsAt.elems {d d1 : De} {ac : Bool} {xs : List PT} {e : End} {o : Option De} (h : ElemsAt d1 xs e o)
    (hs : sepStep 0x5D ac d = .child d1) : PElems ac d xs e o := by
  cases h with
  | child h1 h2 => exact .child hs h1 h2
  | last h1 => exact .last hs h1

theorem MembersAt.members {d d1 : De} {ac : Bool} {xs : List (Bytes × PT)} {e : End} {o : Option De}
    (h : MembersAt d1 xs e o) (hs : sepStep 0x7D ac d = .child d1) : PMembers ac d xs e o := by
  cases h with
  | child h0 h1 h2 => exact .child hs h0 h1 h2
  | last h0 h1 => exact .last hs h0 h1

theorem ElemsAt.ws {d d1 : De} {p : Option UInt8} {xs : List PT} {e : End} {o : Option De} (h : ElemsAt d xs e o)
    (hp : d.parseWhitespace = (p, d1)) : ElemsAt d1 xs e o := by
  cases h with
  | child h1 h2 => exact .child (h1.ws hp) h2
  | last h1 => exact .last (h1.ws hp)

theorem MembersAt.ws {d d1 : De} {p : Option UInt8} {xs : List (Bytes × PT)} {e : End} {o : Option De}
    (h : MembersAt d xs e o) (hp : d.parseWhitespace = (p, d1)) : MembersAt d1 xs e o := by
  cases h with
  | child h0 h1 h2 => exact .child ((keyStep_ws hp).trans h0) h1 h2
  | last h0 h1 => exact .last ((keyStep_ws hp).trans h0) h1

theorem elements_head {t : Bytes} {xs : List Json} (h : JElements t xs) :
    ∃ w c r, t = w ++ c :: r ∧ Ws w ∧ isWs c = false ∧ c ≠ 0x2C ∧ c ≠ 0x5D ∧ c ≠ 0x7D := by
  cases h with
  | one h1 h _ =>
    obtain ⟨c, r, rfl, hc⟩ := jvalue_head h
    exact ⟨_, c, _, by simp only [List.cons_append]; rfl, h1, hc⟩
  | cons h1 h _ _ =>
    obtain ⟨c, r, rfl, hc⟩ := jvalue_head h
    exact ⟨_, c, _, by simp only [List.cons_append]; rfl, h1, hc⟩

theorem members_head {t : Bytes} {xs : List (Bytes × Json)} (h : JMembers t xs) :
    ∃ w c r, t = w ++ c :: r ∧ Ws w ∧ isWs c = false ∧ c ≠ 0x2C ∧ c ≠ 0x5D ∧ c ≠ 0x7D := by
  cases h with
  | one h1 hk =>
    obtain ⟨r, rfl⟩ := jstring_head hk
    exact ⟨_, 0x22, _, by simp only [List.cons_append]; rfl, h1, by decide, by decide, by decide, by decide⟩
  | cons h1 hk =>
    obtain ⟨r, rfl⟩ := jstring_head hk
    exact ⟨_, 0x22, _, by simp only [List.cons_append]; rfl, h1, by decide, by decide, by decide, by decide⟩

/-- After the opening bracket, before the first child. -/
theorem sepStep_at {close : UInt8} {d : De} {t r : Bytes} (h : d.rest = t ++ r)
    (ht : ∃ w c r, t = w ++ c :: r ∧ Ws w ∧ isWs c = false ∧ c ≠ 0x2C ∧ c ≠ 0x5D ∧ c ≠ 0x7D) :
    ∃ p d1, d.parseWhitespace = (p, d1) ∧ sepStep close false d = .child d1 := by
  obtain ⟨w, c, r', rfl, hw, hc⟩ := ht
  obtain ⟨d1, e1, t1, e2⟩ := parseWhitespace_complete (d := d) (w := w) (r := c :: (r' ++ r)) (by rw [h]; simp) hw
    (by intro c' hc'; simp at hc'; subst hc'; exact hc.1)
  refine ⟨_, d1, e1, ?_⟩
  unfold sepStep
  rw [e1]
  simp [hc.2]

mutual

theorem JValue.complete : ∀ {t j} (_ : JValue t j) {d : De} {w r : Bytes}, d.rest = w ++ (t ++ r) → Ws w → TokEnd r →
    ∃ pt o, PVal d pt o ∧ ReadsAs d j (w ++ t) r pt o
  | _, _, .null, d, w, r, h, hw, _ => by
    obtain ⟨d', t, e, he⟩ := event_null h hw
    exact ⟨_, _, .leaf he rfl, fun P v w => by simp [toPT], fun _ hd => by cases hd; exact ⟨t, e⟩⟩
  | _, _, .true, d, w, r, h, hw, _ => by
    obtain ⟨d', t, e, he⟩ := event_true h hw
    exact ⟨_, _, .leaf he rfl, fun P v w => by simp [toPT], fun _ hd => by cases hd; exact ⟨t, e⟩⟩
  | _, _, .false, d, w, r, h, hw, _ => by
    obtain ⟨d', t, e, he⟩ := event_false h hw
    exact ⟨_, _, .leaf he rfl, fun P v w => by simp [toPT], fun _ hd => by cases hd; exact ⟨t, e⟩⟩
  | _, _, .num l hl, d, w, r, h, hw, hr => by
    obtain ⟨d', t, e, he⟩ := event_num h hw hl (hr.follow _ _)
    cases hn : numEvent l with
    | ok ev =>
      rw [hn] at he
      exact ⟨_, _, .leaf he (numEvent_isLeaf hn), fun P v w => by simp [toPT, hn], fun _ hd => by cases hd; exact ⟨t, e⟩⟩
    | err =>
      rw [hn] at he
      exact ⟨_, _, .err he, fun P v w => by simp [toPT, hn], fun _ hd => by cases hd⟩
    | panic =>
      rw [hn] at he
      exact ⟨_, _, .panic he, fun P v w => by simp [toPT, hn], fun _ hd => by cases hd⟩
  | _, _, .str hs, d, w, r, h, hw, hr => by
    obtain ⟨d', t, e, he⟩ := event_str h hw hs
    exact ⟨_, _, .leaf he rfl, fun P v w => by simp [toPT], fun _ hd => by cases hd; exact ⟨t, e⟩⟩
  | _, _, .arrEmpty (w := u) hu, d, w, r, h, hw, hr => by
    obtain ⟨d1, t, e, he⟩ := event_open (r := u ++ 0x5D :: r) (by rw [h]; simp) hw
    obtain ⟨d2, hs, t2, e2⟩ := sepStep_close (by simp) (ac := Bool.false) e hu
    exact ⟨_, _, .seq he (.close hs), fun P v w => by simp [toPT, toPTs],
      fun _ hd => by cases hd; exact ⟨by simpa using t.trans t2, e2⟩⟩
  | _, _, .objEmpty (w := u) hu, d, w, r, h, hw, hr => by
    obtain ⟨d1, t, e, he⟩ := event_brace (r := u ++ 0x7D :: r) (by rw [h]; simp) hw
    obtain ⟨d2, hs, t2, e2⟩ := sepStep_close (by simp) (ac := Bool.false) e hu
    exact ⟨_, _, .map he (.close hs), fun P v w => by simp [toPT, toPTms],
      fun _ hd => by cases hd; exact ⟨by simpa using t.trans t2, e2⟩⟩
  | _, _, .arr (t := u) hu, d, w, r, h, hw, hr => by
    obtain ⟨d1, t, e, he⟩ := event_open (r := u ++ 0x5D :: r) (by rw [h]; simp) hw
    obtain ⟨xs, en, o, h1, h2⟩ := hu.complete e
    obtain ⟨p, d2, g1, g2⟩ := sepStep_at (close := 0x5D) e (elements_head hu)
    exact ⟨_, _, .seq he ((h1.ws g1).elems g2), fun P v w => by simp [toPT, drivePT, h2.same],
      fun d' hd => ⟨by simpa using t.trans (h2.eats d' hd).1, (h2.eats d' hd).2⟩⟩
  | _, _, .obj (t := u) hu, d, w, r, h, hw, hr => by
    obtain ⟨d1, t, e, he⟩ := event_brace (r := u ++ 0x7D :: r) (by rw [h]; simp) hw
    obtain ⟨xs, en, o, h1, h2⟩ := hu.complete e
    obtain ⟨p, d2, g1, g2⟩ := sepStep_at (close := 0x7D) e (members_head hu)
    exact ⟨_, _, .map he ((h1.ws g1).members g2), fun P v w => by simp [toPT, drivePT, h2.same],
      fun d' hd => ⟨by simpa using t.trans (h2.eats d' hd).1, (h2.eats d' hd).2⟩⟩

theorem JElements.complete : ∀ {t js} (_ : JElements t js) {d : De} {r : Bytes}, d.rest = t ++ 0x5D :: r →
    ∃ xs e o, ElemsAt d xs e o ∧ ReadsElems d js (t ++ [0x5D]) r xs e o
  | _, _, .one (w₁ := w1) (t := tv) (w₂ := w2) h1 hv h2, d, r, h => by
    obtain ⟨pt, o, p1, p2⟩ := hv.complete (d := d) (w := w1) (r := w2 ++ 0x5D :: r) (by rw [h]; simp) h1
      (tokEnd_ws h2 (tokEnd_cons (by simp)))
    cases o with
    | none =>
      exact ⟨_, _, _, .last p1, fun P q w => by rw [toPTs]; exact elems_last p1 p2.same P q w, fun _ hd => by cases hd⟩
    | some d2 =>
      obtain ⟨t1, e1⟩ := p2.eats d2 rfl
      obtain ⟨d3, hs, t3, e3⟩ := sepStep_close (by simp) (ac := Bool.true) e1 h2
      exact ⟨_, _, _, .child p1 (.close hs), fun P q w => by
          rw [toPTs]; exact elems_child p2.same (fun P q w => by simp [toPTs]) P q w,
        fun _ hd => by cases hd; exact ⟨by simpa using t1.trans t3, e3⟩⟩
  | _, _, .cons (w₁ := w1) (t := tv) (w₂ := w2) (ts := ts) h1 hv h2 hs, d, r, h => by
    obtain ⟨pt, o, p1, p2⟩ := hv.complete (d := d) (w := w1) (r := w2 ++ 0x2C :: (ts ++ 0x5D :: r)) (by rw [h]; simp) h1
      (tokEnd_ws h2 (tokEnd_cons (by simp)))
    cases o with
    | none =>
      exact ⟨_, _, _, .last p1, fun P q w => by rw [toPTs]; exact elems_last p1 p2.same P q w, fun _ hd => by cases hd⟩
    | some d2 =>
      obtain ⟨t1, e1⟩ := p2.eats d2 rfl
      obtain ⟨d3, hs3, t3, e3⟩ := sepStep_comma 0x5D e1 h2
      obtain ⟨xs, e, o, g1, g2⟩ := hs.complete e3
      exact ⟨_, _, _, .child p1 (g1.elems hs3), fun P q w => by
          rw [toPTs]; exact elems_child p2.same g2.same P q w,
        fun d' hd => ⟨by simpa using t1.trans (t3.trans (g2.eats d' hd).1), (g2.eats d' hd).2⟩⟩

theorem JMembers.complete : ∀ {t js} (_ : JMembers t js) {d : De} {r : Bytes}, d.rest = t ++ 0x7D :: r →
    ∃ xs e o, MembersAt d xs e o ∧ ReadsMembers d js (t ++ [0x7D]) r xs e o
  | _, _, .one (w₁ := w1) (k := k) (w₂ := w2) (w₃ := w3) (t := tv) (w₄ := w4) h1 hk h2 h3 hv h4, d, r, h => by
    obtain ⟨d0, k1, k2, k3⟩ := keyStep_complete (d := d) (w1 := w1) (r := w3 ++ (tv ++ (w4 ++ 0x7D :: r))) (by rw [h]; simp) h1 hk h2
    obtain ⟨pt, o, p1, p2⟩ := hv.complete k3 h3 (tokEnd_ws h4 (tokEnd_cons (by simp)))
    cases o with
    | none =>
      exact ⟨_, _, _, .last k1 p1, fun P q w => by rw [toPTms]; exact members_last p1 p2.same P q w, fun _ hd => by cases hd⟩
    | some d2 =>
      obtain ⟨t1, e1⟩ := p2.eats d2 rfl
      obtain ⟨d3, hs, t3, e3⟩ := sepStep_close (by simp) (ac := Bool.true) e1 h4
      exact ⟨_, _, _, .child k1 p1 (.close hs), fun P q w => by
          rw [toPTms]; exact members_child p2.same (fun P q w => by simp [toPTms]) P q w,
        fun _ hd => by cases hd; exact ⟨by simpa using k2.trans (t1.trans t3), e3⟩⟩
  | _, _, .cons (w₁ := w1) (k := k) (w₂ := w2) (w₃ := w3) (t := tv) (w₄ := w4) (ts := ts) h1 hk h2 h3 hv h4 hs, d, r, h => by
    obtain ⟨d0, k1, k2, k3⟩ := keyStep_complete (d := d) (w1 := w1) (r := w3 ++ (tv ++ (w4 ++ 0x2C :: (ts ++ 0x7D :: r))))
      (by rw [h]; simp) h1 hk h2
    obtain ⟨pt, o, p1, p2⟩ := hv.complete k3 h3 (tokEnd_ws h4 (tokEnd_cons (by simp)))
    cases o with
    | none =>
      exact ⟨_, _, _, .last k1 p1, fun P q w => by rw [toPTms]; exact members_last p1 p2.same P q w, fun _ hd => by cases hd⟩
    | some d2 =>
      obtain ⟨t1, e1⟩ := p2.eats d2 rfl
      obtain ⟨d3, hs3, t3, e3⟩ := sepStep_comma 0x7D e1 h4
      obtain ⟨xs, e, o, g1, g2⟩ := hs.complete e3
      exact ⟨_, _, _, .child k1 p1 (g1.members hs3), fun P q w => by
          rw [toPTms]; exact members_child p2.same g2.same P q w,
        fun d' hd => ⟨by simpa using k2.trans (t1.trans (t3.trans (g2.eats d' hd).1)), (g2.eats d' hd).2⟩⟩

end

theorem trailing_ws {d : De} (h : Ws d.rest) : trailing d = .ok () := by
  obtain ⟨d1, e1, t1, e2⟩ := parseWhitespace_complete (d := d) (w := d.rest) (r := []) (by simp) h (by simp)
  unfold trailing
  rw [e1]
  rfl

theorem trailing_ok {d : De} (h : trailing d = .ok ()) : Ws d.rest := by
  obtain ⟨w, d', h1, h2, h3, -, h5⟩ := parseWhitespace_spec d
  unfold trailing at h
  rw [h1] at h
  have := h3.rest
  cases hh : d'.rest with
  | nil => rw [hh] at this; rw [this]; simpa using h2
  | cons c r => rw [hh] at h; simp at h

/-- On a JSON text, `from_str_impl` is the traversal of the tree. -/
theorem fromStrImpl_text {s : Bytes} {j : Json} (h : JText s j) {σ : Type} (P : Proto σ) (v : P.V) (w : σ) (fuel : Nat)
    (hf : s.length < fuel) : fromStrImplFuel P fuel s v w = some (drive P v j w) := by
  obtain ⟨w1, t, w2, rfl, h1, hv, h2⟩ := h
  obtain ⟨pt, o, p1, p2⟩ := hv.complete (d := initDe (w1 ++ (t ++ w2))) (r := w2) (by simp) h1 (by
    simpa using tokEnd_ws h2 tokEnd_nil)
  rw [fromStrImpl_eq P p1 fuel hf, p2.same, ← drive_eq P]
  rcases hd : drive P v j w with ⟨r, w'⟩
  cases r with
  | err => rfl
  | panic => rfl
  | ok u =>
    cases o with
    | none =>
      have := p1.none_not_ok P v w rfl
      rw [p2.same, ← drive_eq P, hd] at this
      exact absurd rfl this
    | some d' =>
      obtain ⟨-, e⟩ := p2.eats d' rfl
      simp only [outcome]
      rw [trailing_ws (by rw [e]; exact h2)]

/-- Whatever the visitor, `Ok` means that the input is a JSON text. -/
theorem fromStrImpl_ok {s : Bytes} {σ : Type} {P : Proto σ} {v : P.V} {w w' : σ} {fuel : Nat} (hf : s.length < fuel)
    (h : fromStrImplFuel P fuel s v w = some (.ok (), w')) : ∃ j, JText s j := by
  obtain ⟨t, o, p⟩ := (parse_total (initDe s).rem).1 (initDe s) (Nat.le_refl _)
  rw [fromStrImpl_eq P p fuel hf] at h
  simp only [Option.some.injEq] at h
  unfold outcome at h
  split at h
  · cases o with
    | none => simp at h
    | some d' =>
      simp only [Prod.mk.injEq] at h
      obtain ⟨w1, tx, j, hw1, hj, te, -⟩ := p.sound rfl
      have := te.rest
      simp at this
      exact ⟨j, w1, tx, _, this, hw1, hj, trailing_ok h.1⟩
  · simp at h
  · simp at h

/-- `from_str_impl` always finishes. -/
theorem fromStrImpl_total (s : Bytes) {σ : Type} (P : Proto σ) (v : P.V) (w : σ) (fuel : Nat) (hf : s.length < fuel) :
    ∃ r, fromStrImplFuel P fuel s v w = some r := by
  obtain ⟨t, o, p⟩ := (parse_total (initDe s).rem).1 (initDe s) (Nat.le_refl _)
  exact ⟨_, fromStrImpl_eq P p fuel hf v w⟩

end Miniserde
