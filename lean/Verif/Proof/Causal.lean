import Verif.Proof.Viable
import Verif.Proof.Space
import Verif.Proof.Prefix
import Verif.Spec.Causal

/-!
# Runs on an input and on a longer input
-/

namespace Miniserde
open De
open scoped List

theorem Pending.suffix {r : Bytes} {dd : List Seen} (a : Bytes) (h : Pending r dd) : Pending (a ++ r) dd := by
  cases h with
  | none => exact .none _
  | element q w hw => rw [← List.append_assoc]; exact .element _ _ hw
  | number q c hc x hx => rw [← List.append_assoc]; exact .number _ _ hc _ hx

/-- Events that are numbers. -/
def Event.isNum : Event → Bool
  | .negative _ => true
  | .nonnegative _ => true
  | .float _ => true
  | _ => false

theorem head_ext {r u : Bytes} (hr : r ≠ []) {c : UInt8} (h : (r ++ u).head? = some c) : r.head? = some c := by
  cases r with
  | nil => exact absurd rfl hr
  | cons a r => simpa using h

theorem De.Follow.ext {fo : Option Bytes} {xo : Option ExpPart} {r u : Bytes} (h : Follow fo xo r) (hr : r ≠ []) : Follow fo xo (r ++ u) :=
  ⟨fun c hc => h.nodigit c (head_ext hr hc), fun a c hc => h.noexp a c (head_ext hr hc), fun a b c hc => h.nodot a b c (head_ext hr hc)⟩

theorem numEvent_isNum {l : NumLit} {ev : Event} (h : numEvent l = .ok ev) : ev.isNum = true := by
  rcases numEvent_cases l with h' | h' | ⟨n, h'⟩ | ⟨n, h'⟩ | ⟨n, h'⟩ <;> rw [h'] at h <;> cases h <;> rfl

theorem FTok.ext {t r u : Bytes} {ev : Event} (h : FTok t ev r) (hr : r ≠ [] ∨ ev.isNum = Bool.false) : FTok t ev (r ++ u) := by
  cases h with
  | null => exact .null _
  | true => exact .true _
  | false => exact .false _
  | num l hl ev he r hf =>
    refine .num l hl ev he _ (hf.ext ?_)
    rcases hr with hr | hr
    · exact hr
    · rw [numEvent_isNum he] at hr; cases hr
  | str h => exact .str h _
  | open_ => exact .open_ _
  | brace => exact .brace _

theorem event_ok_follow {d d1 : De} {ev : Event} (he : d.event = .ok (ev, d1)) :
    ∃ w t, Ws w ∧ FTok t ev d1.rest ∧ d.rest = w ++ (t ++ d1.rest) := by
  rcases event_follow d with hb | ⟨w, t, ev', d', h', hw, ht, te⟩
  · rw [he] at hb; exact hb.not_ok.elim
  · rw [he] at h'
    simp only [Res.ok.injEq, Prod.mk.injEq] at h'
    obtain ⟨rfl, rfl⟩ := h'
    exact ⟨w, t, hw, ht, by have := te.rest; simpa using this⟩

/-- An event read before the end of the input is read the same way if the input goes on. -/
theorem event_ext {d d' d1 : De} {u : Bytes} {ev : Event} (h : d'.rest = d.rest ++ u) (he : d.event = .ok (ev, d1))
    (hx : d1.rest ≠ [] ∨ ev.isNum = false) : ∃ d1', d'.event = .ok (ev, d1') ∧ d1'.rest = d1.rest ++ u := by
  obtain ⟨w, t, hw, ht, e⟩ := event_ok_follow he
  obtain ⟨d1', e1, e2⟩ := event_ftok (d := d') (r := d1.rest ++ u) (by rw [h, e]; simp) hw (ht.ext hx)
  exact ⟨d1', e2, e1⟩

/-! ## Separators -/

theorem not_ws_split : ∀ {r : Bytes}, ¬ Ws r → ∃ w c r', r = w ++ c :: r' ∧ Ws w ∧ isWs c = false
  | [], h => absurd ws_nil h
  | c :: r, h => by
    cases hc : isWs c with
    | false => exact ⟨[], c, r, rfl, ws_nil, hc⟩
    | true =>
      obtain ⟨w, c', r', e, hw, hc'⟩ := not_ws_split (r := r) (fun hr => h (ws_cons.2 ⟨hc, hr⟩))
      exact ⟨c :: w, c', r', by rw [e]; rfl, ws_cons.2 ⟨hc, hw⟩, hc'⟩

/-- How the longer input continues at a separator. -/
def SepExt (close : UInt8) (ac : Bool) (d' : De) (u : Bytes) : Sep → Prop
  | .close d1 => ∃ d1', sepStep close ac d' = .close d1' ∧ d1'.rest = d1.rest ++ u
  | .child d1 => ∃ d1', sepStep close ac d' = .child d1' ∧ d1'.rest = d1.rest ++ u
  | .stop => sepStep close ac d' = .stop

theorem sepStep_ext (close : UInt8) (ac : Bool) {d d' : De} {u : Bytes} (h : d'.rest = d.rest ++ u) (hn : ¬ Ws d.rest) :
    SepExt close ac d' u (sepStep close ac d) := by
  obtain ⟨w, c, r', e, hw, hc⟩ := not_ws_split hn
  obtain ⟨d1, e1, -, e2⟩ := parseWhitespace_complete e hw (by intro c' hc'; simp at hc'; subst hc'; exact hc)
  obtain ⟨d2, e3, -, e4⟩ := parseWhitespace_complete (d := d') (r := c :: (r' ++ u)) (by rw [h, e]; simp) hw
    (by intro c' hc'; simp at hc'; subst hc'; exact hc)
  have b1 := (rest_cons e2).2.2.1
  have b2 := (rest_cons e4).2.2.1
  have bb : d2.bump.rest = d1.bump.rest ++ u := by rw [b1, b2]
  have cc : d2.rest = d1.rest ++ u := by rw [e2, e4]; rfl
  unfold sepStep
  simp only [e1, List.head?_cons, Option.getD_some]
  split
  · rename_i h1; exact ⟨d2.bump, by unfold sepStep; simp only [e3, List.head?_cons, Option.getD_some]; rw [if_pos h1], bb⟩
  · rename_i h1
    split
    · rename_i h2
      split
      · rename_i h3
        exact ⟨d2.bump, by unfold sepStep; simp only [e3, List.head?_cons, Option.getD_some]; rw [if_neg h1, if_pos h2, if_pos h3], bb⟩
      · rename_i h3
        show sepStep close ac d' = .stop
        unfold sepStep; simp only [e3, List.head?_cons, Option.getD_some]; rw [if_neg h1, if_pos h2, if_neg h3]
    · rename_i h2
      split
      · rename_i h3
        show sepStep close ac d' = .stop
        unfold sepStep; simp only [e3, List.head?_cons, Option.getD_some]; rw [if_neg h1, if_neg h2, if_pos h3]
      · rename_i h3
        exact ⟨d2, by unfold sepStep; simp only [e3, List.head?_cons, Option.getD_some]; rw [if_neg h1, if_neg h2, if_neg h3], cc⟩

/-- At the end of the input. -/
theorem sepStep_ws (close : UInt8) (ac : Bool) {d : De} (h : Ws d.rest) :
    (ac = true → sepStep close ac d = .stop) ∧ (ac = false → ∃ d1, sepStep close ac d = .child d1 ∧ d1.rest = []) := by
  obtain ⟨d1, e1, -, e2⟩ := parseWhitespace_complete (d := d) (w := d.rest) (r := []) (by simp) h (by simp)
  constructor
  · rintro rfl
    unfold sepStep
    rw [e1]; simp
  · rintro rfl
    refine ⟨d1, ?_, e2⟩
    unfold sepStep
    rw [e1]; simp

theorem event_nil {d : De} (h : d.rest = []) : d.event = .err := by
  obtain ⟨d1, e1, -, e2⟩ := parseWhitespace_complete (d := d) (w := []) (r := []) (by simp [h]) ws_nil (by simp)
  unfold event
  rw [e1]; rfl

theorem keyStep_nil {d : De} (h : d.rest = []) : keyStep d = .stop false := by
  obtain ⟨d1, e1, -, e2⟩ := parseWhitespace_complete (d := d) (w := []) (r := []) (by simp [h]) ws_nil (by simp)
  unfold keyStep
  rw [e1]; simp

/-! ## Keys -/

/-- A string at a key position is read as the key. -/
theorem keyStep_string {d : De} {w kt k r : Bytes} (h : d.rest = w ++ (kt ++ r)) (hw : Ws w) (hk : JString kt k) :
    (∃ w2 r' d', r = w2 ++ 0x3A :: r' ∧ Ws w2 ∧ keyStep d = .key k d' ∧ d'.rest = r') ∨
    ((∀ w2 r', Ws w2 → r ≠ w2 ++ 0x3A :: r') ∧ keyStep d = .noColon k) := by
  cases hk with
  | @mk body _ hb =>
    obtain ⟨d1, e1, t1, e2⟩ := parseWhitespace_complete (r := 0x22 :: (body ++ 0x22 :: r)) (by rw [h]; simp) hw
      (by intro c' hc'; simp at hc'; subst hc'; rfl)
    obtain ⟨-, -, h3, h4⟩ := rest_cons e2
    obtain ⟨d2, e3, t3, e4⟩ := parseStr_complete (r := r) h3 hb
    by_cases hc : ∃ w2 r', Ws w2 ∧ r = w2 ++ 0x3A :: r'
    · obtain ⟨w2, r', hw2, rfl⟩ := hc
      obtain ⟨d3, e5, t5, e6⟩ := parseWhitespace_complete e4 hw2 (by intro c' hc'; simp at hc'; subst hc'; rfl)
      left
      refine ⟨w2, r', d3.bump, rfl, hw2, ?_, (rest_cons e6).2.2.1⟩
      unfold keyStep
      rw [e1]
      simp [e3, e5]
    · right
      refine ⟨fun w2 r' hw2 e => hc ⟨w2, r', hw2, e⟩, ?_⟩
      obtain ⟨w2, d3, hw2, ws2, tw2, -, -⟩ := parseWhitespace_spec d2
      unfold keyStep
      rw [e1]
      simp only [List.head?_cons, e3, hw2]
      rw [if_pos trivial, if_neg]
      intro h3
      rcases d3.head_cases with h' | ⟨x, r', h'⟩
      · rw [h'] at h3; simp at h3
      · rw [h'] at h3; simp at h3; subst h3
        exact hc ⟨w2, r', ws2, by rw [← e4, tw2.rest, h']⟩

/-- The texts of a key step. -/
theorem keyStep_texts (d : De) :
    (∃ w1 kt k w2 d', keyStep d = .key k d' ∧ Ws w1 ∧ JString kt k ∧ Ws w2 ∧ d.rest = w1 ++ (kt ++ (w2 ++ 0x3A :: d'.rest))) ∨
    (∃ k w1 kt r, keyStep d = .noColon k ∧ Ws w1 ∧ JString kt k ∧ d.rest = w1 ++ (kt ++ r)) ∨ keyStep d = .stop false := by
  rcases keyStep_spec d with ⟨w1, k, key, w2, d', h1, h2, h3, h4, h5⟩ | ⟨k, h1, w1, kt, r, h2, h3, h4⟩ | h1
  · exact .inl ⟨w1, k, key, w2, d', h1, h2, h3, h4, by have := h5.rest; simpa using this⟩
  · exact .inr (.inl ⟨k, w1, kt, r, h1, h2, h3, h4⟩)
  · exact .inr (.inr h1)

theorem keyStep_key_ext {d d' d1 : De} {u k : Bytes} (h : d'.rest = d.rest ++ u) (hk : keyStep d = .key k d1) :
    ∃ d1', keyStep d' = .key k d1' ∧ d1'.rest = d1.rest ++ u := by
  rcases keyStep_texts d with ⟨w1, kt, k', w2, d2, e1, h1, h2, h3, e⟩ | ⟨k', w1, kt, r, e1, -⟩ | e1 <;> rw [hk] at e1 <;> cases e1
  obtain ⟨d1', a, -, b⟩ := keyStep_complete (d := d') (r := d1.rest ++ u) (by rw [h, e]; simp) h1 h2 h3
  exact ⟨d1', a, b⟩

/-! ## What the shorter run says about the longer one -/

/-- A recording protocol. -/
structure RecX {σ : Type} (P : Proto (σ × List Seen)) : Prop extends Recs P where
  elementEq : ∀ q w, (P.element q w).2.2 = w.2 ++ [.element]
  numEq : ∀ v ev w, ev.isNum = true → ∃ x, Seen.isNumber x ∧ (leafCall P v ev w).2.2 = w.2 ++ [x]

theorem recording_recx {σ : Type} (P : Proto σ) : RecX P.recording where
  toRecs := recording_recs P
  elementEq q w := rfl
  numEq v ev w h := by
    cases ev with
    | negative n => exact ⟨.negative n, trivial, rfl⟩
    | nonnegative n => exact ⟨.nonnegative n, trivial, rfl⟩
    | float n => exact ⟨.float n, trivial, rfl⟩
    | _ => cases h

/-- The same calls are recorded. -/
def SameV (t t' : PT) : Prop := ∀ (σ : Type) (P : Proto (σ × List Seen)) (_ : RecX P) (v : P.V) (w : σ × List Seen),
  (drivePT P v t w).2.2 = (drivePT P v t' w).2.2

def SameE (xs : List PT) (e : End) (xs' : List PT) (e' : End) : Prop := ∀ (σ : Type) (P : Proto (σ × List Seen)) (_ : RecX P) (q : P.Q) (w : σ × List Seen),
  (driveElemsPT P q xs e w).2.2 = (driveElemsPT P q xs' e' w).2.2

def SameM (xs : List (Bytes × PT)) (e : End) (xs' : List (Bytes × PT)) (e' : End) : Prop :=
  ∀ (σ : Type) (P : Proto (σ × List Seen)) (_ : RecX P) (m : P.M) (w : σ × List Seen),
    (driveMembersPT P m xs e w).2.2 = (driveMembersPT P m xs' e' w).2.2

/-- All but the pending calls are recorded in the longer run. -/
def Lags (Pend : List Seen → Prop) (a b : List Seen) : Prop := ∃ c dd, a = c ++ dd ∧ c <+: b ∧ Pend dd

theorem Lags.imp {Q R : List Seen → Prop} {a b : List Seen} (h : Lags Q a b) (hi : ∀ dd, Q dd → R dd) : Lags R a b := by
  obtain ⟨c, dd, h1, h2, h3⟩ := h
  exact ⟨c, dd, h1, h2, hi dd h3⟩

theorem Lags.trans {Q : List Seen → Prop} {a b b' : List Seen} (h : Lags Q a b) (hb : b <+: b') : Lags Q a b' := by
  obtain ⟨c, dd, h1, h2, h3⟩ := h
  exact ⟨c, dd, h1, h2.trans hb, h3⟩

/-- Pending calls inside an array. -/
def PendE (ac : Bool) (r : Bytes) (dd : List Seen) : Prop := Pending r dd ∨ (ac = false ∧ Ws r ∧ dd = [.element])

def LateV (r : Bytes) (t t' : PT) : Prop := ∀ (σ : Type) (P : Proto (σ × List Seen)) (_ : RecX P) (v : P.V) (w : σ × List Seen),
  Lags (Pending r) (drivePT P v t w).2.2 (drivePT P v t' w).2.2

def LateE (ac : Bool) (r : Bytes) (xs : List PT) (e : End) (xs' : List PT) (e' : End) : Prop :=
  ∀ (σ : Type) (P : Proto (σ × List Seen)) (_ : RecX P) (q : P.Q) (w : σ × List Seen),
    Lags (PendE ac r) (driveElemsPT P q xs e w).2.2 (driveElemsPT P q xs' e' w).2.2

def LateM (r : Bytes) (xs : List (Bytes × PT)) (e : End) (xs' : List (Bytes × PT)) (e' : End) : Prop :=
  ∀ (σ : Type) (P : Proto (σ × List Seen)) (_ : RecX P) (m : P.M) (w : σ × List Seen),
    Lags (Pending r) (driveMembersPT P m xs e w).2.2 (driveMembersPT P m xs' e' w).2.2

/-- The bytes can be completed to a value. -/
def CompV (r : Bytes) : Prop := ∃ x w t j, r ++ x = w ++ t ∧ Ws w ∧ JValue t j

def CompE (ac : Bool) (r : Bytes) : Prop := ∃ x js c, r ++ x = c ∧ ElemsRest ac js c

def CompM (ac : Bool) (r : Bytes) : Prop := ∃ x js c, r ++ x = c ∧ MembersRest ac js c

/-- The run on the longer input, given that on the shorter one ended at `o`. -/
inductive OutV (u : Bytes) (d' : De) (r : Bytes) (t : PT) : Option De → Prop
  | done {d1 d1'} (h : PVal d' t (some d1')) (hr : d1'.rest = d1.rest ++ u) : OutV u d' r t (some d1)
  | stuck {t'} (h : PVal d' t' none) (hs : SameV t t') : OutV u d' r t none
  | late {t' o o'} (h : PVal d' t' o') (hl : LateV r t t') (ho : ∀ d1, o = some d1 → d1.rest = []) (hc : CompV r) : OutV u d' r t o

inductive OutE (u : Bytes) (ac : Bool) (d' : De) (r : Bytes) (xs : List PT) (e : End) : Option De → Prop
  | done {d1 d1'} (h : PElems ac d' xs e (some d1')) (hr : d1'.rest = d1.rest ++ u) : OutE u ac d' r xs e (some d1)
  | stuck {xs' e'} (h : PElems ac d' xs' e' none) (hs : SameE xs e xs' e') : OutE u ac d' r xs e none
  | late {xs' e' o'} (h : PElems ac d' xs' e' o') (hl : LateE ac r xs e xs' e') (hc : CompE ac r) : OutE u ac d' r xs e none

inductive OutM (u : Bytes) (ac : Bool) (d' : De) (r : Bytes) (xs : List (Bytes × PT)) (e : End) : Option De → Prop
  | done {d1 d1'} (h : PMembers ac d' xs e (some d1')) (hr : d1'.rest = d1.rest ++ u) : OutM u ac d' r xs e (some d1)
  | stuck {xs' e'} (h : PMembers ac d' xs' e' none) (hs : SameM xs e xs' e') : OutM u ac d' r xs e none
  | late {xs' e' o'} (h : PMembers ac d' xs' e' o') (hl : LateM r xs e xs' e') (hc : CompM ac r) : OutM u ac d' r xs e none

/-! ### Completions -/

theorem append_split {r u a b : Bytes} (h : r ++ u = a ++ b) : (∃ x, r ++ x = a) ∨ ∃ z, z ≠ [] ∧ r = a ++ z ∧ b = z ++ u := by
  rcases List.append_eq_append_iff.1 h with ⟨x, h1, h2⟩ | ⟨z, h1, h2⟩
  · exact .inl ⟨x, h1.symm⟩
  · cases z with
    | nil => exact .inl ⟨[], by simp [h1]⟩
    | cons c z => exact .inr ⟨c :: z, by simp, h1, h2⟩

/-- If reading fails on the shorter input but not on the longer one, the shorter one can be completed. -/
theorem event_comp {d d' d1' : De} {u : Bytes} {ev : Event} (h : d'.rest = d.rest ++ u) (hb : ∀ x, d.event ≠ .ok x)
    (he : d'.event = .ok (ev, d1')) : CompV d.rest := by
  obtain ⟨w, t, hw, ht, e⟩ := event_ok_follow he
  rw [h, ← List.append_assoc] at e
  rcases append_split e with ⟨x, hx⟩ | ⟨z, hz, h1, h2⟩
  · have mk : ∀ j y, JValue (t ++ y) j → CompV d.rest := fun j y hj => ⟨x ++ y, w, t ++ y, j, by rw [← List.append_assoc, hx]; simp, hw, hj⟩
    cases ht with
    | null => exact mk _ [] (by simpa using .null)
    | true => exact mk _ [] (by simpa using .true)
    | false => exact mk _ [] (by simpa using .false)
    | num l hl ev he r hf => exact mk _ [] (by simpa using .num l hl)
    | str hs => exact mk _ [] (by simpa using .str hs)
    | open_ => exact mk _ [0x5D] (.arrEmpty ws_nil)
    | brace => exact mk _ [0x7D] (.objEmpty ws_nil)
  · exfalso
    have ht' : FTok t ev z := by
      cases ht with
      | null => exact .null _
      | true => exact .true _
      | false => exact .false _
      | num l hl ev he r hf =>
        refine .num l hl ev he _ ?_
        have hh : ∀ c, z.head? = some c → d1'.rest.head? = some c := by
          intro c hc
          rw [h2]
          cases z with
          | nil => exact absurd rfl hz
          | cons a z => simpa using hc
        exact ⟨fun c hc => hf.nodigit c (hh c hc), fun a c hc => hf.noexp a c (hh c hc), fun a b c hc => hf.nodot a b c (hh c hc)⟩
      | str hs => exact .str hs _
      | open_ => exact .open_ _
      | brace => exact .brace _
    obtain ⟨d2, -, e2⟩ := event_ftok (d := d) (r := z) (by rw [h1]; simp) hw ht'
    exact hb _ e2

theorem sep_texts {close : UInt8} (hcl : close = 0x5D ∨ close = 0x7D) {ac : Bool} {d d1 : De} (h : sepStep close ac d = .child d1) :
    ∃ w, Ws w ∧ d.rest = w ++ ((if ac then [0x2C] else []) ++ d1.rest) := by
  rcases sepStep_spec close hcl ac d with ⟨w, d2, h1, h2, h3⟩ | ⟨w, d2, hac, h1, h2, h3⟩ | ⟨w, d2, hac, h1, h2, h3⟩ | h1 <;>
    rw [h] at h1 <;> cases h1
  · subst hac; exact ⟨w, h2, by have := h3.rest; simpa using this⟩
  · subst hac; exact ⟨w, h2, by have := h3.rest; simpa using this⟩

theorem ElemsRest.cons {ac : Bool} {w0 w t c : Bytes} {j : Json} {js : List Json} (h0 : Ws w0) (hw : Ws w) (ht : JValue t j)
    (hc : ElemsRest true js c) : ElemsRest ac (j :: js) (w0 ++ ((if ac then [0x2C] else []) ++ (w ++ (t ++ c)))) := by
  have key : ∀ w0, Ws w0 → ∃ el, JElements el (j :: js) ∧ w0 ++ (w ++ (t ++ c)) = el ++ [0x5D] := by
    intro w0 hw0
    cases hc with
    | nil hw' => exact ⟨(w0 ++ w) ++ (t ++ _), .one (ws_append hw0 hw) ht hw', by simp⟩
    | next hw' h => exact ⟨(w0 ++ w) ++ (t ++ (_ ++ 0x2C :: _)), .cons (ws_append hw0 hw) ht hw' h, by simp⟩
  cases ac with
  | true =>
    obtain ⟨el, hel, e⟩ := key [] ws_nil
    rw [List.nil_append] at e
    simp only [if_true, List.cons_append, List.nil_append, e]
    exact .next h0 hel
  | false =>
    obtain ⟨el, hel, e⟩ := key w0 h0
    simp only [Bool.false_eq_true, if_false, List.nil_append, e]
    exact .first hel

theorem MembersRest.cons {ac : Bool} {w0 w1 kt k w2 w t c : Bytes} {j : Json} {js : List (Bytes × Json)} (h0 : Ws w0) (h1 : Ws w1) (hk : JString kt k)
    (h2 : Ws w2) (hw : Ws w) (ht : JValue t j) (hc : MembersRest true js c) :
    MembersRest ac ((k, j) :: js) (w0 ++ ((if ac then [0x2C] else []) ++ (w1 ++ (kt ++ (w2 ++ 0x3A :: (w ++ (t ++ c))))))) := by
  have key : ∀ w0, Ws w0 → ∃ el, JMembers el ((k, j) :: js) ∧ w0 ++ (w1 ++ (kt ++ (w2 ++ 0x3A :: (w ++ (t ++ c))))) = el ++ [0x7D] := by
    intro w0 hw0
    cases hc with
    | nil hw' => exact ⟨(w0 ++ w1) ++ (kt ++ (w2 ++ 0x3A :: (w ++ (t ++ _)))), .one (ws_append hw0 h1) hk h2 hw ht hw', by simp⟩
    | next hw' h => exact ⟨(w0 ++ w1) ++ (kt ++ (w2 ++ 0x3A :: (w ++ (t ++ (_ ++ 0x2C :: _))))), .cons (ws_append hw0 h1) hk h2 hw ht hw' h, by simp⟩
  cases ac with
  | true =>
    obtain ⟨el, hel, e⟩ := key [] ws_nil
    rw [List.nil_append] at e
    simp only [if_true, List.cons_append, List.nil_append, e]
    exact .next h0 hel
  | false =>
    obtain ⟨el, hel, e⟩ := key w0 h0
    simp only [Bool.false_eq_true, if_false, List.nil_append, e]
    exact .first hel

theorem CompE.first {ac : Bool} {d d1 : De} (h : sepStep 0x5D ac d = .child d1) (hc : CompV d1.rest) : CompE ac d.rest := by
  obtain ⟨x, w, t, j, e, hw, ht⟩ := hc
  obtain ⟨w0, h0, e0⟩ := sep_texts (.inl rfl) h
  refine ⟨x ++ [0x5D], _, _, ?_, ElemsRest.cons (c := [] ++ [0x5D]) h0 hw ht (.nil ws_nil)⟩
  rw [e0]
  simp only [List.append_assoc]
  congr 2
  rw [← List.append_assoc, e]; simp

theorem CompE.next {ac : Bool} {d d1 d2 : De} {t : PT} (h : sepStep 0x5D ac d = .child d1) (hx : PVal d1 t (some d2)) (hc : CompE true d2.rest) :
    CompE ac d.rest := by
  obtain ⟨x, js, c, e, hr⟩ := hc
  obtain ⟨w0, h0, e0⟩ := sep_texts (.inl rfl) h
  obtain ⟨w, t, j, hw, ht, hE, -⟩ := hx.sound rfl
  refine ⟨x, _, _, ?_, ElemsRest.cons h0 hw ht hr⟩
  rw [e0, hE.rest, ← e]; simp

theorem key_texts {d d1 : De} {k : Bytes} (h : keyStep d = .key k d1) :
    ∃ w1 kt w2, Ws w1 ∧ JString kt k ∧ Ws w2 ∧ d.rest = w1 ++ (kt ++ (w2 ++ 0x3A :: d1.rest)) := by
  rcases keyStep_texts d with ⟨w1, kt, k', w2, d2, e1, h1, h2, h3, e⟩ | ⟨k', w1, kt, r, e1, -⟩ | e1 <;> rw [h] at e1 <;> cases e1
  exact ⟨w1, kt, w2, h1, h2, h3, e⟩

theorem CompM.first {ac : Bool} {d d1 d2 : De} {k : Bytes} (h : sepStep 0x7D ac d = .child d1) (hk : keyStep d1 = .key k d2) (hc : CompV d2.rest) :
    CompM ac d.rest := by
  obtain ⟨x, w, t, j, e, hw, ht⟩ := hc
  obtain ⟨w0, h0, e0⟩ := sep_texts (.inr rfl) h
  obtain ⟨w1, kt, w2, h1, h2, h3, e1⟩ := key_texts hk
  refine ⟨x ++ [0x7D], _, _, ?_, MembersRest.cons (c := [] ++ [0x7D]) h0 h1 h2 h3 hw ht (.nil ws_nil)⟩
  rw [e0, e1]
  simp only [List.append_assoc, List.cons_append]
  congr 6
  rw [← List.append_assoc, e]; simp

theorem CompM.next {ac : Bool} {d d1 d2 d3 : De} {k : Bytes} {t : PT} (h : sepStep 0x7D ac d = .child d1) (hk : keyStep d1 = .key k d2)
    (hx : PVal d2 t (some d3)) (hc : CompM true d3.rest) : CompM ac d.rest := by
  obtain ⟨x, js, c, e, hr⟩ := hc
  obtain ⟨w0, h0, e0⟩ := sep_texts (.inr rfl) h
  obtain ⟨w1, kt, w2, h1, h2, h3, e1⟩ := key_texts hk
  obtain ⟨w, t, j, hw, ht, hE, -⟩ := hx.sound rfl
  refine ⟨x, _, _, ?_, MembersRest.cons h0 h1 h2 h3 hw ht hr⟩
  rw [e0, e1, hE.rest, ← e]; simp

/-- A key that is cut off. -/
theorem CompM.key {ac : Bool} {d d1 : De} {x w1 kt k : Bytes} (h : sepStep 0x7D ac d = .child d1) (hw : Ws w1) (hk : JString kt k)
    {w2 : Bytes} (hw2 : Ws w2) (e : d1.rest ++ x = w1 ++ (kt ++ w2)) : CompM ac d.rest := by
  obtain ⟨w0, h0, e0⟩ := sep_texts (.inr rfl) h
  refine ⟨x ++ (0x3A :: (str! "null" ++ [0x7D])), _, _, ?_,
    MembersRest.cons (w := []) (c := [] ++ [0x7D]) h0 hw hk hw2 ws_nil .null (.nil ws_nil)⟩
  rw [e0]
  simp only [List.append_assoc]
  congr 2
  rw [← List.append_assoc, e]; simp

/-! ### Children -/

section
variable {σ : Type} {P : Proto (σ × List Seen)} (R : RecX P)
include R

theorem elems_start (q : P.Q) (x : PT) (xs : List PT) (e : End) (w : σ × List Seen) :
    (w.2 ++ [.element]) <+: (driveElemsPT P q (x :: xs) e w).2.2 := by
  rw [driveElemsPT]
  have h0 : (P.element q w).2.2 = w.2 ++ [.element] := R.elementEq q w
  split <;> rename_i heq <;> rw [heq] at h0
  · rename_i v w1
    have h1 := drivePT_mono (R.toRecs) v x w1
    split <;> rename_i heq1 <;> rw [heq1] at h1
    · exact h0 ▸ h1.trans (driveElemsPT_mono (R.toRecs) q xs e _)
    · exact h0 ▸ h1
    · exact h0 ▸ h1
  · exact h0 ▸ List.prefix_refl _
  · exact h0 ▸ List.prefix_refl _
end

theorem SameE.next {x : PT} {xs xs' : List PT} {e e' : End} (h : SameE xs e xs' e') : SameE (x :: xs) e (x :: xs') e' := by
  intro σ P R q w
  rw [driveElemsPT, driveElemsPT]
  rcases P.element q w with ⟨r, w1⟩
  cases r with
  | ok v =>
    simp only
    rcases drivePT P v x w1 with ⟨r, w2⟩
    cases r with
    | ok _ => exact h σ P R q w2
    | err => rfl
    | panic => rfl
  | err => rfl
  | panic => rfl

theorem SameE.value {x x' : PT} {xs xs' : List PT} {e e' : End} {d d' : De} (h : SameV x x') (hx : PVal d x none) (hx' : PVal d' x' none) :
    SameE (x :: xs) e (x' :: xs') e' := by
  intro σ P R q w
  rw [driveElemsPT, driveElemsPT]
  rcases P.element q w with ⟨r, w1⟩
  cases r with
  | ok v =>
    have h1 := h σ P R v w1
    have h2 := hx.none_not_ok P v w1 rfl
    have h3 := hx'.none_not_ok P v w1 rfl
    simp only
    rcases h4 : drivePT P v x w1 with ⟨r, w2⟩
    rcases h5 : drivePT P v x' w1 with ⟨r', w2'⟩
    rw [h4] at h1 h2
    rw [h5] at h1 h3
    cases r with
    | ok _ => exact absurd rfl h2
    | err => cases r' with | ok _ => exact absurd rfl h3 | err => exact h1 | panic => exact h1
    | panic => cases r' with | ok _ => exact absurd rfl h3 | err => exact h1 | panic => exact h1
  | err => rfl
  | panic => rfl

theorem LateE.next {ac : Bool} {a r : Bytes} {x : PT} {xs xs' : List PT} {e e' : End} (h : LateE true r xs e xs' e') :
    LateE ac (a ++ r) (x :: xs) e (x :: xs') e' := by
  intro σ P R q w
  rw [driveElemsPT, driveElemsPT]
  rcases P.element q w with ⟨r', w1⟩
  have triv : ∀ l : List Seen, Lags (PendE ac (a ++ r)) l l := fun l => ⟨l, [], by simp, List.prefix_refl _, .inl (.none _)⟩
  cases r' with
  | ok v =>
    simp only
    rcases drivePT P v x w1 with ⟨r', w2⟩
    cases r' with
    | ok _ =>
      refine (h σ P R q w2).imp fun dd hd => ?_
      rcases hd with hd | ⟨hd, -⟩
      · exact .inl (hd.suffix a)
      · cases hd
    | err => exact triv _
    | panic => exact triv _
  | err => exact triv _
  | panic => exact triv _

theorem LateE.value {ac : Bool} {a r : Bytes} {x x' : PT} {xs' : List PT} {e' : End} {p : Bool} (h : LateV r x x') :
    LateE ac (a ++ r) [x] (.stop p) (x' :: xs') e' := by
  intro σ P R q w
  rw [driveElemsPT, driveElemsPT]
  rcases P.element q w with ⟨r', w1⟩
  have triv : ∀ l : List Seen, Lags (PendE ac (a ++ r)) l l := fun l => ⟨l, [], by simp, List.prefix_refl _, .inl (.none _)⟩
  cases r' with
  | ok v =>
    simp only
    have h1 := (h σ P R v w1).imp (R := PendE ac (a ++ r)) fun dd hd => .inl (hd.suffix a)
    generalize drivePT P v x w1 = y at h1 ⊢
    generalize drivePT P v x' w1 = y' at h1 ⊢
    rcases y with ⟨r1, w2⟩
    rcases y' with ⟨r2, w2'⟩
    have h2 : ∀ z, w2'.2 <+: z → Lags (PendE ac (a ++ r)) w2.2 z := fun z hz => h1.trans hz
    cases r1 <;> cases r2 <;> simp only <;> (try rw [driveElemsPT]) <;>
      first
      | exact h2 _ (driveElemsPT_mono R.toRecs q xs' e' w2')
      | exact h2 _ (List.prefix_refl _)
  | err => exact triv _
  | panic => exact triv _

theorem SameM.next {k : Bytes} {x : PT} {xs xs' : List (Bytes × PT)} {e e' : End} (h : SameM xs e xs' e') : SameM ((k, x) :: xs) e ((k, x) :: xs') e' := by
  intro σ P R q w
  rw [driveMembersPT, driveMembersPT]
  rcases P.key q k w with ⟨r, w1⟩
  cases r with
  | ok v =>
    simp only
    rcases drivePT P v x w1 with ⟨r, w2⟩
    cases r with
    | ok _ => exact h σ P R q w2
    | err => rfl
    | panic => rfl
  | err => rfl
  | panic => rfl

theorem SameM.value {k : Bytes} {x x' : PT} {xs xs' : List (Bytes × PT)} {e e' : End} {d d' : De} (h : SameV x x') (hx : PVal d x none) (hx' : PVal d' x' none) :
    SameM ((k, x) :: xs) e ((k, x') :: xs') e' := by
  intro σ P R q w
  rw [driveMembersPT, driveMembersPT]
  rcases P.key q k w with ⟨r, w1⟩
  cases r with
  | ok v =>
    have h1 := h σ P R v w1
    have h2 := hx.none_not_ok P v w1 rfl
    have h3 := hx'.none_not_ok P v w1 rfl
    simp only
    rcases h4 : drivePT P v x w1 with ⟨r, w2⟩
    rcases h5 : drivePT P v x' w1 with ⟨r', w2'⟩
    rw [h4] at h1 h2
    rw [h5] at h1 h3
    cases r with
    | ok _ => exact absurd rfl h2
    | err => cases r' with | ok _ => exact absurd rfl h3 | err => exact h1 | panic => exact h1
    | panic => cases r' with | ok _ => exact absurd rfl h3 | err => exact h1 | panic => exact h1
  | err => rfl
  | panic => rfl

theorem LateM.next {a r : Bytes} {k : Bytes} {x : PT} {xs xs' : List (Bytes × PT)} {e e' : End} (h : LateM r xs e xs' e') :
    LateM (a ++ r) ((k, x) :: xs) e ((k, x) :: xs') e' := by
  intro σ P R q w
  rw [driveMembersPT, driveMembersPT]
  rcases P.key q k w with ⟨r', w1⟩
  have triv : ∀ l : List Seen, Lags (Pending (a ++ r)) l l := fun l => ⟨l, [], by simp, List.prefix_refl _, .none _⟩
  cases r' with
  | ok v =>
    simp only
    rcases drivePT P v x w1 with ⟨r', w2⟩
    cases r' with
    | ok _ =>
      exact (h σ P R q w2).imp fun dd hd => hd.suffix a
    | err => exact triv _
    | panic => exact triv _
  | err => exact triv _
  | panic => exact triv _

theorem LateM.value {a r : Bytes} {k : Bytes} {x x' : PT} {xs' : List (Bytes × PT)} {e' : End} {p : Bool} (h : LateV r x x') :
    LateM (a ++ r) [(k, x)] (.stop p) ((k, x') :: xs') e' := by
  intro σ P R q w
  rw [driveMembersPT, driveMembersPT]
  rcases P.key q k w with ⟨r', w1⟩
  have triv : ∀ l : List Seen, Lags (Pending (a ++ r)) l l := fun l => ⟨l, [], by simp, List.prefix_refl _, .none _⟩
  cases r' with
  | ok v =>
    simp only
    have h1 := (h σ P R v w1).imp (R := Pending (a ++ r)) fun dd hd => hd.suffix a
    generalize drivePT P v x w1 = y at h1 ⊢
    generalize drivePT P v x' w1 = y' at h1 ⊢
    rcases y with ⟨r1, w2⟩
    rcases y' with ⟨r2, w2'⟩
    have h2 : ∀ z, w2'.2 <+: z → Lags (Pending (a ++ r)) w2.2 z := fun z hz => h1.trans hz
    cases r1 <;> cases r2 <;> simp only <;> (try rw [driveMembersPT]) <;>
      first
      | exact h2 _ (driveMembersPT_mono R.toRecs q xs' e' w2')
      | exact h2 _ (List.prefix_refl _)
  | err => exact triv _
  | panic => exact triv _

/-! ### The induction -/

theorem any_val (d : De) : ∃ t o, PVal d t o := (parse_total d.rem).1 d (Nat.le_refl _)
theorem any_elems (ac : Bool) (d : De) : ∃ xs e o, PElems ac d xs e o := (parse_total d.rem).2.1 ac d (Nat.le_refl _)
theorem any_members (ac : Bool) (d : De) : ∃ xs e o, PMembers ac d xs e o := (parse_total d.rem).2.2 ac d (Nat.le_refl _)

theorem elems_with {ac : Bool} {d d1 : De} {x : PT} {o : Option De} (h : sepStep 0x5D ac d = .child d1) (hx : PVal d1 x o) :
    ∃ xs e o', PElems ac d (x :: xs) e o' := by
  cases o with
  | none => exact ⟨_, _, _, .last h hx⟩
  | some d2 =>
    obtain ⟨xs, e, o', hs⟩ := any_elems true d2
    exact ⟨_, _, _, .child h hx hs⟩

theorem members_with {ac : Bool} {d d1 d2 : De} {k : Bytes} {x : PT} {o : Option De} (h : sepStep 0x7D ac d = .child d1)
    (hk : keyStep d1 = .key k d2) (hx : PVal d2 x o) : ∃ xs e o', PMembers ac d ((k, x) :: xs) e o' := by
  cases o with
  | none => exact ⟨_, _, _, .last h hk hx⟩
  | some d2 =>
    obtain ⟨xs, e, o', hs⟩ := any_members true d2
    exact ⟨_, _, _, .child h hk hx hs⟩

theorem late_bad {r : Bytes} {p : Bool} (t : PT) : LateV r (.bad p) t := by
  intro σ P R v w
  rw [drivePT]
  exact ⟨w.2, [], by simp, drivePT_mono R.toRecs v t w, .none _⟩

theorem lateE_stop {ac : Bool} {r : Bytes} {p : Bool} (xs : List PT) (e : End) : LateE ac r [] (.stop p) xs e := by
  intro σ P R q w
  rw [driveElemsPT]
  exact ⟨w.2, [], by simp, driveElemsPT_mono R.toRecs q xs e w, .inl (.none _)⟩

theorem lateM_stop {r : Bytes} {p : Bool} (xs : List (Bytes × PT)) (e : End) : LateM r [] (.stop p) xs e := by
  intro σ P R q w
  rw [driveMembersPT]
  exact ⟨w.2, [], by simp, driveMembersPT_mono R.toRecs q xs e w, .none _⟩

theorem same_bad {p p' : Bool} : SameV (.bad p) (.bad p') := by
  intro σ P R v w
  rw [drivePT, drivePT]

theorem sameM_stop {p p' : Bool} : SameM [] (.stop p) [] (.stop p') := by
  intro σ P R v w
  rw [driveMembersPT, driveMembersPT]

theorem compE_ws {ac : Bool} {r : Bytes} (h : Ws r) : CompE ac r := ⟨[0x5D], [], _, rfl, .nil h⟩
theorem compM_ws {ac : Bool} {r : Bytes} (h : Ws r) : CompM ac r := ⟨[0x7D], [], _, rfl, .nil h⟩

theorem digits_last : ∀ {ds : Bytes}, Digits ds → ∃ q c, ds = q ++ [c] ∧ IsDigit c
  | [], h => absurd rfl h.1
  | [c], h => ⟨[], c, rfl, h.2 c (by simp)⟩
  | c :: c' :: ds, h => by
    obtain ⟨q, x, e, hx⟩ := digits_last (ds := c' :: ds) ⟨by simp, fun y hy => h.2 y (by simp only [List.mem_cons] at hy ⊢; exact .inr hy)⟩
    exact ⟨c :: q, x, by rw [e]; rfl, hx⟩

theorem last_append {r : Bytes} (a : Bytes) (h : ∃ q c, r = q ++ [c] ∧ IsDigit c) : ∃ q c, a ++ r = q ++ [c] ∧ IsDigit c := by
  obtain ⟨q, c, rfl, hc⟩ := h
  exact ⟨a ++ q, c, by simp, hc⟩

theorem numlit_last {l : NumLit} (h : l.WF) : ∃ q c, l.text = q ++ [c] ∧ IsDigit c := by
  obtain ⟨mn, int, fo, xo⟩ := l
  obtain ⟨hi, -, hf, hx⟩ := h
  rw [numLit_text]
  simp only at hi hf hx ⊢
  cases xo with
  | some x =>
    refine last_append _ ?_
    simp only [De.expText, ExpPart.text]
    rw [← List.cons_append]
    exact last_append _ (digits_last (hx x rfl))
  | none =>
    simp only [De.expText, List.append_nil]
    cases fo with
    | some fs =>
      refine last_append _ ?_
      have := last_append [0x2E] (digits_last (hf fs rfl))
      simpa [De.fracText] using this
    | none =>
      simp only [De.fracText, List.append_nil]
      exact last_append _ (digits_last hi)

theorem fail_out {d d' : De} {u : Bytes} {p : Bool} (h : d'.rest = d.rest ++ u) (hb : ∀ x, d.event ≠ .ok x) :
    OutV u d' d.rest (.bad p) none := by
  cases he : d'.event with
  | err => exact .stuck (.err he) same_bad
  | panic => exact .stuck (.panic he) same_bad
  | ok x =>
    obtain ⟨t', o', ht⟩ := any_val d'
    exact .late ht (late_bad t') (fun _ h => by cases h) (event_comp h hb he)

theorem leaf_out {d d' d1 : De} {u : Bytes} {ev : Event} (h : d'.rest = d.rest ++ u) (he : d.event = .ok (ev, d1)) (hl : ev.isLeaf = true) :
    OutV u d' d.rest (.leaf ev) (some d1) := by
  by_cases hx : d1.rest ≠ [] ∨ ev.isNum = false
  · obtain ⟨d1', e1, e2⟩ := event_ext h he hx
    exact .done (.leaf e1 hl) e2
  · have h1 : d1.rest = [] := by
      by_cases h1 : d1.rest = []
      · exact h1
      · exact absurd (.inl h1) hx
    have h2 : ev.isNum = true := by
      cases h2 : ev.isNum with
      | true => rfl
      | false => exact absurd (.inr h2) hx
    obtain ⟨w, t, hw, ht, e⟩ := event_ok_follow he
    rw [h1, List.append_nil] at e
    obtain ⟨l, hl', rfl⟩ : ∃ l : NumLit, l.WF ∧ t = l.text := by
      cases ht with
      | num l hl ev he r hf => exact ⟨l, hl, rfl⟩
      | _ => cases h2
    obtain ⟨q, c, eq, hc⟩ := numlit_last hl'
    obtain ⟨t', o', ht'⟩ := any_val d'
    refine .late ht' ?_ (fun d2 h => by cases h; exact h1) ⟨[], w, l.text, .num l, by rw [e]; simp, hw, .num l hl'⟩
    intro σ P R v w0
    obtain ⟨x, hx1, hx2⟩ := R.numEq v ev w0 h2
    refine ⟨w0.2, [x], by rw [drivePT]; exact hx2, drivePT_mono R.toRecs v t' w0, ?_⟩
    rw [e, eq, ← List.append_assoc]
    exact .number _ _ hc _ hx1

theorem SameE.seq {xs xs' : List PT} {e e' : End} (h : SameE xs e xs' e') : SameV (.seq xs e) (.seq xs' e') := by
  intro σ P R v w
  rw [drivePT, drivePT]
  split
  · rw [R.dropSeq, R.dropSeq]; exact h σ P R _ _
  · rfl
  · rfl

theorem SameM.map {xs xs' : List (Bytes × PT)} {e e' : End} (h : SameM xs e xs' e') : SameV (.map xs e) (.map xs' e') := by
  intro σ P R v w
  rw [drivePT, drivePT]
  split
  · rw [R.dropMap, R.dropMap]; exact h σ P R _ _
  · rfl
  · rfl

theorem LateE.seq {a r : Bytes} {xs xs' : List PT} {e e' : End} (h : LateE false r xs e xs' e') :
    LateV (a ++ 0x5B :: r) (.seq xs e) (.seq xs' e') := by
  intro σ P R v w
  rw [drivePT, drivePT]
  have triv : ∀ l : List Seen, Lags (Pending (a ++ 0x5B :: r)) l l := fun l => ⟨l, [], by simp, List.prefix_refl _, .none _⟩
  split
  · rw [R.dropSeq, R.dropSeq]
    refine (h σ P R _ _).imp fun dd hd => ?_
    rcases hd with hd | ⟨-, hw, rfl⟩
    · have := hd.suffix (a ++ [0x5B])
      simpa using this
    · exact .element _ _ hw
  · exact triv _
  · exact triv _

theorem LateM.map {a r : Bytes} {xs xs' : List (Bytes × PT)} {e e' : End} (h : LateM r xs e xs' e') :
    LateV (a ++ r) (.map xs e) (.map xs' e') := by
  intro σ P R v w
  rw [drivePT, drivePT]
  have triv : ∀ l : List Seen, Lags (Pending (a ++ r)) l l := fun l => ⟨l, [], by simp, List.prefix_refl _, .none _⟩
  split
  · rw [R.dropMap, R.dropMap]
    exact (h σ P R _ _).imp fun dd hd => hd.suffix a
  · exact triv _
  · exact triv _

theorem open_texts {d d1 : De} (he : d.event = .ok (.seqStart, d1)) : ∃ w, Ws w ∧ d.rest = w ++ 0x5B :: d1.rest := by
  obtain ⟨w, t, hw, ht, e⟩ := event_ok_follow he
  cases ht with
  | num l h ev he => exact absurd rfl (Tok.numLeaf he).1
  | open_ => exact ⟨w, hw, e⟩

theorem brace_texts {d d1 : De} (he : d.event = .ok (.mapStart, d1)) : ∃ w, Ws w ∧ d.rest = w ++ 0x7B :: d1.rest := by
  obtain ⟨w, t, hw, ht, e⟩ := event_ok_follow he
  cases ht with
  | num l h ev he => exact absurd rfl (Tok.numLeaf he).2
  | brace => exact ⟨w, hw, e⟩

theorem CompE.seq {w r : Bytes} (hw : Ws w) (h : CompE false r) : CompV (w ++ 0x5B :: r) := by
  obtain ⟨x, js, c, e, hc⟩ := h
  refine ⟨x, w, 0x5B :: c, .arr js, by rw [← e]; simp, hw, ?_⟩
  cases hc with
  | nil hw => exact .arrEmpty hw
  | first h => exact .arr h

theorem CompM.map {w r : Bytes} (hw : Ws w) (h : CompM false r) : CompV (w ++ 0x7B :: r) := by
  obtain ⟨x, js, c, e, hc⟩ := h
  refine ⟨x, w, 0x7B :: c, .obj js, by rw [← e]; simp, hw, ?_⟩
  cases hc with
  | nil hw => exact .objEmpty hw
  | first h => exact .obj h

/-- The cases of a separator position that is followed by a child. -/
theorem child_cases {close : UInt8} {ac : Bool} {d d' d1 : De} {u : Bytes} (h : d'.rest = d.rest ++ u) (hs : sepStep close ac d = .child d1) :
    (ac = false ∧ Ws d.rest ∧ d1.rest = []) ∨ ∃ d1', sepStep close ac d' = .child d1' ∧ d1'.rest = d1.rest ++ u := by
  by_cases hw : Ws d.rest
  · left
    cases ac with
    | true => rw [(sepStep_ws close true hw).1 rfl] at hs; cases hs
    | false =>
      obtain ⟨d2, e, e2⟩ := (sepStep_ws close false hw).2 rfl
      rw [hs] at e
      cases e
      exact ⟨rfl, hw, e2⟩
  · right
    have := sepStep_ext close ac h hw
    rw [hs] at this
    exact this

theorem close_cases {close : UInt8} {ac : Bool} {d d' d1 : De} {u : Bytes} (h : d'.rest = d.rest ++ u) (hs : sepStep close ac d = .close d1) :
    ∃ d1', sepStep close ac d' = .close d1' ∧ d1'.rest = d1.rest ++ u := by
  by_cases hw : Ws d.rest
  · cases ac with
    | true => rw [(sepStep_ws close true hw).1 rfl] at hs; cases hs
    | false => obtain ⟨d2, e, e2⟩ := (sepStep_ws close false hw).2 rfl; rw [hs] at e; cases e
  · have := sepStep_ext close ac h hw
    rw [hs] at this
    exact this

theorem stop_cases {close : UInt8} {ac : Bool} {d d' : De} {u : Bytes} (h : d'.rest = d.rest ++ u) (hs : sepStep close ac d = .stop) :
    Ws d.rest ∨ sepStep close ac d' = .stop := by
  by_cases hw : Ws d.rest
  · exact .inl hw
  · have := sepStep_ext close ac h hw
    rw [hs] at this
    exact .inr this

theorem elems_at_end {d : De} {xs : List PT} {e : End} {o : Option De} (h : PElems true d xs e o) (hr : d.rest = []) :
    xs = [] ∧ e = .stop false ∧ o = none := by
  have hs := (sepStep_ws 0x5D true (d := d) (by rw [hr]; exact ws_nil)).1 rfl
  cases h with
  | close h => rw [hs] at h; cases h
  | stop h => exact ⟨rfl, rfl, rfl⟩
  | child h => rw [hs] at h; cases h
  | last h => rw [hs] at h; cases h

theorem members_at_end {d : De} {xs : List (Bytes × PT)} {e : End} {o : Option De} (h : PMembers true d xs e o) (hr : d.rest = []) :
    xs = [] ∧ e = .stop false ∧ o = none := by
  have hs := (sepStep_ws 0x7D true (d := d) (by rw [hr]; exact ws_nil)).1 rfl
  cases h with
  | close h => rw [hs] at h; cases h
  | stop h => exact ⟨rfl, rfl, rfl⟩
  | keyStop h => rw [hs] at h; cases h
  | noColon h => rw [hs] at h; cases h
  | child h => rw [hs] at h; cases h
  | last h => rw [hs] at h; cases h

theorem val_at_end {d : De} {t : PT} {o : Option De} (h : PVal d t o) (hr : d.rest = []) : t = .bad false ∧ o = none := by
  have he := event_nil hr
  cases h with
  | err => exact ⟨rfl, rfl⟩
  | panic h => rw [he] at h; cases h
  | leaf h => rw [he] at h; cases h
  | seq h => rw [he] at h; cases h
  | map h => rw [he] at h; cases h

mutual
theorem PVal.out : ∀ {d t o} (_ : PVal d t o) {d' : De} {u : Bytes}, d'.rest = d.rest ++ u → OutV u d' d.rest t o
  | _, _, _, .err he, d', u, h => fail_out h (by rw [he]; intro x hx; cases hx)
  | _, _, _, .panic he, d', u, h => fail_out h (by rw [he]; intro x hx; cases hx)
  | _, _, _, .leaf he hl, d', u, h => leaf_out h he hl
  | d, _, _, .seq (d1 := d1) he hs, d', u, h => by
    obtain ⟨d1', e1, e2⟩ := event_ext h he (.inr rfl)
    obtain ⟨w, hw, e⟩ := open_texts he
    cases hs.out e2 with
    | done hs' hr => exact .done (.seq e1 hs') hr
    | stuck hs' hS => exact .stuck (.seq e1 hs') hS.seq
    | late hs' hl hc => exact .late (.seq e1 hs') (by rw [e]; exact hl.seq) (fun _ h => by cases h) (by rw [e]; exact hc.seq hw)
  | d, _, _, .map (d1 := d1) he hs, d', u, h => by
    obtain ⟨d1', e1, e2⟩ := event_ext h he (.inr rfl)
    obtain ⟨w, hw, e⟩ := brace_texts he
    cases hs.out e2 with
    | done hs' hr => exact .done (.map e1 hs') hr
    | stuck hs' hS => exact .stuck (.map e1 hs') hS.map
    | late hs' hl hc =>
      refine .late (.map e1 hs') ?_ (fun _ h => by cases h) (by rw [e]; exact hc.map hw)
      have := hl.map (a := w ++ [0x7B])
      rw [e]; simpa using this

theorem PElems.out : ∀ {ac d xs e o} (_ : PElems ac d xs e o) {d' : De} {u : Bytes}, d'.rest = d.rest ++ u → OutE u ac d' d.rest xs e o
  | _, _, _, _, _, .close hs, d', u, h => by
    obtain ⟨d1', e1, e2⟩ := close_cases h hs
    exact .done (.close e1) e2
  | ac, _, _, _, _, .stop hs, d', u, h => by
    rcases stop_cases h hs with hw | e1
    · obtain ⟨xs', e', o', h'⟩ := any_elems ac d'
      exact .late h' (lateE_stop _ _) (compE_ws hw)
    · exact .stuck (.stop e1) (fun _ _ _ _ _ => rfl)
  | ac, d, _, _, _, .child (d1 := d1) (d2 := d2) hs hx hr, d', u, h => by
    rcases child_cases h hs with ⟨-, -, h0⟩ | ⟨d1', e1, e2⟩
    · have := (val_at_end hx h0).2; cases this
    · obtain ⟨w0, h0, e0⟩ := sep_texts (.inl rfl) hs
      have hxo := hx.out e2
      cases hxo with
      | done hx' e3 =>
        obtain ⟨w, t, j, hw, ht, hE, -⟩ := hx.sound rfl
        cases hr.out e3 with
        | done hr' e4 => exact .done (.child e1 hx' hr') e4
        | stuck hr' hS => exact .stuck (.child e1 hx' hr') hS.next
        | late hr' hl hc =>
          refine .late (.child e1 hx' hr') ?_ (CompE.next hs hx hc)
          rw [e0, hE.rest, ← List.append_assoc, ← List.append_assoc]
          exact hl.next
      | late hx' hl ho hc =>
        obtain ⟨rfl, rfl, rfl⟩ := elems_at_end hr (ho _ rfl)
        obtain ⟨xs', e', o', h'⟩ := elems_with e1 hx'
        refine .late h' ?_ (CompE.first hs hc)
        rw [e0, ← List.append_assoc]
        exact LateE.value hl
  | ac, d, _, _, _, .last (d1 := d1) hs hx, d', u, h => by
    rcases child_cases h hs with ⟨rfl, hw, h0⟩ | ⟨d1', e1, e2⟩
    · obtain ⟨rfl, -⟩ := val_at_end hx h0
      obtain ⟨xs', e', o', h'⟩ := any_elems false d'
      refine .late h' ?_ (compE_ws hw)
      intro σ P R q w
      refine ⟨w.2, [.element], ?_, driveElemsPT_mono R.toRecs q xs' e' w, .inr ⟨rfl, hw, rfl⟩⟩
      rw [driveElemsPT]
      have h0 : (P.element q w).2.2 = w.2 ++ [.element] := R.elementEq q w
      split <;> rename_i heq <;> rw [heq] at h0
      · simp only [drivePT, failure]; exact h0
      · exact h0
      · exact h0
    · obtain ⟨w0, h0, e0⟩ := sep_texts (.inl rfl) hs
      have hxo := hx.out e2
      cases hxo with
      | stuck hx' hS => exact .stuck (.last e1 hx') (SameE.value hS hx hx')
      | late hx' hl ho hc =>
        obtain ⟨xs', e', o', h'⟩ := elems_with e1 hx'
        refine .late h' ?_ (CompE.first hs hc)
        rw [e0, ← List.append_assoc]
        exact LateE.value hl

theorem PMembers.out : ∀ {ac d xs e o} (_ : PMembers ac d xs e o) {d' : De} {u : Bytes}, d'.rest = d.rest ++ u → OutM u ac d' d.rest xs e o
  | _, _, _, _, _, .close hs, d', u, h => by
    obtain ⟨d1', e1, e2⟩ := close_cases h hs
    exact .done (.close e1) e2
  | ac, _, _, _, _, .stop hs, d', u, h => by
    rcases stop_cases h hs with hw | e1
    · obtain ⟨xs', e', o', h'⟩ := any_members ac d'
      exact .late h' (lateM_stop _ _) (compM_ws hw)
    · exact .stuck (.stop e1) (fun _ _ _ _ _ => rfl)
  | ac, d, _, _, _, .keyStop (d1 := d1) (p := p) hs hk, d', u, h => by
    rcases child_cases h hs with ⟨-, hw, h0⟩ | ⟨d1', e1, e2⟩
    · obtain ⟨xs', e', o', h'⟩ := any_members ac d'
      exact .late h' (lateM_stop _ _) (compM_ws hw)
    · have comp : ∀ w1 kt k r, Ws w1 → JString kt k → d1'.rest = w1 ++ (kt ++ r) → CompM ac d.rest := by
        intro w1 kt k r hw1 hk1 e
        rw [e2, ← List.append_assoc] at e
        rcases append_split e with ⟨x, hx⟩ | ⟨z, hz, h1, h2⟩
        · exact CompM.key hs hw1 hk1 (w2 := []) ws_nil (by rw [hx]; simp)
        · rcases keyStep_string (d := d1) (r := z) (by rw [h1]; simp) hw1 hk1 with ⟨_, _, _, _, _, e3, _⟩ | ⟨_, e3⟩ <;> rw [hk] at e3 <;> cases e3
      obtain ⟨xs', e', o', h'⟩ := any_members ac d'
      rcases keyStep_texts d1' with ⟨w1, kt, k', w2, d2, h3, h1, h2, -, e⟩ | ⟨k', w1, kt, r, h3, h1, h2, e⟩ | e3
      · exact .late h' (lateM_stop _ _) (comp _ _ _ _ h1 h2 e)
      · exact .late h' (lateM_stop _ _) (comp _ _ _ _ h1 h2 e)
      · exact .stuck (.keyStop e1 e3) sameM_stop
  | ac, d, _, _, _, .noColon (d1 := d1) (k := k) hs hk, d', u, h => by
    rcases child_cases h hs with ⟨-, -, h0⟩ | ⟨d1', e1, e2⟩
    · rw [keyStep_nil h0] at hk; cases hk
    · rcases keyStep_texts d1 with ⟨w1, kt, k', w2, d2, h3, -⟩ | ⟨k', w1, kt, r, h3, h1, h2, e⟩ | h3 <;> rw [hk] at h3 <;> cases h3
      obtain ⟨w0, h0, e0⟩ := sep_texts (.inr rfl) hs
      rcases keyStep_string (d := d1') (r := r ++ u) (by rw [e2, e]; simp) h1 h2 with ⟨w2, r', d2', er, hw2, e3, e4⟩ | ⟨-, e3⟩
      · obtain ⟨t', o', ht⟩ := any_val d2'
        obtain ⟨xs', e', o'', h'⟩ := members_with e1 e3 ht
        refine .late h' ?_ ?_
        · rw [e0, ← List.append_assoc]
          exact LateM.value (late_bad _)
        · rcases append_split er with ⟨x, hx⟩ | ⟨z, hz, h5, h6⟩
          · exact CompM.key hs h1 h2 hw2 (x := x) (by rw [e, ← hx]; simp)
          · exfalso
            cases z with
            | nil => exact hz rfl
            | cons c z =>
              simp only [List.cons_append, List.cons.injEq] at h6
              obtain ⟨rfl, -⟩ := h6
              obtain ⟨_, e7, _⟩ := keyStep_complete (d := d1) (r := z) (by rw [e, h5]) h1 h2 hw2
              rw [hk] at e7; cases e7
      · exact .stuck (.noColon e1 e3) (fun _ _ _ _ _ => rfl)
  | ac, d, _, _, _, .child (d1 := d1) (d2 := d2) (d3 := d3) hs hk hx hr, d', u, h => by
    rcases child_cases h hs with ⟨-, -, h0⟩ | ⟨d1', e1, e2⟩
    · rw [keyStep_nil h0] at hk; cases hk
    · obtain ⟨d2', k1, k2⟩ := keyStep_key_ext e2 hk
      obtain ⟨w0, h0, e0⟩ := sep_texts (.inr rfl) hs
      obtain ⟨w1, kt, w2, h1, h2, h3, ek⟩ := key_texts hk
      have ed : ∃ a, d.rest = a ++ d2.rest := ⟨w0 ++ ((if ac then [0x2C] else []) ++ (w1 ++ (kt ++ (w2 ++ [0x3A])))), by rw [e0, ek]; simp⟩
      obtain ⟨a, ed⟩ := ed
      have hxo := hx.out k2
      cases hxo with
      | done hx' e3 =>
        obtain ⟨w, t, j, hw, ht, hE, -⟩ := hx.sound rfl
        cases hr.out e3 with
        | done hr' e4 => exact .done (.child e1 k1 hx' hr') e4
        | stuck hr' hS => exact .stuck (.child e1 k1 hx' hr') hS.next
        | late hr' hl hc =>
          refine .late (.child e1 k1 hx' hr') ?_ (CompM.next hs hk hx hc)
          rw [ed, hE.rest, ← List.append_assoc]
          exact hl.next
      | late hx' hl ho hc =>
        obtain ⟨rfl, rfl, rfl⟩ := members_at_end hr (ho _ rfl)
        obtain ⟨xs', e', o', h'⟩ := members_with e1 k1 hx'
        refine .late h' ?_ (CompM.first hs hk hc)
        rw [ed]
        exact LateM.value hl
  | ac, d, _, _, _, .last (d1 := d1) (d2 := d2) hs hk hx, d', u, h => by
    rcases child_cases h hs with ⟨-, -, h0⟩ | ⟨d1', e1, e2⟩
    · rw [keyStep_nil h0] at hk; cases hk
    · obtain ⟨d2', k1, k2⟩ := keyStep_key_ext e2 hk
      obtain ⟨w0, h0, e0⟩ := sep_texts (.inr rfl) hs
      obtain ⟨w1, kt, w2, h1, h2, h3, ek⟩ := key_texts hk
      have ed : ∃ a, d.rest = a ++ d2.rest := ⟨w0 ++ ((if ac then [0x2C] else []) ++ (w1 ++ (kt ++ (w2 ++ [0x3A])))), by rw [e0, ek]; simp⟩
      obtain ⟨a, ed⟩ := ed
      have hxo := hx.out k2
      cases hxo with
      | stuck hx' hS => exact .stuck (.last e1 k1 hx') (SameM.value hS hx hx')
      | late hx' hl ho hc =>
        obtain ⟨xs', e', o', h'⟩ := members_with e1 k1 hx'
        refine .late h' ?_ (CompM.first hs hk hc)
        rw [ed]
        exact LateM.value hl
end

end Miniserde
