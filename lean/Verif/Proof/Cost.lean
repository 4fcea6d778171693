import Verif.Proof.Typed
import Verif.Proof.Ser
import Verif.Proof.Compact
import Verif.Proof.Utf8
import Verif.Spec.Cost

/-!
# Bounds on calls, strings, builders and sizes
-/

namespace Miniserde
open De

/-! ## Text lengths -/

theorem utf8Of_length (c : Char) : (utf8Of c).length ≤ 4 := by
  rw [← encodeUtf8_eq]
  unfold encodeUtf8
  repeat' split
  all_goals simp

theorem strChar_length {t u : Bytes} (h : StrChar t u) : u.length ≤ t.length := by
  cases h with
  | unicode h c hh =>
    obtain ⟨a, b, c', d, w, x, y, z, rfl, -⟩ := hh
    have := utf8Of_length c
    simp
    omega
  | pair h l hi lo c hh hl hhi hlo hc =>
    obtain ⟨a, b, c', d, w, x, y, z, rfl, -⟩ := hh
    have := utf8Of_length c
    simp
    omega
  | _ => simp

theorem strBody_length {t u : Bytes} (h : StrBody t u) : u.length ≤ t.length := by
  induction h with
  | nil => simp
  | cons h _ ih =>
    have := strChar_length h
    simp
    omega

theorem jstring_length {t s : Bytes} (h : JString t s) : s.length + 2 ≤ t.length := by
  cases h with
  | mk h =>
    have := strBody_length h
    simp
    omega

/-! ## The wrapper changes nothing -/

mutual

/-- Calls, bytes and depth of a partial tree. -/
def PT.calls : PT → Nat
  | .leaf _ => 1
  | .bad _ => 0
  | .seq xs e => 1 + PT.callsL xs + (if e = .closed then 1 else 0)
  | .map ms e => 1 + PT.callsM ms + (if e = .closed then 1 else 0)

def PT.callsL : List PT → Nat
  | [] => 0
  | x :: xs => 1 + x.calls + PT.callsL xs

def PT.callsM : List (Bytes × PT) → Nat
  | [] => 0
  | (_, x) :: ms => 1 + x.calls + PT.callsM ms

end

mutual

def PT.bytes : PT → Nat
  | .leaf (.str s) => s.length
  | .leaf _ => 0
  | .bad _ => 0
  | .seq xs _ => PT.bytesL xs
  | .map ms _ => PT.bytesM ms

def PT.bytesL : List PT → Nat
  | [] => 0
  | x :: xs => x.bytes + PT.bytesL xs

def PT.bytesM : List (Bytes × PT) → Nat
  | [] => 0
  | (k, x) :: ms => k.length + x.bytes + PT.bytesM ms

end

mutual

def PT.depth : PT → Nat
  | .leaf _ => 0
  | .bad _ => 0
  | .seq xs _ => 1 + PT.depthL xs
  | .map ms _ => 1 + PT.depthM ms

def PT.depthL : List PT → Nat
  | [] => 0
  | x :: xs => max x.depth (PT.depthL xs)

def PT.depthM : List (Bytes × PT) → Nat
  | [] => 0
  | (_, x) :: ms => max x.depth (PT.depthM ms)

end

/-- The counters after a run that started with `μ`, within bounds. -/
structure Within (μ μ' : Meter) (calls bytes depth : Nat) : Prop where
  calls : μ'.calls ≤ μ.calls + calls
  bytes : μ'.bytes ≤ μ.bytes + bytes
  live : μ'.live = μ.live
  peak : μ'.peak ≤ max μ.peak (μ.live + depth)

theorem Within.refl (μ : Meter) (c b d : Nat) : Within μ μ c b d := ⟨by omega, by omega, rfl, by omega⟩

theorem Within.call (μ : Meter) (n : Nat) {c b d : Nat} (hc : 1 ≤ c) (hb : n ≤ b) : Within μ (μ.call n) c b d :=
  ⟨by simp [Meter.call]; omega, by simp [Meter.call]; omega, rfl, by simp [Meter.call]; omega⟩

theorem Within.trans {μ μ1 μ2 : Meter} {c b d c1 b1 d1 c2 b2 d2 : Nat} (h : Within μ μ1 c b d) (h1 : Within μ1 μ2 c1 b1 d1) (hc : c + c1 ≤ c2)
    (hb : b + b1 ≤ b2) (hd : d ≤ d2) (hd1 : d1 ≤ d2) : Within μ μ2 c2 b2 d2 := by
  obtain ⟨a1, a2, a3, a4⟩ := h
  obtain ⟨e1, e2, e3, e4⟩ := h1
  exact ⟨by omega, by omega, by omega, by rw [a3] at e4; omega⟩

theorem Within.opened {α : Type} {μ μ1 : Meter} {r : Res α} {a : α} (hr : r = .ok a) {c b d : Nat} (h : Within (μ.opens r) μ1 c b d) :
    Within μ μ1.drops (c + 1) b (d + 1) := by
  subst hr
  obtain ⟨a1, a2, a3, a4⟩ := h
  simp only [Meter.opens, Meter.call] at a1 a2 a3 a4
  refine ⟨by simp [Meter.drops]; omega, by simp [Meter.drops]; omega, by simp [Meter.drops]; omega, by simp [Meter.drops]; omega⟩

section
variable {σ : Type} (P : Proto σ)

theorem leafCall_metered (v : P.V) (ev : Event) (w : σ) (μ : Meter) :
    ∃ μ', leafCall P.metered v ev (w, μ) = ((leafCall P v ev w).1, (leafCall P v ev w).2, μ') ∧ Within μ μ' 1 (PT.leaf ev).bytes 0 := by
  cases ev with
  | seqStart => exact ⟨μ, rfl, .refl _ _ _ _⟩
  | mapStart => exact ⟨μ, rfl, .refl _ _ _ _⟩
  | str s => exact ⟨μ.call s.length, rfl, .call _ _ (Nat.le_refl _) (by simp [PT.bytes])⟩
  | _ => exact ⟨μ.call 0, rfl, .call _ _ (Nat.le_refl _) (Nat.zero_le _)⟩

mutual

theorem drivePT_metered (v : P.V) : ∀ (t : PT) (w : σ) (μ : Meter),
    ∃ μ', drivePT P.metered v t (w, μ) = ((drivePT P v t w).1, (drivePT P v t w).2, μ') ∧ Within μ μ' t.calls t.bytes t.depth
  | .leaf ev, w, μ => by
    obtain ⟨μ', h1, h2⟩ := leafCall_metered P v ev w μ
    exact ⟨μ', by simp only [drivePT]; exact h1, by simpa [PT.calls, PT.depth] using h2⟩
  | .bad p, w, μ => ⟨μ, by simp [drivePT], .refl _ _ _ _⟩
  | .seq xs e, w, μ => by
    simp only [drivePT]
    have hs : P.metered.seq v (w, μ) = ((P.seq v w).1, (P.seq v w).2, μ.opens (P.seq v w).1) := rfl
    rw [hs]
    rcases hq : P.seq v w with ⟨r, w1⟩
    cases r with
    | ok q =>
      obtain ⟨μ', h1, h2⟩ := driveElemsPT_metered q xs e w1 (μ.opens (.ok q))
      simp only
      rw [h1]
      refine ⟨μ'.drops, rfl, ?_⟩
      have h3 := Within.opened (r := .ok q) rfl h2
      refine ⟨?_, ?_, h3.live, ?_⟩
      · have := h3.calls; simp [PT.calls]; omega
      · have := h3.bytes; simp [PT.bytes]; omega
      · have := h3.peak; simp only [PT.depth]; omega
    | err => exact ⟨μ.call 0, rfl, .call _ _ (by simp [PT.calls]; omega) (Nat.zero_le _)⟩
    | panic => exact ⟨μ.call 0, rfl, .call _ _ (by simp [PT.calls]; omega) (Nat.zero_le _)⟩
  | .map ms e, w, μ => by
    simp only [drivePT]
    have hs : P.metered.map v (w, μ) = ((P.map v w).1, (P.map v w).2, μ.opens (P.map v w).1) := rfl
    rw [hs]
    rcases hq : P.map v w with ⟨r, w1⟩
    cases r with
    | ok q =>
      obtain ⟨μ', h1, h2⟩ := driveMembersPT_metered q ms e w1 (μ.opens (.ok q))
      simp only
      rw [h1]
      refine ⟨μ'.drops, rfl, ?_⟩
      have h3 := Within.opened (r := .ok q) rfl h2
      refine ⟨?_, ?_, h3.live, ?_⟩
      · have := h3.calls; simp [PT.calls]; omega
      · have := h3.bytes; simp [PT.bytes]; omega
      · have := h3.peak; simp only [PT.depth]; omega
    | err => exact ⟨μ.call 0, rfl, .call _ _ (by simp [PT.calls]; omega) (Nat.zero_le _)⟩
    | panic => exact ⟨μ.call 0, rfl, .call _ _ (by simp [PT.calls]; omega) (Nat.zero_le _)⟩

theorem driveElemsPT_metered (q : P.Q) : ∀ (xs : List PT) (e : End) (w : σ) (μ : Meter),
    ∃ μ', driveElemsPT P.metered q xs e (w, μ) = ((driveElemsPT P q xs e w).1, (driveElemsPT P q xs e w).2, μ') ∧
      Within μ μ' (PT.callsL xs + (if e = .closed then 1 else 0)) (PT.bytesL xs) (PT.depthL xs)
  | [], .closed, w, μ => ⟨μ.call 0, rfl, .call _ _ (by simp) (Nat.zero_le _)⟩
  | [], .stop p, w, μ => ⟨μ, by simp [driveElemsPT], .refl _ _ _ _⟩
  | x :: xs, e, w, μ => by
    simp only [driveElemsPT]
    have hs : P.metered.element q (w, μ) = ((P.element q w).1, (P.element q w).2, μ.call 0) := rfl
    rw [hs]
    rcases hq : P.element q w with ⟨r, w1⟩
    cases r with
    | ok v =>
      obtain ⟨μ1, h1, h2⟩ := drivePT_metered v x w1 (μ.call 0)
      simp only
      rw [h1]
      have h0 : Within μ μ1 (1 + x.calls) x.bytes x.depth :=
        (Within.call μ 0 (c := 1) (b := 0) (d := 0) (Nat.le_refl _) (Nat.le_refl _)).trans h2 (Nat.le_refl _) (by omega) (by omega) (by omega)
      rcases hx : drivePT P v x w1 with ⟨r, w2⟩
      cases r with
      | ok u =>
        obtain ⟨μ2, h3, h4⟩ := driveElemsPT_metered q xs e w2 μ1
        simp only
        exact ⟨μ2, h3, h0.trans h4 (by simp [PT.callsL]; omega) (by simp [PT.bytesL]) (by simp only [PT.depthL]; omega) (by simp only [PT.depthL]; omega)⟩
      | err => exact ⟨μ1, rfl, h0.trans (.refl _ 0 0 0) (by simp [PT.callsL]; omega) (by simp [PT.bytesL]) (by simp only [PT.depthL]; omega) (Nat.zero_le _)⟩
      | panic => exact ⟨μ1, rfl, h0.trans (.refl _ 0 0 0) (by simp [PT.callsL]; omega) (by simp [PT.bytesL]) (by simp only [PT.depthL]; omega) (Nat.zero_le _)⟩
    | err => exact ⟨μ.call 0, rfl, .call _ _ (by simp [PT.callsL]; omega) (Nat.zero_le _)⟩
    | panic => exact ⟨μ.call 0, rfl, .call _ _ (by simp [PT.callsL]; omega) (Nat.zero_le _)⟩

theorem driveMembersPT_metered (m : P.M) : ∀ (ms : List (Bytes × PT)) (e : End) (w : σ) (μ : Meter),
    ∃ μ', driveMembersPT P.metered m ms e (w, μ) = ((driveMembersPT P m ms e w).1, (driveMembersPT P m ms e w).2, μ') ∧
      Within μ μ' (PT.callsM ms + (if e = .closed then 1 else 0)) (PT.bytesM ms) (PT.depthM ms)
  | [], .closed, w, μ => ⟨μ.call 0, rfl, .call _ _ (by simp) (Nat.zero_le _)⟩
  | [], .stop p, w, μ => ⟨μ, by simp [driveMembersPT], .refl _ _ _ _⟩
  | (k, x) :: ms, e, w, μ => by
    simp only [driveMembersPT]
    have hs : P.metered.key m k (w, μ) = ((P.key m k w).1, (P.key m k w).2, μ.call k.length) := rfl
    rw [hs]
    rcases hq : P.key m k w with ⟨r, w1⟩
    cases r with
    | ok v =>
      obtain ⟨μ1, h1, h2⟩ := drivePT_metered v x w1 (μ.call k.length)
      simp only
      rw [h1]
      have h0 : Within μ μ1 (1 + x.calls) (k.length + x.bytes) x.depth :=
        (Within.call μ k.length (c := 1) (b := k.length) (d := 0) (Nat.le_refl _) (Nat.le_refl _)).trans h2 (Nat.le_refl _) (by omega) (by omega) (by omega)
      rcases hx : drivePT P v x w1 with ⟨r, w2⟩
      cases r with
      | ok u =>
        obtain ⟨μ2, h3, h4⟩ := driveMembersPT_metered m ms e w2 μ1
        simp only
        exact ⟨μ2, h3, h0.trans h4 (by simp [PT.callsM]; omega) (by simp [PT.bytesM]) (by simp only [PT.depthM]; omega) (by simp only [PT.depthM]; omega)⟩
      | err => exact ⟨μ1, rfl, h0.trans (.refl _ 0 0 0) (by simp [PT.callsM]; omega) (by simp [PT.bytesM]) (by simp only [PT.depthM]; omega) (Nat.zero_le _)⟩
      | panic => exact ⟨μ1, rfl, h0.trans (.refl _ 0 0 0) (by simp [PT.callsM]; omega) (by simp [PT.bytesM]) (by simp only [PT.depthM]; omega) (Nat.zero_le _)⟩
    | err => exact ⟨μ.call k.length, rfl, .call _ _ (by simp [PT.callsM]; omega) (by simp [PT.bytesM]; omega)⟩
    | panic => exact ⟨μ.call k.length, rfl, .call _ _ (by simp [PT.callsM]; omega) (by simp [PT.bytesM]; omega)⟩

end
end

/-! ## Bounds of a partial tree -/

/-- What is left: all of the rest if reading stopped. -/
def left : Option De → Nat
  | none => 0
  | some d => d.rem

theorem event_bound {d d' : De} {ev : Event} (h : d.event = .ok (ev, d')) : (PT.leaf ev).bytes + 1 + d'.rem ≤ d.rem := by
  obtain ⟨w, t, -, ht, te⟩ := event_ok_spec h
  have h1 := te.rem
  have h2 : (PT.leaf ev).bytes + 1 ≤ t.length := by
    have h3 : 0 < t.length := List.length_pos_iff.2 ht.ne_nil
    cases ht with
    | str hj =>
      have := jstring_length hj
      simp only [PT.bytes]; omega
    | num l h _ he =>
      rcases numEvent_cases l with h' | h' | ⟨n, h'⟩ | ⟨n, h'⟩ | ⟨n, h'⟩ <;> rw [h'] at he <;> cases he <;> simp [PT.bytes] <;> omega
    | _ => simp [PT.bytes]
  simp at h1
  omega

theorem sepStep_bound {close : UInt8} (hcl : close = 0x5D ∨ close = 0x7D) {ac : Bool} {d d' : De}
    (h : sepStep close ac d = .child d') : d'.rem + (if ac = true then 1 else 0) ≤ d.rem := by
  rcases sepStep_spec close hcl ac d with ⟨w, d2, h1, h2, h3⟩ | ⟨w, d2, hac, h1, h2, h3⟩ | ⟨w, d2, hac, h1, h2, h3⟩ | h1 <;>
    rw [h] at h1 <;> cases h1 <;> (have := h3.rem; simp [hac] at this ⊢; omega)

theorem keyStep_bound {d d' : De} {k : Bytes} (h : keyStep d = .key k d') : k.length + 3 + d'.rem ≤ d.rem := by
  rcases keyStep_spec d with ⟨u1, kt, key, u2, d5, k1, k2, k3, k4, k5⟩ | ⟨k, k1, -⟩ | k1 <;>
      rw [h] at k1 <;> cases k1
  have := k5.rem
  have := jstring_length k3
  simp at *
  omega

theorem keyStep_noColon_bound {d : De} {k : Bytes} (h : keyStep d = .noColon k) : k.length + 2 ≤ d.rem := by
  rcases keyStep_spec d with ⟨u1, kt, key, u2, d5, k1, k2, k3, k4, k5⟩ | ⟨k, k1, w1, kt, r, k2, k3, k4⟩ | k1 <;>
      rw [h] at k1 <;> cases k1
  have := jstring_length k3
  have e : d.rem = d.rest.length := by simp [rem]
  rw [e, k4]
  simp
  omega

mutual

theorem PVal.bound : ∀ {d t o} (_ : PVal d t o), t.calls + 2 * left o ≤ 2 * d.rem ∧ t.bytes + left o ≤ d.rem ∧ t.depth + left o ≤ d.rem
  | _, _, _, .err _ => by simp [PT.calls, PT.bytes, PT.depth, left]
  | _, _, _, .panic _ => by simp [PT.calls, PT.bytes, PT.depth, left]
  | _, _, _, .leaf h _ => by
    have := event_bound h
    simp only [PT.calls, PT.depth, left]
    omega
  | _, _, _, .seq h hs => by
    have h1 := event_bound h
    have h2 := hs.bound
    simp [PT.calls, PT.depth, PT.bytes] at h1 h2 ⊢
    omega
  | _, _, _, .map h hs => by
    have h1 := event_bound h
    have h2 := hs.bound
    simp [PT.calls, PT.depth, PT.bytes] at h1 h2 ⊢
    omega

theorem PElems.bound : ∀ {ac d xs e o} (_ : PElems ac d xs e o),
    PT.callsL xs + (if e = .closed then 1 else 0) + 2 * left o ≤ 2 * d.rem + (if ac = true then 0 else 1) ∧ PT.bytesL xs + left o ≤ d.rem ∧
      PT.depthL xs + left o ≤ d.rem
  | _, _, _, _, _, .close h => by
    have := sepStep_close_rem (by simp) h
    simp only [PT.callsL, PT.bytesL, PT.depthL, left]
    split <;> simp <;> omega
  | _, _, _, _, _, .stop h => by simp [PT.callsL, PT.bytesL, PT.depthL, left]
  | _, _, _, _, _, .child h hx hs => by
    have h1 := sepStep_bound (by simp) h
    have h2 := hx.bound
    have h3 := hs.bound
    simp [PT.callsL, PT.bytesL, PT.depthL, left] at h1 h2 h3 ⊢
    split at h1 <;> simp_all <;> omega
  | _, _, _, _, _, .last h hx => by
    have h1 := sepStep_bound (by simp) h
    have h2 := hx.bound
    simp [PT.callsL, PT.bytesL, PT.depthL, left] at h1 h2 ⊢
    split at h1 <;> simp_all <;> omega

theorem PMembers.bound : ∀ {ac d xs e o} (_ : PMembers ac d xs e o),
    PT.callsM xs + (if e = .closed then 1 else 0) + 2 * left o ≤ 2 * d.rem + (if ac = true then 0 else 1) ∧ PT.bytesM xs + left o ≤ d.rem ∧
      PT.depthM xs + left o ≤ d.rem
  | _, _, _, _, _, .close h => by
    have := sepStep_close_rem (by simp) h
    simp only [PT.callsM, PT.bytesM, PT.depthM, left]
    split <;> simp <;> omega
  | _, _, _, _, _, .stop h => by simp [PT.callsM, PT.bytesM, PT.depthM, left]
  | _, _, _, _, _, .keyStop h _ => by simp [PT.callsM, PT.bytesM, PT.depthM, left]
  | _, _, _, _, _, .noColon h hk => by
    have h1 := sepStep_bound (by simp) h
    have h2 := keyStep_noColon_bound hk
    simp [PT.callsM, PT.bytesM, PT.depthM, PT.calls, PT.bytes, PT.depth, left] at h1 h2 ⊢
    omega
  | _, _, _, _, _, .child h hk hx hs => by
    have h0 := sepStep_bound (by simp) h
    have h1 := keyStep_bound hk
    have h2 := hx.bound
    have h3 := hs.bound
    simp [PT.callsM, PT.bytesM, PT.depthM, left] at h0 h1 h2 h3 ⊢
    omega
  | _, _, _, _, _, .last h hk hx => by
    have h0 := sepStep_bound (by simp) h
    have h1 := keyStep_bound hk
    have h2 := hx.bound
    simp [PT.callsM, PT.bytesM, PT.depthM, left] at h0 h1 h2 ⊢
    omega

end

theorem metered_run {σ : Type} (P : Proto σ) (v : P.V) (w w' : σ) (s : Bytes) (r : Res Unit) (h : fromStrImpl P s v w = some (r, w')) :
    ∃ μ, fromStrImpl P.metered s v (w, {}) = some (r, w', μ) ∧ Within {} μ (2 * s.length) s.length s.length := by
  obtain ⟨t, o, p⟩ := (parse_total (initDe s).rem).1 (initDe s) (Nat.le_refl _)
  rw [fromStrImpl, fromStrImpl_eq P p _ (by omega)] at h
  obtain ⟨μ, h1, h2⟩ := drivePT_metered P v t w {}
  have hb := p.bound
  rw [initDe_rem] at hb
  refine ⟨μ, ?_, ?_⟩
  · have h1' : drivePT P.metered v t (w, {}) = ((drivePT P v t w).1, (drivePT P v t w).2, μ) := h1
    refine (fromStrImpl_eq P.metered p (s.length + 1) (by omega) v (w, {})).trans ?_
    rw [h1']
    rcases hd : drivePT P v t w with ⟨r1, w1⟩
    rw [hd] at h
    cases r1 <;> cases o <;> simp [outcome] at h ⊢ <;> simp [h]
  · refine ⟨?_, ?_, h2.live, ?_⟩
    · have := h2.calls; omega
    · have := h2.bytes; omega
    · have := h2.peak; omega

/-! ## The size of decoded values -/

mutual

/-- The size of a tree: bytes of strings and keys, elements, members. -/
def Json.size : Json → Nat
  | .str s => s.length
  | .arr xs => Json.sizeL xs
  | .obj ms => Json.sizeM ms
  | _ => 0

def Json.sizeL : List Json → Nat
  | [] => 0
  | x :: xs => (x.size + 1) + Json.sizeL xs

def Json.sizeM : List (Bytes × Json) → Nat
  | [] => 0
  | (k, x) :: ms => (k.length + x.size + 1) + Json.sizeM ms

end

mutual

theorem JValue.size : ∀ {t j} (_ : JValue t j), j.size + 1 ≤ t.length
  | _, _, .null => by simp [Json.size]
  | _, _, .true => by simp [Json.size]
  | _, _, .false => by simp [Json.size]
  | _, _, .num l h => by
    have := List.length_pos_iff.2 (JValue.num l h).ne_nil
    simp only [Json.size]
    omega
  | _, _, .str h => by
    have := jstring_length h
    simp only [Json.size]
    omega
  | _, _, .arrEmpty _ => by simp [Json.size, Json.sizeL]
  | _, _, .arr h => by
    have := h.size
    simp [Json.size]
    omega
  | _, _, .objEmpty _ => by simp [Json.size, Json.sizeM]
  | _, _, .obj h => by
    have := h.size
    simp [Json.size]
    omega

theorem JElements.size : ∀ {t xs} (_ : JElements t xs), Json.sizeL xs ≤ t.length
  | _, _, .one _ h _ => by
    have := h.size
    simp [Json.sizeL]
    omega
  | _, _, .cons _ h _ hs => by
    have := h.size
    have := hs.size
    simp [Json.sizeL]
    omega

theorem JMembers.size : ∀ {t xs} (_ : JMembers t xs), Json.sizeM xs ≤ t.length
  | _, _, .one _ hk _ _ h _ => by
    have := jstring_length hk
    have := h.size
    simp [Json.sizeM]
    omega
  | _, _, .cons _ hk _ _ h _ hs => by
    have := jstring_length hk
    have := h.size
    have := hs.size
    simp [Json.sizeM]
    omega

end

theorem JText.size {t : Bytes} {j : Json} (h : JText t j) : j.size + 1 ≤ t.length := by
  obtain ⟨w₁, v, w₂, rfl, -, hv, -⟩ := h
  have := hv.size
  simp
  omega

theorem hashInsert_size (k : Bytes) (v : Val) : ∀ (m : List (Bytes × Val)), Val.sizeM (hashInsert k v m) ≤ Val.sizeM m + (k.length + v.size + 1)
  | [] => by simp [hashInsert, Val.sizeM]
  | (k', v') :: m => by
    have := hashInsert_size k v m
    simp only [hashInsert]
    split
    · rename_i h; subst h; simp only [Val.sizeM]; omega
    · simp only [Val.sizeM]; omega

theorem btreeInsert_size (lt : Bytes → Bytes → Bool) (k : Bytes) (v : Val) : ∀ (m : List (Bytes × Val)),
    Val.sizeM (btreeInsert lt k v m) ≤ Val.sizeM m + (k.length + v.size + 1)
  | [] => by simp [btreeInsert, Val.sizeM]
  | (k', v') :: m => by
    have := btreeInsert_size lt k v m
    simp only [btreeInsert]
    repeat' split
    all_goals simp only [Val.sizeM]
    all_goals omega

theorem foldl_size (f : Bytes → Val → List (Bytes × Val) → List (Bytes × Val))
    (hf : ∀ k v m, Val.sizeM (f k v m) ≤ Val.sizeM m + (k.length + v.size + 1)) : ∀ (kvs m : List (Bytes × Val)),
    Val.sizeM (kvs.foldl (fun m kv => f kv.1 kv.2 m) m) ≤ Val.sizeM m + Val.sizeM kvs
  | [], m => by simp [Val.sizeM]
  | (k, v) :: kvs, m => by
    have h1 := foldl_size f hf kvs (f k v m)
    have h2 := hf k v m
    simp only [List.foldl_cons, Val.sizeM]
    omega

/-- Total size of decoded members. -/
def sizeI : List (Nat × Val) → Nat
  | [] => 0
  | (_, v) :: l => v.size + sizeI l

theorem sizeI_append (a b : List (Nat × Val)) : sizeI (a ++ b) = sizeI a + sizeI b := by
  induction a with
  | nil => simp [sizeI]
  | cons x a ih => simp only [List.cons_append, sizeI, ih]; omega

theorem sizeI_reverse (a : List (Nat × Val)) : sizeI a.reverse = sizeI a := by
  induction a with
  | nil => rfl
  | cons x a ih => rw [List.reverse_cons, sizeI_append, ih]; simp only [sizeI]; omega

/-- The sizes found under the indices from `a` on. -/
def foundSize (l : List (Nat × Val)) (a : Nat) : Nat → Nat
  | 0 => 0
  | n + 1 => (match l.lookup a with | some v => v.size | none => 0) + foundSize l (a + 1) n

theorem foundSize_nil (n : Nat) : ∀ a, foundSize [] a n = 0 := by
  induction n with
  | zero => intro a; rfl
  | succ n ih => intro a; simp [foundSize, ih]

theorem foundSize_cons_gt {j : Nat} {v : Val} (l : List (Nat × Val)) (n : Nat) : ∀ a, j < a → foundSize ((j, v) :: l) a n = foundSize l a n := by
  induction n with
  | zero => intro a _; rfl
  | succ n ih =>
    intro a h
    have hne : (a == j) = false := by simp; omega
    simp only [foundSize, List.lookup_cons, hne, ih (a + 1) (by omega)]

theorem foundSize_cons (j : Nat) (v : Val) (l : List (Nat × Val)) (n : Nat) : ∀ a, foundSize ((j, v) :: l) a n ≤ v.size + foundSize l a n := by
  induction n with
  | zero => intro a; simp [foundSize]
  | succ n ih =>
    intro a
    by_cases h : a = j
    · subst h
      have := foundSize_cons_gt (v := v) l n (a + 1) (Nat.lt_succ_self a)
      simp only [foundSize, List.lookup_cons, beq_self_eq_true, this]
      omega
    · have hne : (a == j) = false := by simp [h]
      have := ih (a + 1)
      simp only [foundSize, List.lookup_cons, hne]
      omega

theorem foundSize_le : ∀ (l : List (Nat × Val)) (a n : Nat), foundSize l a n ≤ sizeI l
  | [], a, n => by simp [foundSize_nil, sizeI]
  | (j, v) :: l, a, n => by
    have h1 := foundSize_cons j v l n a
    have h2 := foundSize_le l a n
    simp only [sizeI]
    omega

theorem fieldValues_size (ivs : List (Nat × Val)) : ∀ (fs : List (Bytes × Ty)) (i : Nat) (vs : List Val), fieldValues ivs i fs = some vs →
    Val.sizeF vs = foundSize ivs.reverse i fs.length
  | [], i, vs, h => by
    simp only [fieldValues, Option.some.injEq] at h
    subst h
    rfl
  | (_, t) :: fs, i, vs, h => by
    simp only [fieldValues, Option.bind_eq_some_iff, Option.map_eq_some_iff] at h
    obtain ⟨v, hv, us, hu, rfl⟩ := h
    have ih := fieldValues_size ivs fs (i + 1) us hu
    simp only [Val.sizeF, ih, List.length_cons, foundSize]
    congr 1
    unfold fieldValue at hv
    cases hl : ivs.reverse.lookup i with
    | some x => rw [hl] at hv; simp only [Option.some.injEq] at hv; subst hv; rfl
    | none =>
      rw [hl] at hv
      simp only at hv
      split at hv
      · simp only [Option.some.injEq] at hv; subst hv; simp [Val.size]
      · cases hv

section
variable {E : Env}

theorem decodeScalar_size {j : Json} {t : Ty} {v : Val} (h : decodeScalar E j t = some v) : v.size ≤ j.size := by
  unfold decodeScalar at h
  split at h
  all_goals first
    | (simp only [Option.some.injEq] at h; subst h; simp [Val.size, Json.size]; done)
    | (simp only [Option.map_eq_some_iff] at h; obtain ⟨i, -, rfl⟩ := h; simp [Val.size]; done)
    | (cases h; done)
    | (split at h
       · unfold decodeNum at h
         split at h
         all_goals first
           | (simp only [Option.some.injEq] at h; subst h; simp [Val.size]; done)
           | (split at h <;> cases h <;> simp [Val.size]; done)
           | (cases h; done)
       · cases h)

mutual

theorem decode_size (hE : E.KeysShrink) (j : Json) (t : Ty) (v : Val) (h : decode E j t = some v) : v.size ≤ j.size := by
  unfold decode at h
  split at h
  · split at h
    · simp only [Option.some.injEq] at h; subst h; simp [Val.size]
    · simp only [Option.map_eq_some_iff] at h
      obtain ⟨u, hu, rfl⟩ := h
      simpa [Val.size] using decode_size hE j _ u hu
  · simp only [Option.map_eq_some_iff] at h
    obtain ⟨u, hu, rfl⟩ := h
    simpa [Val.size] using decode_size hE j _ u hu
  · split at h
    · split at h
      · simp only [Option.map_eq_some_iff] at h
        obtain ⟨u, hu, rfl⟩ := h
        simpa [Val.size, Json.size] using decodeAll_size hE _ _ u hu
      · simp only [Option.map_eq_some_iff] at h
        obtain ⟨u, hu, rfl⟩ := h
        simpa [Val.size, Json.size] using decodeAll_size hE _ _ u hu
      · simp only [Option.map_eq_some_iff] at h
        obtain ⟨u, hu, rfl⟩ := h
        simpa [Val.size, Json.size] using decodeAll_size hE _ _ u hu
      · split at h
        · simp only [Option.map_eq_some_iff] at h
          obtain ⟨u, hu, rfl⟩ := h
          simpa [Val.size, Json.size] using decodeAll_size hE _ _ u hu
        · cases h
      · split at h
        · simp only [Option.bind_eq_some_iff, Option.map_eq_some_iff] at h
          obtain ⟨u, hu, u', hu', rfl⟩ := h
          have h1 := decode_size hE _ _ u hu
          have h2 := decode_size hE _ _ u' hu'
          simp only [Val.size, Val.sizeL, Json.size, Json.sizeL]
          omega
        · cases h
      · cases h
    · split at h
      · simp only [Option.map_eq_some_iff] at h
        obtain ⟨u, hu, rfl⟩ := h
        have h1 := decodeEntries_size hE _ (hE _) _ _ u hu
        have h2 := foldl_size hashInsert hashInsert_size u []
        simp only [Val.size, Json.size, Val.sizeM] at h2 ⊢
        omega
      · simp only [Option.map_eq_some_iff] at h
        obtain ⟨u, hu, rfl⟩ := h
        have h1 := decodeEntries_size hE _ (hE _) _ _ u hu
        have h2 := fun k => foldl_size (btreeInsert (E.keyLt k)) (btreeInsert_size _) u []
        simp only [Val.size, Json.size, Val.sizeM] at h2 ⊢
        refine Nat.le_trans (h2 _) ?_
        omega
      · simp only [Option.map_eq_some_iff] at h
        obtain ⟨u, hu, rfl⟩ := h
        have h1 := decodeEntries_size hE _ (by intro s k h; cases h; exact Nat.le_refl _) _ _ u hu
        have h2 := foldl_size (btreeInsert strLt) (btreeInsert_size _) u []
        simp only [Val.size, Json.size, Val.sizeM] at h2 ⊢
        omega
      · simp only [Option.map_eq_some_iff] at h
        obtain ⟨u, hu, rfl⟩ := h
        have h1 := decodeEntries_size hE _ (by intro s k h; cases h; exact Nat.le_refl _) _ _ u hu
        have h2 := foldl_size (btreeInsert strLt) (btreeInsert_size _) u []
        simp only [Val.size, Json.size, Val.sizeM] at h2 ⊢
        omega
      · simp only [Option.bind_eq_some_iff, Option.map_eq_some_iff] at h
        obtain ⟨ivs, h1, vs, h2, rfl⟩ := h
        have h3 := decodeFields_size hE _ _ ivs h1
        have h4 := fieldValues_size ivs _ 0 vs h2
        have h5 := fun n => foundSize_le ivs.reverse 0 n
        rw [sizeI_reverse] at h5
        simp only [Val.size, Json.size]
        rw [h4]
        exact Nat.le_trans (h5 _) h3
      · cases h
    · exact decodeScalar_size h
termination_by (sizeOf j, sizeOf t)

theorem decodeAll_size (hE : E.KeysShrink) (xs : List Json) (t : Ty) (vs : List Val) (h : decodeAll E xs t = some vs) :
    Val.sizeL vs ≤ Json.sizeL xs := by
  match xs with
  | [] => rw [decodeAll] at h; cases h; simp [Val.sizeL]
  | x :: xs =>
    rw [decodeAll] at h
    simp only [Option.bind_eq_some_iff, Option.map_eq_some_iff] at h
    obtain ⟨u, hu, us, hus, rfl⟩ := h
    have h1 := decode_size hE x t u hu
    have h2 := decodeAll_size hE xs t us hus
    simp only [Val.sizeL, Json.sizeL]
    omega
termination_by (sizeOf xs, 0)

theorem decodeEntries_size (hE : E.KeysShrink) (parse : Bytes → Option Bytes) (hp : ∀ s k, parse s = some k → k.length ≤ s.length) (t : Ty)
    (ms : List (Bytes × Json)) (kvs : List (Bytes × Val)) (h : decodeEntries E parse t ms = some kvs) : Val.sizeM kvs ≤ Json.sizeM ms := by
  match ms with
  | [] => rw [decodeEntries] at h; cases h; simp [Val.sizeM]
  | (k, x) :: ms =>
    rw [decodeEntries] at h
    simp only [Option.bind_eq_some_iff, Option.map_eq_some_iff] at h
    obtain ⟨k', hk, u, hu, us, hus, rfl⟩ := h
    have h1 := decode_size hE x t u hu
    have h2 := decodeEntries_size hE parse hp t ms us hus
    have h3 := hp _ _ hk
    simp only [Val.sizeM, Json.sizeM]
    omega
termination_by (sizeOf ms, 0)

theorem decodeFields_size (hE : E.KeysShrink) (fields : List (Bytes × Ty)) (ms : List (Bytes × Json)) (ivs : List (Nat × Val))
    (h : decodeFields E fields ms = some ivs) : sizeI ivs ≤ Json.sizeM ms := by
  match ms with
  | [] => rw [decodeFields] at h; cases h; simp [sizeI]
  | (k, x) :: ms =>
    rw [decodeFields] at h
    simp only [Json.sizeM]
    split at h
    · split at h
      · simp only [Option.bind_eq_some_iff, Option.map_eq_some_iff] at h
        obtain ⟨u, hu, us, hus, rfl⟩ := h
        have h1 := decode_size hE x _ u hu
        have h2 := decodeFields_size hE fields ms us hus
        simp only [sizeI]
        omega
      · cases h
    · split at h
      · have h2 := decodeFields_size hE fields ms ivs h
        omega
      · cases h
termination_by (sizeOf ms, 0)

end
end

/-! ## The size of the output -/

theorem decimal_len_le {k : Nat} : ∀ {n : Nat}, n < 10 ^ (k + 1) → (decimal n).length ≤ k + 1 := by
  induction k with
  | zero => intro n h; rw [decimal, dif_pos (by simpa using h)]; simp
  | succ k ih =>
    intro n h
    rw [decimal]
    split
    · simp
    · have := ih (n := n / 10) (by rw [Nat.div_lt_iff_lt_mul (by decide)]; rw [Nat.pow_succ] at h; exact h)
      simp
      omega

theorem quoted_length (s : Bytes) : (quoted s).length ≤ 6 * s.length + 2 := by
  have key : (s.flatMap escapedByte).length ≤ 6 * s.length := by
    induction s with
    | nil => simp
    | cons c s ih =>
      have : (escapedByte c).length ≤ 6 := by
        unfold escapedByte
        repeat' split
        all_goals simp
      simp only [List.flatMap_cons, List.length_append, List.length_cons]
      omega
  simp only [quoted, List.length_cons, List.length_append, List.length_nil]
  omega

section
variable {E : Env} {lit : F64 → NumLit}

theorem compactElems_length (x : Json) (xs : List Json) : (compactElems (x :: xs)).length ≤ (compact x).length + 1 + (compactElems xs).length := by
  cases xs <;> simp [compactElems]
  omega

theorem compactMembers_length (k : Bytes) (x : Json) (xs : List (Bytes × Json)) :
    (compactMembers ((k, x) :: xs)).length ≤ (quoted k).length + 1 + (compact x).length + 1 + (compactMembers xs).length := by
  cases xs <;> simp [compactMembers] <;> omega

mutual

theorem Encodes.length (hl : ∀ x : F64, x.Valid binary64 → x.isFinite = true → (lit x).text.length ≤ 24) : ∀ {t v x} (_ : Encodes E t v x) (_ : HasTy E t v), t = .value →
    (compact (x.json lit)).length ≤ 28 * v.size + 24
  | _, _, _, .numU _ n _, h, e => by
    subst e
    cases h with
    | numU _ hn =>
      have := decimal_len_le (k := 19) (n := n) (by simp [u64Max] at hn; omega)
      simp [FTree.json, compact, NumLit.text]
      omega
  | _, _, _, .numI _ z _, h, e => by
    subst e
    cases h with
    | numI _ hn =>
      have := decimal_len_le (k := 19) (n := z.natAbs) (by simp [i64Min, i64Max] at hn; omega)
      simp [FTree.json, compact, NumLit.text]
      split <;> simp <;> omega
  | _, _, _, .numF _ x _, h, e => by
    have hv : x.Valid binary64 := by cases h; assumption
    simp only [FTree.json]
    split
    · rename_i hx
      have := hl x hv hx
      simp only [compact]
      omega
    · simp [compact]
  | _, _, _, .vNull, h, e => by simp [FTree.json, compact]
  | _, _, _, .vBool b, h, e => by cases b <;> simp [FTree.json, compact] <;> omega
  | _, _, _, .vStr s, h, e => by
    have := quoted_length s
    simp [FTree.json, compact, Val.size]
    omega
  | _, _, _, .array ht hs, h, e => by
    subst e
    cases h with
    | array _ hv =>
      have := hs.length hl hv rfl
      simp [FTree.json, compact, Val.size]
      omega
  | _, _, _, .object ht hs, h, e => by
    subst e
    cases h with
    | object _ _ _ hv =>
      have := hs.length hl hv rfl (fun _ => rfl)
      simp [FTree.json, compact, Val.size]
      omega

theorem EncodesAll.length (hl : ∀ x : F64, x.Valid binary64 → x.isFinite = true → (lit x).text.length ≤ 24) : ∀ {t vs xs} (_ : EncodesAll E t vs xs)
    (_ : ∀ v ∈ vs, HasTy E t v), t = .value → (compactElems (FTree.jsons lit xs)).length ≤ 28 * Val.sizeL vs
  | _, _, _, .nil _, _, _ => by simp [FTree.jsons, compactElems]
  | _, _, _, .cons h hs, hv, e => by
    have h1 := h.length hl (hv _ List.mem_cons_self) e
    have h2 := hs.length hl (fun v h => hv v (List.mem_cons_of_mem _ h)) e
    simp only [FTree.jsons, Val.sizeL]
    have := compactElems_length (FTree.json lit ‹_›) (FTree.jsons lit ‹_›)
    refine Nat.le_trans (compactElems_length _ _) ?_
    omega

theorem EncodesEntries.length (hl : ∀ x : F64, x.Valid binary64 → x.isFinite = true → (lit x).text.length ≤ 24) : ∀ {f t vs xs} (_ : EncodesEntries E f t vs xs)
    (_ : ∀ v ∈ vs, HasTy E t v.2), t = .value → (∀ k, f k = k) → (compactMembers (FTree.jsonMembers lit xs)).length ≤ 28 * Val.sizeM vs
  | _, _, _, _, .nil _ _, _, _, _ => by simp [FTree.jsonMembers, compactMembers]
  | _, _, _, _, .cons (k := k) h hs, hv, e, hf => by
    have h1 := h.length hl (hv _ List.mem_cons_self) e
    have h2 := hs.length hl (fun v h => hv v (List.mem_cons_of_mem _ h)) e hf
    have h3 := quoted_length k
    simp only [FTree.jsonMembers, Val.sizeM, hf]
    refine Nat.le_trans (compactMembers_length _ _ _) ?_
    omega

end
end

end Miniserde
