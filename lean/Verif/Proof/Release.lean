import Verif.Proof.ReleaseMachine
import Verif.Proof.FromStr

/-!
# Release builds
-/

namespace Miniserde

/-! ## Arithmetic that extends the checked one -/

/-- Where the checked operations succeed, `ar` gives the same. -/
structure Arith.Extends (ar : Arith) : Prop where
  u64 : ∀ n m, Miniserde.u64 n = .ok m → ar.u64 n = .ok m
  i32 : ∀ z m, Miniserde.i32 z = .ok m → ar.i32 z = .ok m

theorem debug_extends : Arith.debug.Extends := ⟨fun _ _ h => h, fun _ _ h => h⟩

theorem release_extends : Arith.release.Extends where
  u64 n m h := by
    unfold Miniserde.u64 at h
    split at h
    · rename_i h'; cases h; exact relU64 h'
    · cases h
  i32 z m h := by
    unfold Miniserde.i32 at h
    split at h
    · rename_i h'; cases h; rw [relI32, wrap_id h']
    · cases h

theorem u64_ne_err {n : Nat} : u64 n ≠ .err := by unfold u64; split <;> simp

namespace De

theorem bump_less {d : De} (h : isDigit d.peekOrNul = true) : d.bump.input.length - d.bump.pos < d.input.length - d.pos := by
  have := peekOrNul_digit_lt h
  simp only [bump]; omega

/-! ### Debug -/

theorem decimalLoopA_debug (d : De) (one : Bool) (s : Nat) (e : Int) :
    decimalLoopA .debug d one s e = decimalLoop d one s e := by
  generalize hn : d.input.length - d.pos = n
  induction n using Nat.strongRecOn generalizing d one s e with
  | _ n ih =>
    rw [decimalLoopA, decimalLoop]
    by_cases hd : isDigit d.peekOrNul = true
    · rw [dif_pos hd, dif_pos hd]
      simp only [Arith.debug]
      have hb := bump_less hd
      cases u64 (s * 10 + digitVal d.peekOrNul) <;> cases i32 (e - 1) <;> simp only
      rw [← ih _ (by omega) d.bump _ _ _ rfl]; rfl
    · rw [dif_neg hd, dif_neg hd]

theorem parseDecimalA_debug (d : De) (nn : Bool) (s : Nat) (e : Int) :
    parseDecimalA .debug d nn s e = parseDecimal d nn s e := by
  unfold parseDecimalA parseDecimal
  rw [decimalLoopA_debug]

theorem parseLongIntegerA_debug (d : De) (nn : Bool) (s : Nat) (e : Int) :
    parseLongIntegerA .debug d nn s e = parseLongInteger d nn s e := by
  generalize hn : d.input.length - d.pos = n
  induction n using Nat.strongRecOn generalizing d e with
  | _ n ih =>
    rw [parseLongIntegerA, parseLongInteger]
    by_cases hd : isDigit d.peekOrNul = true
    · rw [dif_pos hd, dif_pos hd]
      have hb := bump_less hd
      show (match i32 (e + 1) with | .ok e => _ | _ => _) = _
      cases i32 (e + 1) <;> simp only
      exact ih _ (by omega) d.bump _ rfl
    · rw [dif_neg hd, dif_neg hd, parseDecimalA_debug]

theorem parseNumberA_debug (d : De) (nn : Bool) (s : Nat) : parseNumberA .debug d nn s = parseNumber d nn s := by
  unfold parseNumberA parseNumber
  rw [parseDecimalA_debug]

theorem integerLoopA_debug (d : De) (nn : Bool) (s : Nat) : integerLoopA .debug d nn s = integerLoop d nn s := by
  generalize hn : d.input.length - d.pos = n
  induction n using Nat.strongRecOn generalizing d s with
  | _ n ih =>
    rw [integerLoopA, integerLoop]
    by_cases hd : isDigit d.peekOrNul = true
    · rw [dif_pos hd, dif_pos hd]
      have hb := bump_less hd
      simp only [parseLongIntegerA_debug]
      split
      · rfl
      show (match u64 (s * 10 + digitVal d.peekOrNul) with | .ok e => _ | _ => _) = _
      cases u64 (s * 10 + digitVal d.peekOrNul) <;> simp only
      exact ih _ (by omega) d.bump _ rfl
    · rw [dif_neg hd, dif_neg hd, parseNumberA_debug]

theorem parseIntegerA_debug (d : De) (nn : Bool) (c : UInt8) : parseIntegerA .debug d nn c = parseInteger d nn c := by
  unfold parseIntegerA parseInteger
  rw [parseNumberA_debug, integerLoopA_debug]

theorem eventA_debug (d : De) : d.eventA .debug = d.event := by
  unfold eventA event
  simp only [parseIntegerA_debug]
  rfl

/-! ### Release, where debug does not panic -/

theorem decimalLoopA_eq {d : De} {one : Bool} {s : Nat} {e : Int} (h : decimalLoop d one s e ≠ .panic) :
    decimalLoopA .release d one s e = decimalLoop d one s e := by
  generalize hn : d.input.length - d.pos = n
  induction n using Nat.strongRecOn generalizing d one s e with
  | _ n ih =>
    rw [decimalLoopA, decimalLoop]
    rw [decimalLoop] at h
    by_cases hd : isDigit d.peekOrNul = true
    · rw [dif_pos hd] at h
      rw [dif_pos hd, dif_pos hd]
      have hb := bump_less hd
      simp only at h ⊢
      split
      · rfl
      rename_i ho
      rw [if_neg ho] at h
      cases h1 : u64 (s * 10 + digitVal d.peekOrNul) with
      | panic => rw [h1] at h; exact absurd rfl h
      | err => exact absurd h1 u64_ne_err
      | ok s' =>
        cases h2 : i32 (e - 1) with
        | panic => rw [h1, h2] at h; exact absurd rfl h
        | err => exact absurd h2 i32_ne_err
        | ok e' =>
          rw [h1, h2] at h
          rw [release_extends.u64 _ _ h1, release_extends.i32 _ _ h2]
          exact ih _ (by omega) h rfl
    · rw [dif_neg hd, dif_neg hd]

theorem bind_panic {α β : Type} {x : Res α} {f : α → Res β} (h : x.bind f ≠ .panic) : x ≠ .panic := by
  rintro rfl; exact h rfl

theorem parseDecimalA_eq {d : De} {nn : Bool} {s : Nat} {e : Int} (h : parseDecimal d nn s e ≠ .panic) :
    parseDecimalA .release d nn s e = parseDecimal d nn s e := by
  unfold parseDecimal at h
  have := decimalLoopA_eq (bind_panic h)
  unfold parseDecimalA parseDecimal
  rw [this]

theorem parseLongIntegerA_eq {d : De} {nn : Bool} {s : Nat} {e : Int} (h : parseLongInteger d nn s e ≠ .panic) :
    parseLongIntegerA .release d nn s e = parseLongInteger d nn s e := by
  generalize hn : d.input.length - d.pos = n
  induction n using Nat.strongRecOn generalizing d e with
  | _ n ih =>
    rw [parseLongIntegerA, parseLongInteger]
    rw [parseLongInteger] at h
    by_cases hd : isDigit d.peekOrNul = true
    · rw [dif_pos hd] at h
      rw [dif_pos hd, dif_pos hd]
      have hb := bump_less hd
      cases h1 : i32 (e + 1) with
      | panic => rw [h1] at h; exact absurd rfl h
      | err => exact absurd h1 i32_ne_err
      | ok e' =>
        rw [h1] at h
        rw [release_extends.i32 _ _ h1]
        exact ih _ (by omega) h rfl
    · rw [dif_neg hd] at h
      rw [dif_neg hd, dif_neg hd]
      split
      · rename_i h'
        rw [if_pos h'] at h
        exact parseDecimalA_eq h
      · rfl

theorem mapFloat_panic {x : Res (F64 × De)} (h : mapFloat x ≠ .panic) : x ≠ .panic := by
  rintro rfl; exact h rfl

theorem parseNumberA_eq {d : De} {nn : Bool} {s : Nat} (h : parseNumber d nn s ≠ .panic) :
    parseNumberA .release d nn s = parseNumber d nn s := by
  unfold parseNumber at h
  unfold parseNumberA parseNumber
  split
  · rename_i h'
    rw [if_pos h'] at h
    rw [parseDecimalA_eq (mapFloat_panic h)]
  · rfl

theorem integerLoopA_eq {d : De} {nn : Bool} {s : Nat} (h : integerLoop d nn s ≠ .panic) :
    integerLoopA .release d nn s = integerLoop d nn s := by
  generalize hn : d.input.length - d.pos = n
  induction n using Nat.strongRecOn generalizing d s with
  | _ n ih =>
    rw [integerLoopA, integerLoop]
    rw [integerLoop] at h
    by_cases hd : isDigit d.peekOrNul = true
    · rw [dif_pos hd] at h
      rw [dif_pos hd, dif_pos hd]
      have hb := bump_less hd
      simp only at h ⊢
      split
      · rename_i ho
        rw [if_pos ho] at h
        rw [parseLongIntegerA_eq (mapFloat_panic h)]
      · rename_i ho
        rw [if_neg ho] at h
        cases h1 : u64 (s * 10 + digitVal d.peekOrNul) with
        | panic => rw [h1] at h; exact absurd rfl h
        | err => exact absurd h1 u64_ne_err
        | ok s' =>
          rw [h1] at h
          rw [release_extends.u64 _ _ h1]
          exact ih _ (by omega) h rfl
    · rw [dif_neg hd] at h
      rw [dif_neg hd, dif_neg hd, parseNumberA_eq h]

theorem parseIntegerA_eq {d : De} {nn : Bool} {c : UInt8} (h : parseInteger d nn c ≠ .panic) :
    parseIntegerA .release d nn c = parseInteger d nn c := by
  unfold parseInteger at h
  unfold parseIntegerA parseInteger
  split
  · rename_i h1
    rw [if_pos h1] at h
    split
    · rfl
    · rename_i h2
      rw [if_neg h2] at h
      exact parseNumberA_eq h
  · rename_i h1
    rw [if_neg h1] at h
    split
    · rename_i h2
      rw [if_pos h2] at h
      exact integerLoopA_eq h
    · rfl

theorem eventA_eq {d : De} (h : d.event ≠ .panic) : d.eventA .release = d.event := by
  unfold event at h
  unfold eventA event
  rcases hw : d.parseWhitespace with ⟨c, d1⟩
  rw [hw] at h
  cases c with
  | none => rfl
  | some c =>
    simp only at h ⊢
    split
    · rfl
    rename_i h1
    rw [if_neg h1] at h
    split
    · rename_i h2
      rw [if_pos h2] at h
      exact parseIntegerA_eq h
    rename_i h2
    rw [if_neg h2] at h
    split
    · rename_i h3
      rw [if_pos h3] at h
      exact parseIntegerA_eq h
    · rfl

/-- A release build never panics reading a token. -/
theorem eventA_ne_panic (d : De) : d.eventA .release ≠ .panic := by
  rcases d.eventR_spec with hb | ⟨_, _, _, _, h, _⟩
  · rw [show d.eventA .release = .err from hb]; nofun
  · rw [h]; nofun

end De

/-! ## The driver -/

section
variable {σ : Type} (P : Proto σ)

theorem outerLoopA_debug (fuel : Nat) (d : De) (v : P.V) (st : List (Frame P)) (w : σ) :
    outerLoopA P .debug fuel d v st w = outerLoop P fuel d v st w := by
  induction fuel generalizing d v st w with
  | zero => rfl
  | succ n ih =>
    rw [outerLoopA, outerLoop, De.eventA_debug]
    simp only [ih]
    rfl

theorem fromStrImplA_debug (s : Bytes) (v : P.V) (w : σ) : fromStrImplA P .debug s v w = fromStrImpl P s v w :=
  outerLoopA_debug P _ _ _ _ _

theorem resumeR_eq {n : Nat} (ih : ∀ (d : De) (v : P.V) (st : List (Frame P)) (w : σ) (r : Res Unit) (w' : σ),
    outerLoop P n d v st w = some (r, w') → r ≠ .panic → outerLoopA P .release n d v st w = some (r, w'))
    {next : Res (LoopExit P) × σ} {r : Res Unit} {w' : σ} (h : resume P n next = some (r, w')) (hr : r ≠ .panic) :
    resumeR P n next = some (r, w') := by
  obtain ⟨nx, w2⟩ := next
  cases nx with
  | err => exact h
  | panic => exact h
  | ok nx =>
    cases nx with
    | done d => exact h
    | child d2 v2 l2 st2 =>
      simp only [resume] at h
      simp only [resumeR]
      rcases hoc : openChild P d2 v2 l2 st2 w2 with ⟨oc, w3⟩
      rw [hoc] at h
      cases oc with
      | err => exact h
      | panic => exact h
      | ok oc => exact ih _ _ _ _ _ _ h hr

/-- Where a debug build does not panic, a release build does the same. -/
theorem outerLoopA_eq (fuel : Nat) (d : De) (v : P.V) (st : List (Frame P)) (w : σ) (r : Res Unit) (w' : σ)
    (h : outerLoop P fuel d v st w = some (r, w')) (hr : r ≠ .panic) : outerLoopA P .release fuel d v st w = some (r, w') := by
  induction fuel generalizing d v st w r w' with
  | zero => cases h
  | succ n ih =>
    cases hev : d.event with
    | panic =>
      rw [outerLoop_panic P hev] at h
      simp at h
      exact absurd h.1.symm hr
    | err =>
      rw [outerLoop_err P hev] at h
      rw [outerLoop_errR P ((De.eventA_eq (by rw [hev]; nofun)).trans hev)]
      exact h
    | ok p =>
      obtain ⟨ev, d1⟩ := p
      have hev' := (De.eventA_eq (d := d) (by rw [hev]; nofun)).trans hev
      by_cases hl : ev.isLeaf = true
      · rw [outerLoop_leaf P hev hl] at h
        rw [outerLoop_leafR P hev' hl]
        rcases hc : leafCall P v ev w with ⟨c, w1⟩
        rw [hc] at h
        cases c with
        | err => exact h
        | panic => exact h
        | ok _ => exact resumeR_eq P ih h hr
      · have : ev = .seqStart ∨ ev = .mapStart := by cases ev <;> simp_all [Event.isLeaf]
        rcases this with rfl | rfl
        · rw [outerLoop_seq P hev] at h
          rw [outerLoop_seqR P hev']
          rcases hc : P.seq v w with ⟨c, w1⟩
          rw [hc] at h
          cases c with
          | err => exact h
          | panic => exact h
          | ok _ => exact resumeR_eq P ih h hr
        · rw [outerLoop_map P hev] at h
          rw [outerLoop_mapR P hev']
          rcases hc : P.map v w with ⟨c, w1⟩
          rw [hc] at h
          cases c with
          | err => exact h
          | panic => exact h
          | ok _ => exact resumeR_eq P ih h hr

end

theorem numEventR_eq {l : NumLit} (h : numEvent l ≠ .panic) : numEventR l = numEvent l := by
  unfold numEvent at h ⊢
  unfold numEventR
  simp only at h ⊢
  split
  · rfl
  rename_i h1
  rw [if_neg h1] at h
  cases h2 : i32 ((accum U64_MAX 0 l.int).2 : Int) with
  | panic => rw [h2] at h; exact absurd rfl h
  | err => exact absurd h2 De.i32_ne_err
  | ok e =>
    rw [h2] at h
    have h3 := release_extends.i32 _ _ h2
    simp only [relI32, Res.ok.injEq] at h3
    show Res.map Event.float (fracValueR (!l.minus) (accum U64_MAX 0 l.int).1 (wrapI32 (accum U64_MAX 0 l.int).2) l.exp l.frac) = _
    rw [h3]
    simp only [Res.bind_ok'] at h ⊢
    refine congrArg (Res.map Event.float) ?_
    cases hf : l.frac with
    | none => rfl
    | some fs =>
      rw [hf] at h
      unfold fracValue at h ⊢
      unfold fracValueR
      simp only at h ⊢
      cases h4 : i32 (e - ((fs.length - (accum U64_MAX (accum U64_MAX 0 l.int).1 fs).2 : Nat) : Int)) with
      | panic => rw [h4] at h; exact absurd rfl h
      | err => exact absurd h4 De.i32_ne_err
      | ok e2 =>
        have h5 := release_extends.i32 _ _ h4
        simp only [relI32, Res.ok.injEq] at h5
        show expValue _ (accum U64_MAX (accum U64_MAX 0 l.int).1 fs).1
          (wrapI32 (e - ((fs.length - (accum U64_MAX (accum U64_MAX 0 l.int).1 fs).2 : Nat) : Int))) _ = _
        rw [h5]; rfl

theorem numEventR_short {l : NumLit} (h : l.text.length < 2147483648) : numEventR l = numEvent l :=
  numEventR_eq fun h' => by have := De.numEvent_panic h'; omega

mutual
theorem toPTR_short : ∀ (j : Json), j.ShortNums → toPTR j = toPT j
  | .null, _ => by simp [toPTR, toPT]
  | .bool _, _ => by simp [toPTR, toPT]
  | .num l, h => by
    simp only [Json.ShortNums] at h
    rw [toPTR, toPT, numEventR_short h]
    rfl
  | .str _, _ => by simp [toPTR, toPT]
  | .arr xs, h => by
    simp only [Json.ShortNums] at h
    rw [toPTR, toPT, toPTsR_short xs h]
  | .obj ms, h => by
    simp only [Json.ShortNums] at h
    rw [toPTR, toPT, toPTmsR_short ms h]

theorem toPTsR_short : ∀ (xs : List Json), Json.ShortNumsL xs → toPTsR xs = toPTs xs
  | [], _ => by simp [toPTsR, toPTs]
  | x :: xs, h => by
    simp only [Json.ShortNumsL] at h
    rw [toPTsR, toPTs, toPTR_short x h.1, toPTsR_short xs h.2]

theorem toPTmsR_short : ∀ (ms : List (Bytes × Json)), Json.ShortNumsM ms → toPTmsR ms = toPTms ms
  | [], _ => by simp [toPTmsR, toPTms]
  | (k, x) :: ms, h => by
    simp only [Json.ShortNumsM] at h
    rw [toPTmsR, toPTms, toPTR_short x h.1, toPTmsR_short ms h.2]
end

/-! ## No panic -/

mutual
theorem PValR.calm : ∀ {d t o} (_ : PValR d t o), t.Calm
  | _, _, _, .err _ => by simp [PT.Calm]
  | d, _, _, .panic h => absurd h d.eventA_ne_panic
  | _, _, _, .leaf _ hl => by simpa [PT.Calm] using hl
  | _, _, _, .seq h hs => by simpa [PT.Calm] using hs.calm
  | _, _, _, .map h hs => by simpa [PT.Calm] using hs.calm

theorem PElemsR.calm : ∀ {ac d xs e o} (_ : PElemsR ac d xs e o), PT.CalmL xs ∧ e ≠ .stop true
  | _, _, _, _, _, .close _ => by simp [PT.CalmL]
  | _, _, _, _, _, .stop _ => by simp [PT.CalmL]
  | _, _, _, _, _, .child h hx hs => ⟨⟨hx.calm, hs.calm.1⟩, hs.calm.2⟩
  | _, _, _, _, _, .last h hx => by simpa [PT.CalmL] using hx.calm

theorem PMembersR.calm : ∀ {ac d xs e o} (_ : PMembersR ac d xs e o), PT.CalmM xs ∧ e ≠ .stop true
  | _, _, _, _, _, .close _ => by simp [PT.CalmM]
  | _, _, _, _, _, .stop _ => by simp [PT.CalmM]
  | _, _, _, _, _, .keyStop (d1 := d1) h hk => by
    rcases keyStep_spec d1 with ⟨_, _, _, _, _, k1, _⟩ | ⟨_, k1, _⟩ | k1 <;> rw [hk] at k1 <;> cases k1
    simp [PT.CalmM]
  | _, _, _, _, _, .noColon _ _ => by simp [PT.CalmM, PT.Calm]
  | _, _, _, _, _, .child h hk hx hs => ⟨⟨hx.calm, hs.calm.1⟩, hs.calm.2⟩
  | _, _, _, _, _, .last h hk hx => by simpa [PT.CalmM] using hx.calm
end

/-! ## `from_str` -/

variable (E : Env)

/-- As `fromStr_of`, for any kind of build. -/
theorem fromStrA_of {ar : Arith} {s : Bytes} {t : Ty} {r : Res Val} {r' : Res Unit} {h' : Heap}
    (e : fromStrImplA (lib E) ar s (VH.place t ⟨0, 0, 0⟩) Heap.init = some (r', h'))
    (hr : r' = .ok () → ∃ v, r = .ok v)
    (hp : Post Heap.init Heap.init.mem ⟨0, 0, 0⟩ r h') :
    ∃ h, h.Clean ∧ fromStrA E ar t s = some (r'.bind fun _ => r, h) := by
  obtain ⟨c, hm, hf, hc⟩ := post_init hp
  have hcl := clean_of_mem hm hf
  have hread : h'.mem.read ⟨0, 0, 0⟩ = some c := by simp [Mem.read, hm, Mem.set, Obj.get, readD]
  have hcl2 : (h'.write ⟨0, 0, 0⟩ none).Clean := by
    have := out_write c none
    rw [← hm] at this
    refine clean_of_mem (c := none) ?_ ?_ <;> simp only [Heap.write, this]
    exact hf
  rw [fromStrA, e]
  cases r' with
  | err => exact ⟨h', hcl, rfl⟩
  | panic => exact ⟨h', hcl, rfl⟩
  | ok u =>
    obtain ⟨v, rfl⟩ := hr rfl
    have := hc v rfl
    subst this
    refine ⟨_, hcl2, ?_⟩
    simp only [Option.map_some, hread, Res.bind_ok']

/-- `from_str` in a release build, on any input of any length. -/
theorem fromStrR_any (s : Bytes) (t : Ty) :
    ∃ r h, h.Clean ∧ r ≠ .panic ∧ fromStrA E .release t s = some (r, h) := by
  obtain ⟨x, o, p⟩ := (parse_totalR (initDe s).rem).1 (initDe s) (Nat.le_refl _)
  obtain ⟨h', e, hp⟩ := drive_place E x (t := t) (p := ⟨0, 0, 0⟩) init_good init_valid
  have hx := run_calm E x t p.calm
  have e' : fromStrImplA (lib E) .release s (VH.place t ⟨0, 0, 0⟩) Heap.init =
      some (outcome o ((run E x t).map (fun _ => ()), h')) :=
    (fromStrImpl_eqR (lib E) p (s.length + 1) (Nat.lt_succ_self _) _ _).trans (congrArg (fun z => some (outcome o z)) e)
  cases hr : run E x t with
  | panic => exact absurd hr hx
  | err =>
    rw [hr] at e' hp
    obtain ⟨h, h1, h2⟩ := fromStrA_of E e' (by simp) hp
    exact ⟨.err, h, h1, nofun, h2⟩
  | ok v =>
    rw [hr] at e' hp
    cases o with
    | none =>
      obtain ⟨h, h1, h2⟩ := fromStrA_of E e' (by simp) hp
      exact ⟨.err, h, h1, nofun, h2⟩
    | some d =>
      obtain ⟨h, h1, h2⟩ := fromStrA_of E e' (fun _ => ⟨v, rfl⟩) hp
      refine ⟨_, h, h1, ?_, h2⟩
      refine bind_ne_panic ?_ fun _ => nofun
      unfold trailing
      split <;> simp

/-- `from_str` in a release build on a JSON text, before the specification of decoding. -/
theorem fromStrR_run {s : Bytes} {j : Json} (hj : JText s j) (t : Ty) :
    ∃ h, h.Clean ∧ fromStrA E .release t s = some (run E (toPTR j) t, h) := by
  obtain ⟨h', e, hp⟩ := drive_place E (toPTR j) (t := t) (p := ⟨0, 0, 0⟩) init_good init_valid
  have e' : fromStrImplA (lib E) .release s (VH.place t ⟨0, 0, 0⟩) Heap.init =
      some ((run E (toPTR j) t).map (fun _ => ()), h') := by
    refine (fromStrImpl_textR hj (lib E) _ _ (s.length + 1) (Nat.lt_succ_self _)).trans ?_
    exact congrArg some ((drive_eqR (lib E) _ j Heap.init).trans e)
  obtain ⟨h, h1, h2⟩ := fromStrA_of E e' (by cases run E (toPTR j) t <;> simp) hp
  refine ⟨h, h1, h2.trans ?_⟩
  cases run E (toPTR j) t <;> rfl

/-- The traversal of the tree of a text does not panic in a release build. -/
theorem run_ne_panic {s : Bytes} {j : Json} (hj : JText s j) (t : Ty) : run E (toPTR j) t ≠ .panic := by
  obtain ⟨h, -, h2⟩ := fromStrR_run E hj t
  obtain ⟨r, h', -, h3, h4⟩ := fromStrR_any E s t
  rw [h2] at h4
  simp only [Option.some.injEq, Prod.mk.injEq] at h4
  rw [h4.1]; exact h3

/-- Numbers shorter than 2 GiB: `from_str` is the decoding of the tree in both kinds of build, for texts of any length. -/
theorem fromStr_short {s : Bytes} {j : Json} (hj : JText s j) (hn : j.ShortNums) (t : Ty) :
    (∃ h, h.Clean ∧ fromStr E t s = some (match decode E j t with | some v => .ok v | none => .err, h)) ∧
    (∃ h, h.Clean ∧ fromStrA E .release t s = some (match decode E j t with | some v => .ok v | none => .err, h)) := by
  have hp := run_ne_panic E hj t
  obtain ⟨h, h1, h2⟩ := fromStr_run E hj t
  obtain ⟨h', h1', h2'⟩ := fromStrR_run E hj t
  rw [toPTR_short j hn] at hp h2'
  have key : run E (toPT j) t = match decode E j t with | some v => .ok v | none => .err := by
    cases hr : run E (toPT j) t with
    | ok v => rw [(run_decode E _ _ _).1 hr]
    | panic => exact absurd hr hp
    | err =>
      cases hd : decode E j t with
      | none => rfl
      | some v => rw [(run_decode E _ _ _).2 hd] at hr; cases hr
  exact ⟨⟨h, h1, h2.trans (by rw [key])⟩, ⟨h', h1', h2'.trans (by rw [key])⟩⟩

end Miniserde
