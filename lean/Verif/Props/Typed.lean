import Verif.Proof.Typed
import Verif.Props.Parse

/-!
# Properties of typed deserialization

`parseAs E t s` is the result of `json::from_str::<T>(s)`, where `t` stands for the type `T` and `E` gives the derived
structs, derived enums and key types of the program.  `fromStr E t s` also returns the final heap.
-/

namespace Miniserde

/-! ## A program to instantiate the theorems with -/

/-- `struct Point { x: i32, tag: Option<String>, next: Option<Box<Point>> }` (structure 0), `enum Color { Red, #[serde(rename =
"light-blue")] Blue }` (enum 0), keys of type `String` (key type 0). -/
def exEnv : Env where
  fields
    | 0 => [(str! "x", .int true 32), (str! "tag", .opt .string), (str! "next", .opt (.box (.strct 0)))]
    | _ => []
  variants
    | 0 => [str! "Red", str! "light-blue"]
    | _ => []
  keyParse _ s := some s
  keyLt _ := strLt
  keyShow _ s := s

theorem exEnv_fields_nodup : ((exEnv.fields 0).map Prod.fst).Nodup := by decide

theorem exEnv_keys_linear : StrictLinear (exEnv.keyLt 0) := strLt_linear

/-- A text of a number literal. -/
theorem num_text (l : NumLit) (h : l.WF) : JText l.text (.num l) := ⟨[], l.text, [], by simp, De.ws_nil, .num l h, De.ws_nil⟩

/-- `1` as a literal. -/
def litOne : NumLit := ⟨false, str! "1", none, none⟩

theorem litOne_wf : litOne.WF := ⟨by decide, by decide, by simp [litOne], by simp [litOne]⟩

/-- `{"y":[1],"x":1,"x":1}` -/
def exObj : Bytes := str! "{\"y\":[1],\"x\":1,\"x\":1}"
def exObjMembers : List (Bytes × Json) := [(str! "y", .arr [.num litOne]), (str! "x", .num litOne), (str! "x", .num litOne)]

theorem jstring_ascii (c : UInt8) (h : 0x20 ≤ c) (hq : c ≠ 0x22) (hb : c ≠ 0x5C) : JString [0x22, c, 0x22] [c] :=
  JString.mk (body := [c]) (StrBody.cons (.raw c h hq hb) .nil)

theorem exObj_text : JText exObj (.obj exObjMembers) := by
  have one : JValue (str! "1") (.num litOne) := .num litOne litOne_wf
  refine ⟨[], exObj, [], by simp, De.ws_nil, ?_, De.ws_nil⟩
  refine JValue.obj (t := str! "\"y\":[1],\"x\":1,\"x\":1") ?_
  refine JMembers.cons (w₁ := []) (k := str! "\"y\"") (w₂ := []) (w₃ := []) (t := str! "[1]") (w₄ := [])
    (ts := str! "\"x\":1,\"x\":1") De.ws_nil (jstring_ascii 0x79 (by decide) (by decide) (by decide)) De.ws_nil De.ws_nil
    (.arr (t := str! "1") (.one (w₁ := []) (w₂ := []) De.ws_nil one De.ws_nil)) De.ws_nil ?_
  refine JMembers.cons (w₁ := []) (k := str! "\"x\"") (w₂ := []) (w₃ := []) (t := str! "1") (w₄ := [])
    (ts := str! "\"x\":1") De.ws_nil (jstring_ascii 0x78 (by decide) (by decide) (by decide)) De.ws_nil De.ws_nil
    one De.ws_nil ?_
  exact JMembers.one (w₁ := []) (k := str! "\"x\"") (w₂ := []) (w₃ := []) (t := str! "1") (w₄ := [])
    De.ws_nil (jstring_ascii 0x78 (by decide) (by decide) (by decide)) De.ws_nil De.ws_nil one De.ws_nil

/-! ## C03 -/

/-- **C03.** `from_str::<Value>` succeeds with `v` exactly when the input is a JSON text and `v` is the value of its tree... -/
theorem C03_value (E : Env) (s : Bytes) (v : Val) :
    parseAs E .value s = some (.ok v) ↔ ∃ j, JText s j ∧ IsValue j v := by
  simp only [parseAs_ok, decode_value]

/-- ... which exists exactly when all its numbers are representable. -/
theorem C03_accepts (E : Env) (s : Bytes) :
    (∃ v, parseAs E .value s = some (.ok v)) ↔ ∃ j, JText s j ∧ representable j = true := by
  simp only [C03_value, ← value_exists]
  exact ⟨fun ⟨v, j, h1, h2⟩ => ⟨j, h1, v, h2⟩, fun ⟨j, h1, v, h2⟩ => ⟨v, j, h1, h2⟩⟩

/-- A tree has at most one `Value`. -/
theorem C03_unique (j : Json) (v v' : Val) (h : IsValue j v) (h' : IsValue j v') : v = v' := by
  have h1 := (decode_value exEnv j v).2 h
  have h2 := (decode_value exEnv j v').2 h'
  rw [h1] at h2
  exact Option.some.inj h2

theorem numEvent_one : numEvent litOne = .ok (.nonnegative 1) := by decide +kernel

example (E : Env) : parseAs E .value exObj = some (.ok (.map [(str! "x", .numU 1), (str! "y", .seq [.numU 1])])) := by
  rw [C03_value]
  have one : IsValue (.num litOne) (.numU 1) := .num numEvent_one (.pos 1)
  refine ⟨_, exObj_text, .obj (.cons (.arr (.cons one .nil)) (.cons one (.cons one .nil))) ?_ ?_⟩
  · simp [SortedKeys, strLt]; decide
  · intro k
    simp only [lastOcc, List.reverse_cons, List.reverse_nil, List.nil_append, List.cons_append, List.lookup]
    cases k == str! "x" <;> rfl

/-! ## C04 -/

/-- **C04.** `from_str::<T>` is the type-directed decoding of the tree of the input; an input that is not JSON is an error. -/
theorem C04_compositional (E : Env) (t : Ty) (s : Bytes) (hs : s.length < 2 ^ 31) :
    (∀ j, JText s j → parseAs E t s = some (match decode E j t with | some v => .ok v | none => .err)) ∧
    ((¬ ∃ j, JText s j) → parseAs E t s = some .err) :=
  ⟨fun _ hj => parseAs_text E hj hs t, fun hj => parseAs_not_text E hj hs t⟩

/-- On success no bound on the size of the input is needed. -/
theorem C04_ok (E : Env) (t : Ty) (s : Bytes) (v : Val) :
    parseAs E t s = some (.ok v) ↔ ∃ j, JText s j ∧ decode E j t = some v := parseAs_ok E

/-! ## C05 -/

/-- **C05.** `from_str` never panics, for any input shorter than 2 GiB and any library or derived type. -/
theorem C05_no_panic (E : Env) (t : Ty) (s : Bytes) (hs : s.length < 2 ^ 31) : parseAs E t s ≠ some .panic := by
  obtain ⟨r, h, -, h2, e⟩ := fromStr_any E hs t
  rw [parseAs, e]
  simpa using h2

/-- It returns. -/
theorem C05_returns (E : Env) (t : Ty) (s : Bytes) (hs : s.length < 2 ^ 31) :
    (∃ v, parseAs E t s = some (.ok v)) ∨ parseAs E t s = some .err := by
  obtain ⟨r, h, -, h2, e⟩ := fromStr_any E hs t
  rw [parseAs, e]
  cases r with
  | ok v => exact .inl ⟨v, rfl⟩
  | err => exact .inr rfl
  | panic => exact absurd rfl h2

/-! ## C08 -/

/-- **C08.** When `from_str` returns, whatever the input and the result, no dangling, ill-typed or uninitialised access and no
double free has happened, and of all memory only the local `out` is left: nothing leaked. -/
theorem C08_memory (E : Env) (t : Ty) (s : Bytes) (r : Res Val) (h : Heap)
    (e : fromStr E t s = some (r, h)) :
    h.fault = false ∧ (∀ a, a ≠ 0 → h.mem a = none) ∧ ∃ c, h.mem 0 = some (.slot c) := by
  obtain ⟨r', h', hc, e'⟩ := fromStr_mem E s t
  rw [e] at e'
  simp only [Option.some.injEq, Prod.mk.injEq] at e'
  obtain ⟨-, rfl⟩ := e'
  exact ⟨hc.noFault, hc.only, hc.out⟩

/-! ## C13 -/

/-- The integer an integer literal denotes. -/
def NumLit.intVal (l : NumLit) : Int := if l.minus then -(digitsVal l.int : Int) else digitsVal l.int

/-- **C13.** `from_str` at an integer type of up to 64 bits gives `n` exactly on the integer literals (no fraction, no exponent)
of value `n` in the range of the type; a minus sign needs a signed type. -/
theorem C13_integers (E : Env) (signed : Bool) (bits : Nat) (h1 : 1 ≤ bits) (h64 : bits ≤ 64) (s : Bytes) (v : Val) :
    parseAs E (.int signed bits) s = some (.ok v) ↔
      ∃ l, JText s (.num l) ∧ l.frac = none ∧ l.exp = none ∧ (l.minus = true → signed = true) ∧
        lowest signed bits ≤ l.intVal ∧ l.intVal ≤ highest signed bits ∧ v = .int l.intVal := by
  have hp : (2 : Int) ^ bits ≤ 2 ^ 64 := by
    have := Nat.pow_le_pow_right (n := 2) (by omega) h64
    exact_mod_cast this
  have hp' : (2 : Int) ^ (bits - 1) ≤ 2 ^ 63 := by
    have := Nat.pow_le_pow_right (n := 2) (by omega) (show bits - 1 ≤ 63 by omega)
    exact_mod_cast this
  have hpos : (1 : Int) ≤ 2 ^ (bits - 1) := by
    have := Nat.one_le_two_pow (n := bits - 1)
    exact_mod_cast this
  rw [parseAs_ok]
  constructor
  · rintro ⟨j, hj, hd⟩
    unfold decode at hd
    cases j with
    | num l =>
      refine ⟨l, hj, ?_⟩
      simp only [decodeScalar] at hd
      by_cases hi : l.frac = none ∧ l.exp = none
      · refine ⟨hi.1, hi.2, ?_⟩
        rw [numEvent_int hi.1 hi.2] at hd
        split at hd
        · rename_i ev he
          split at he
          · split at he
            · rename_i hm
              split at he
              · simp only [Res.ok.injEq] at he
                subst he
                simp only [decodeNum] at hd
                split at hd
                · rename_i hc
                  obtain ⟨hs, hc⟩ := hc
                  subst hs
                  simp only [Option.some.injEq] at hd
                  subst hd
                  simp only [NumLit.intVal, hm, if_true, lowest, highest]
                  exact ⟨fun _ => trivial, by omega, by omega, trivial⟩
                · cases hd
              · simp only [Res.ok.injEq] at he
                subst he
                cases signed <;> simp [decodeNum] at hd
            · rename_i hm
              simp only [Res.ok.injEq] at he
              subst he
              simp only [NumLit.intVal, hm]
              cases signed <;> simp only [decodeNum] at hd <;> split at hd <;> try cases hd
              · rename_i hle
                refine ⟨by simp, ?_, ?_, rfl⟩ <;> simp only [lowest, highest] <;> simp <;> omega
              · rename_i hle
                refine ⟨by simp, ?_, ?_, rfl⟩ <;> simp only [lowest, highest] <;> simp <;> omega
          · revert he
            generalize i32 _ = z
            cases z with
            | ok e =>
              simp only [Res.bind_ok']
              cases De.f64FromParts (!l.minus) (accum u64Max 0 l.int).1 e with
              | ok x =>
                simp only [Res.map_ok, Res.ok.injEq]
                rintro rfl
                cases signed <;> simp [decodeNum] at hd
              | err => simp
              | panic => simp
            | err => simp
            | panic => simp
        · cases hd
      · exfalso
        rcases numEvent_nonint hi with h | h | ⟨x, h⟩ <;> rw [h] at hd
        · simp at hd
        · simp at hd
        · cases signed <;> simp [decodeNum] at hd
    | _ => simp [decodeScalar] at hd
  · rintro ⟨l, hj, hf, hx, hm, hlo, hhi, rfl⟩
    refine ⟨_, hj, ?_⟩
    unfold decode
    simp only [decodeScalar]
    rw [numEvent_int hf hx]
    have hm' : highest signed bits ≤ u64Max := by
      cases signed <;> simp only [highest] <;> simp <;> omega
    have hmin : -9223372036854775808 ≤ lowest signed bits := by
      cases signed <;> simp only [lowest] <;> simp; omega
    unfold NumLit.intVal at hlo hhi ⊢
    cases hmm : l.minus with
    | true =>
      have := hm hmm
      subst this
      rw [hmm] at hlo hhi
      simp only [if_true] at hlo hhi ⊢
      rw [if_pos (by simp only [u64Max]; omega), if_pos (by omega)]
      simp only [decodeNum]
      rw [if_pos ⟨trivial, by simpa [lowest] using hlo⟩]
    | false =>
      rw [hmm] at hlo hhi
      simp only [Bool.false_eq_true, if_false] at hlo hhi ⊢
      rw [if_pos (by omega)]
      cases signed with
      | true => simp only [decodeNum]; rw [if_pos (by simpa [highest] using hhi)]
      | false => simp only [decodeNum]; rw [if_pos (by simpa [highest] using hhi)]

/-- `-128` at `i8` is in the range, `128` is not. -/
example (E : Env) : parseAs E (.int true 8) (str! "-128") = some (.ok (.int (-128))) ∧
    parseAs E (.int true 8) (str! "128") = some .err := by
  constructor
  · rw [C13_integers E true 8 (by omega) (by omega)]
    exact ⟨⟨true, str! "128", none, none⟩, num_text ⟨true, str! "128", none, none⟩ ⟨by decide, by decide, by simp, by simp⟩, rfl, rfl,
      fun _ => rfl, by decide +kernel, by decide +kernel, congrArg Val.int (by decide +kernel)⟩
  · have := (C04_compositional E (.int true 8) (str! "128") (by decide)).1 _
      (num_text ⟨false, str! "128", none, none⟩ ⟨by decide, by decide, by simp, by simp⟩)
    rw [this]
    have : numEvent ⟨false, str! "128", none, none⟩ = .ok (.nonnegative 128) := by decide +kernel
    unfold decode
    simp [decodeScalar, this, decodeNum]

/-! ## C19 – C22 -/

/-- What a derived struct with distinct field names makes of a JSON object: every member must fit, and each field has the value of
its last occurrence or, for an `Option` that is absent, `None`. -/
theorem C19_to_C22_struct (E : Env) (i : Nat) (hn : ((E.fields i).map Prod.fst).Nodup) (s : Bytes) (v : Val) :
    parseAs E (.strct i) s = some (.ok v) ↔ ∃ ms vs, JText s (.obj ms) ∧ v = .strct vs ∧
      (∀ m ∈ ms, MemberFits E (E.fields i) m) ∧ vs.length = (E.fields i).length ∧
      ∀ (j : Nat) n t, (E.fields i)[j]? = some (n, t) → ∃ u, vs[j]? = some u ∧ FieldHas E ms n t u := by
  rw [parseAs_ok]
  constructor
  · rintro ⟨j, hj, hd⟩
    cases j with
    | obj ms =>
      obtain ⟨vs, h⟩ := (decode_strct E hn ms v).1 hd
      exact ⟨ms, vs, hj, h⟩
    | num l =>
      unfold decode at hd
      simp only [decodeScalar] at hd
      split at hd
      · rename_i ev _; cases ev <;> simp [decodeNum] at hd
      · cases hd
    | _ => unfold decode at hd; simp [decodeScalar] at hd
  · rintro ⟨ms, vs, hj, h⟩
    exact ⟨_, hj, (decode_strct E hn ms v).2 ⟨vs, h⟩⟩

/-- Two inputs with the same successes have the same result. -/
theorem parseAs_congr (E : Env) {t : Ty} {s s' : Bytes} (hs : s.length < 2 ^ 31) (hs' : s'.length < 2 ^ 31)
    (h : ∀ v, parseAs E t s = some (.ok v) ↔ parseAs E t s' = some (.ok v)) : parseAs E t s = parseAs E t s' := by
  rcases C05_returns E t s hs with ⟨v, hv⟩ | he
  · rw [hv, (h v).1 hv]
  · rcases C05_returns E t s' hs' with ⟨v, hv⟩ | he'
    · rw [hv, (h v).2 hv]
    · rw [he, he']

theorem lastOcc_perm {α : Type} {ms ms' : List (Bytes × α)} (hp : ms.Perm ms') (hn : (ms.map Prod.fst).Nodup) (k : Bytes) :
    lastOcc k ms = lastOcc k ms' := by
  have key : ∀ {l : List (Bytes × α)}, (l.map Prod.fst).Nodup → ∀ v, lastOcc k l = some v ↔ (k, v) ∈ l := by
    intro l hl v
    induction l with
    | nil => simp [lastOcc]
    | cons x l ih =>
      simp only [List.map_cons, List.nodup_cons] at hl
      have ih := ih hl.2
      rw [show x = (x.1, x.2) from rfl, lastOcc_cons]
      by_cases e : k = x.1
      · have hno : lastOcc k l = none := by
          cases ho : lastOcc k l with
          | none => rfl
          | some w =>
            exfalso
            unfold lastOcc at ho
            have : (k, w) ∈ l.reverse := by
              generalize l.reverse = m at ho
              induction m with
              | nil => simp at ho
              | cons z m ih =>
                rw [show z = (z.1, z.2) from rfl, lookup_cons'] at ho
                split at ho
                · rename_i e; cases ho; simp [e]
                · exact List.mem_cons_of_mem _ (ih ho)
            exact hl.1 (e ▸ List.mem_map.2 ⟨_, by simpa using this, rfl⟩)
        rw [hno, if_pos e]
        simp only [Option.none_or, Option.some.injEq, List.mem_cons, Prod.mk.injEq]
        constructor
        · rintro rfl; exact .inl ⟨e, rfl⟩
        · rintro (⟨-, h⟩ | h)
          · exact h.symm
          · exact absurd (List.mem_map.2 ⟨_, h, rfl⟩) (e ▸ hl.1)
      · rw [if_neg e, Option.or_none, ih]
        simp [e]
  have h1 := key hn
  have h2 := key (hp.map Prod.fst |>.nodup_iff.1 hn)
  cases h : lastOcc k ms with
  | some v => exact ((h2 v).2 (hp.mem_iff.1 ((h1 v).1 h))).symm
  | none =>
    cases h' : lastOcc k ms' with
    | none => rfl
    | some v => rw [(h1 v).2 (hp.mem_iff.2 ((h2 v).1 h'))] at h; cases h

/-- Same decoding at a struct, from the same members up to order. -/
theorem struct_congr {E : Env} {i : Nat} (hn : ((E.fields i).map Prod.fst).Nodup) {ms ms' : List (Bytes × Json)}
    (h1 : (∀ m ∈ ms, MemberFits E (E.fields i) m) ↔ ∀ m ∈ ms', MemberFits E (E.fields i) m)
    (h2 : ∀ f ∈ E.fields i, lastOcc f.1 ms = lastOcc f.1 ms') : decode E (.obj ms) (.strct i) = decode E (.obj ms') (.strct i) := by
  have key : ∀ v, decode E (.obj ms) (.strct i) = some v ↔ decode E (.obj ms') (.strct i) = some v := by
    intro v
    rw [decode_strct E hn, decode_strct E hn]
    refine exists_congr fun vs => and_congr_right fun _ => and_congr h1 (and_congr_right fun _ => ?_)
    refine forall_congr' fun j => forall_congr' fun n => forall_congr' fun t => forall_congr' fun hj => ?_
    refine exists_congr fun u => and_congr_right fun _ => ?_
    unfold FieldHas
    rw [h2 (n, t) (List.mem_of_getElem? hj)]
  cases h : decode E (.obj ms) (.strct i) with
  | some v => exact ((key v).1 h).symm
  | none =>
    cases h' : decode E (.obj ms') (.strct i) with
    | none => rfl
    | some v => rw [(key v).2 h'] at h; cases h

/-- **C19.** Permuting the members of an object with distinct keys does not change what a derived struct makes of it. -/
theorem C19_field_order (E : Env) (i : Nat) (hn : ((E.fields i).map Prod.fst).Nodup) (ms ms' : List (Bytes × Json))
    (hp : ms.Perm ms') (hk : (ms.map Prod.fst).Nodup) (s s' : Bytes) (hs : s.length < 2 ^ 31) (hs' : s'.length < 2 ^ 31)
    (h : JText s (.obj ms)) (h' : JText s' (.obj ms')) : parseAs E (.strct i) s = parseAs E (.strct i) s' := by
  rw [parseAs_text E h hs, parseAs_text E h' hs', struct_congr hn (ms := ms) (ms' := ms')]
  · exact ⟨fun g m hm => g m (hp.mem_iff.2 hm), fun g m hm => g m (hp.mem_iff.1 hm)⟩
  · exact fun f _ => lastOcc_perm hp hk f.1

theorem lastOcc_append {α : Type} (k : Bytes) (ms ms' : List (Bytes × α)) :
    lastOcc k (ms ++ ms') = (lastOcc k ms').or (lastOcc k ms) := by
  simp [lastOcc, lookup_append]

/-- **C20.** A member whose key is no field name changes nothing, wherever it stands and whatever representable value it has. -/
theorem C20_unknown_fields (E : Env) (i : Nat) (hn : ((E.fields i).map Prod.fst).Nodup) (ms₁ ms₂ : List (Bytes × Json)) (k : Bytes)
    (x : Json) (hk : k ∉ (E.fields i).map Prod.fst) (hx : representable x = true) (s s' : Bytes) (hs : s.length < 2 ^ 31)
    (hs' : s'.length < 2 ^ 31) (h : JText s (.obj (ms₁ ++ (k, x) :: ms₂))) (h' : JText s' (.obj (ms₁ ++ ms₂))) :
    parseAs E (.strct i) s = parseAs E (.strct i) s' := by
  rw [parseAs_text E h hs, parseAs_text E h' hs', struct_congr hn (ms := ms₁ ++ (k, x) :: ms₂) (ms' := ms₁ ++ ms₂)]
  · have hl : (E.fields i).lookup k = none := by
      rw [List.lookup_eq_none_iff]
      intro f hf
      simp only [bne_iff_ne, ne_eq]
      rintro rfl
      exact hk (List.mem_map.2 ⟨f, hf, rfl⟩)
    have : MemberFits E (E.fields i) (k, x) := by simp only [MemberFits, hl]; exact hx
    simp only [List.mem_append, List.mem_cons]
    constructor
    · intro g m hm
      exact g m (hm.elim .inl fun h => .inr (.inr h))
    · rintro g m (hm | rfl | hm)
      · exact g m (.inl hm)
      · exact this
      · exact g m (.inr hm)
  · intro f hf
    rw [lastOcc_append, lastOcc_append, lastOcc_cons, if_neg, Option.or_none]
    rintro rfl
    exact hk (List.mem_map.2 ⟨f, hf, rfl⟩)

/-- **C21, required fields.** If a field is absent and its type is not `Option`, the struct does not deserialize. -/
theorem C21_missing_field (E : Env) (i : Nat) (hn : ((E.fields i).map Prod.fst).Nodup) (ms : List (Bytes × Json)) (n : Bytes) (t : Ty)
    (hf : (n, t) ∈ E.fields i) (ht : ∀ t', t ≠ .opt t') (ha : n ∉ ms.map Prod.fst) (s : Bytes) (hs : s.length < 2 ^ 31)
    (h : JText s (.obj ms)) : parseAs E (.strct i) s = some .err := by
  rw [parseAs_text E h hs]
  cases hd : decode E (.obj ms) (.strct i) with
  | none => rfl
  | some v =>
    exfalso
    obtain ⟨vs, -, -, -, h4⟩ := (decode_strct E hn ms v).1 hd
    obtain ⟨j, hj⟩ := List.getElem?_of_mem hf
    obtain ⟨u, -, h6⟩ := h4 j n t hj
    have : lastOcc n ms = none := by
      unfold lastOcc
      rw [List.lookup_eq_none_iff]
      intro m hm
      simp only [bne_iff_ne, ne_eq]
      rintro rfl
      exact ha (List.mem_map.2 ⟨m, by simpa using hm, rfl⟩)
    rw [FieldHas, this] at h6
    obtain ⟨⟨t', rfl⟩, -⟩ := h6
    exact ht t' rfl

/-- **C21, optional fields.** An absent `Option` field is `None` in every result. -/
theorem C21_missing_option (E : Env) (i : Nat) (hn : ((E.fields i).map Prod.fst).Nodup) (ms : List (Bytes × Json)) (j : Nat) (n : Bytes)
    (t : Ty) (hf : (E.fields i)[j]? = some (n, .opt t)) (ha : n ∉ ms.map Prod.fst) (s : Bytes) (h : JText s (.obj ms)) (vs : List Val)
    (hr : parseAs E (.strct i) s = some (.ok (.strct vs))) : vs[j]? = some .optNone := by
  obtain ⟨h2, -, e⟩ := fromStr_run E h (.strct i)
  rw [parseAs, e] at hr
  simp only [Option.map_some, Option.some.injEq] at hr
  obtain ⟨vs', e1, -, -, h4⟩ := (decode_strct E hn ms _).1 ((run_decode E _ _ _).1 hr)
  simp only [Val.strct.injEq] at e1
  subst e1
  obtain ⟨u, h5, h6⟩ := h4 j n _ hf
  have : lastOcc n ms = none := by
    unfold lastOcc
    rw [List.lookup_eq_none_iff]
    intro m hm
    simp only [bne_iff_ne, ne_eq]
    rintro rfl
    exact ha (List.mem_map.2 ⟨m, by simpa using hm, rfl⟩)
  rw [FieldHas, this] at h6
  rw [h5, h6.2]

/-- **C22, structs.** The last occurrence of a repeated member is the one that counts, and every occurrence must decode. -/
theorem C22_struct_last_wins (E : Env) (i : Nat) (hn : ((E.fields i).map Prod.fst).Nodup) (ms : List (Bytes × Json)) (s : Bytes)
    (h : JText s (.obj ms)) (vs : List Val) (hr : parseAs E (.strct i) s = some (.ok (.strct vs))) (j : Nat) (n : Bytes) (t : Ty)
    (hf : (E.fields i)[j]? = some (n, t)) :
    (∀ ms₁ x ms₂, ms = ms₁ ++ (n, x) :: ms₂ → n ∉ ms₂.map Prod.fst → decode E x t = vs[j]?) ∧
    (∀ x, (n, x) ∈ ms → ∃ v, decode E x t = some v) := by
  obtain ⟨h2, -, e⟩ := fromStr_run E h (.strct i)
  rw [parseAs, e] at hr
  simp only [Option.map_some, Option.some.injEq] at hr
  obtain ⟨vs', e1, hm, -, h4⟩ := (decode_strct E hn ms _).1 ((run_decode E _ _ _).1 hr)
  simp only [Val.strct.injEq] at e1
  subst e1
  obtain ⟨u, h5, h6⟩ := h4 j n _ hf
  constructor
  · rintro ms₁ x ms₂ rfl ha
    have : lastOcc n ms₂ = none := by
      unfold lastOcc
      rw [List.lookup_eq_none_iff]
      intro m hm'
      simp only [bne_iff_ne, ne_eq]
      rintro rfl
      exact ha (List.mem_map.2 ⟨m, by simpa using hm', rfl⟩)
    rw [FieldHas, lastOcc_append, lastOcc_cons, this, if_pos rfl] at h6
    simp only [Option.none_or, Option.some_or] at h6
    rw [h5, h6]
  · intro x hx
    have := hm _ hx
    obtain ⟨t', g1, g2⟩ := lookup_of_idx ((fieldIdx_some hn (k := n) hf).2 rfl)
    rw [hf] at g1; simp only [Option.some.injEq, Prod.mk.injEq, true_and] at g1; subst g1
    simpa only [MemberFits, g2] using this

theorem decode_one : decode exEnv (.num litOne) (.int true 32) = some (.int 1) := by
  unfold decode
  simp [decodeScalar, numEvent_one, decodeNum]

/-- The struct `Point` from an object with an unknown member, a repeated member and two absent `Option`s. -/
example : parseAs exEnv (.strct 0) exObj = some (.ok (.strct [.int 1, .optNone, .optNone])) := by
  rw [C19_to_C22_struct exEnv 0 exEnv_fields_nodup]
  refine ⟨_, _, exObj_text, rfl, ?_, by decide, ?_⟩
  · intro m hm
    simp only [exObjMembers, List.mem_cons, List.not_mem_nil, or_false] at hm
    rcases hm with rfl | rfl | rfl
    · show representable _ = true
      simp [representable, representables, numEvent_one, Res.isOk]
    · exact ⟨_, decode_one⟩
    · exact ⟨_, decode_one⟩
  · intro j n t hj
    match j, hj with
    | 0, hj =>
      simp [exEnv] at hj
      obtain ⟨rfl, rfl⟩ := hj
      exact ⟨_, rfl, decode_one⟩
    | 1, hj => simp [exEnv] at hj; obtain ⟨rfl, rfl⟩ := hj; exact ⟨_, rfl, ⟨_, rfl⟩, rfl⟩
    | 2, hj => simp [exEnv] at hj; obtain ⟨rfl, rfl⟩ := hj; exact ⟨_, rfl, ⟨_, rfl⟩, rfl⟩
    | j + 3, hj => simp [exEnv] at hj

/-! ## C22, C26: maps -/

/-- The shape of a successful map deserialization. -/
theorem map_shape (E : Env) {s : Bytes} {t : Ty} {v : Val} {parse : Bytes → Option Bytes} {u : Ty}
    {ins : List (Bytes × Val) → List (Bytes × Val)}
    (hobj : ∀ ms, decode E (.obj ms) t = (decodeEntries E parse u ms).map fun kvs => .map (ins kvs))
    (hno : ∀ j, (∀ ms, j ≠ .obj ms) → decode E j t = none) :
    parseAs E t s = some (.ok v) ↔ ∃ ms kvs, JText s (.obj ms) ∧ DecodedEntries E parse u ms kvs ∧ v = .map (ins kvs) := by
  rw [parseAs_ok]
  constructor
  · rintro ⟨j, hj, hd⟩
    cases j with
    | obj ms =>
      rw [hobj, Option.map_eq_some_iff] at hd
      obtain ⟨kvs, h1, rfl⟩ := hd
      exact ⟨ms, kvs, hj, (decodeEntries_spec E parse u ms kvs).1 h1, rfl⟩
    | _ =>
      rw [hno _ (by intro _ h; cases h)] at hd; cases hd
  · rintro ⟨ms, kvs, hj, h1, rfl⟩
    refine ⟨_, hj, ?_⟩
    rw [hobj, (decodeEntries_spec E parse u ms kvs).2 h1]
    rfl

theorem decode_num_none (E : Env) {l : NumLit} {t : Ty} (h : ∀ ev, decodeNum ev t = none) : decodeScalar E (.num l) t = none := by
  simp only [decodeScalar]
  cases numEvent l with
  | ok ev => exact h ev
  | err => rfl
  | panic => rfl

/-- **C26, `HashMap`.** Ok exactly on objects all of whose keys parse and all of whose values decode; the map has distinct keys
and sends each key to the value of its last occurrence, and contains nothing else. -/
theorem C26_hash_map (E : Env) (k : Nat) (t : Ty) (s : Bytes) :
    (∀ v, parseAs E (.hmap k t) s = some (.ok v) → ∃ ms kvs m, JText s (.obj ms) ∧ DecodedEntries E (E.keyParse k) t ms kvs ∧
      v = .map m ∧ (m.map Prod.fst).Nodup ∧ ∀ a, m.lookup a = lastOcc a kvs) ∧
    (∀ ms kvs, JText s (.obj ms) → DecodedEntries E (E.keyParse k) t ms kvs → ∃ v, parseAs E (.hmap k t) s = some (.ok v)) := by
  have key := fun v => map_shape E (s := s) (t := .hmap k t) (v := v) (parse := E.keyParse k) (u := t)
    (ins := fun kvs => kvs.foldl (fun m kv => hashInsert kv.1 kv.2 m) [])
    (fun ms => by conv => lhs; unfold decode) (fun j hj => by
      unfold decode
      cases j with
      | obj ms => exact absurd rfl (hj ms)
      | num l => exact decode_num_none E fun ev => by cases ev <;> rfl
      | _ => rfl)
  refine ⟨fun v h => ?_, fun ms kvs h1 h2 => ?_⟩
  · obtain ⟨ms, kvs, h1, h2, rfl⟩ := (key v).1 h
    have hf := foldl_hash kvs [] List.Pairwise.nil
    exact ⟨ms, kvs, _, h1, h2, rfl, hf.1, fun a => by rw [hf.2 a]; simp [lastOcc]⟩
  · exact ⟨_, (key _).2 ⟨ms, kvs, h1, h2, rfl⟩⟩

/-- **C26, `BTreeMap`.** The same, and the keys are in strictly increasing order (for a key type whose `Ord` is a linear order); this
determines the map. -/
theorem C26_btree_map (E : Env) (k : Nat) (hk : StrictLinear (E.keyLt k)) (t : Ty) (s : Bytes) (v : Val) :
    parseAs E (.bmap k t) s = some (.ok v) ↔ ∃ ms kvs m, JText s (.obj ms) ∧ DecodedEntries E (E.keyParse k) t ms kvs ∧
      v = .map m ∧ SortedKeys (E.keyLt k) m ∧ ∀ a, m.lookup a = lastOcc a kvs := by
  rw [map_shape E (s := s) (t := .bmap k t) (v := v) (parse := E.keyParse k) (u := t)
    (ins := fun kvs => kvs.foldl (fun m kv => btreeInsert (E.keyLt k) kv.1 kv.2 m) [])
    (fun ms => by conv => lhs; unfold decode) (fun j hj => by
      unfold decode
      cases j with
      | obj ms => exact absurd rfl (hj ms)
      | num l => exact decode_num_none E fun ev => by cases ev <;> rfl
      | _ => rfl)]
  constructor
  · rintro ⟨ms, kvs, h1, h2, rfl⟩
    have hf := foldl_btree hk kvs [] List.Pairwise.nil
    exact ⟨ms, kvs, _, h1, h2, rfl, hf.1, fun a => by rw [hf.2 a]; simp [lastOcc]⟩
  · rintro ⟨ms, kvs, m, h1, h2, rfl, h3, h4⟩
    have hf := foldl_btree hk kvs [] List.Pairwise.nil
    refine ⟨ms, kvs, h1, h2, ?_⟩
    congr 1
    exact (SortedKeys.ext hk hf.1 h3 fun a => by rw [hf.2 a, h4 a]; simp [lastOcc]).symm

/-- **C26, `Object`.** As a `BTreeMap<String, Value>`. -/
theorem C26_object (E : Env) (s : Bytes) (v : Val) :
    parseAs E .object s = some (.ok v) ↔ ∃ ms kvs m, JText s (.obj ms) ∧ AreMembers ms kvs ∧
      v = .map m ∧ SortedKeys strLt m ∧ ∀ a, m.lookup a = lastOcc a kvs := by
  rw [map_shape E (s := s) (t := .object) (v := v) (parse := some) (u := .value)
    (ins := fun kvs => kvs.foldl (fun m kv => btreeInsert strLt kv.1 kv.2 m) [])
    (fun ms => by conv => lhs; unfold decode) (fun j hj => by
      unfold decode
      cases j with
      | obj ms => exact absurd rfl (hj ms)
      | num l => exact decode_num_none E fun ev => by cases ev <;> rfl
      | _ => rfl)]
  simp only [← decodeEntries_spec, decodeEntries_value]
  constructor
  · rintro ⟨ms, kvs, h1, h2, rfl⟩
    have hf := foldl_btree strLt_linear kvs [] List.Pairwise.nil
    exact ⟨ms, kvs, _, h1, h2, rfl, hf.1, fun a => by rw [hf.2 a]; simp [lastOcc]⟩
  · rintro ⟨ms, kvs, m, h1, h2, rfl, h3, h4⟩
    have hf := foldl_btree strLt_linear kvs [] List.Pairwise.nil
    refine ⟨ms, kvs, h1, h2, ?_⟩
    congr 1
    exact (SortedKeys.ext strLt_linear hf.1 h3 fun a => by rw [hf.2 a, h4 a]; simp [lastOcc]).symm

/-- **C22, maps.** In a map read from an object, the last occurrence of a key counts. -/
theorem C22_map_last_wins (E : Env) (k : Nat) (t : Ty) (s : Bytes) (ms : List (Bytes × Json)) (h : JText s (.obj ms))
    (m : List (Bytes × Val)) (a b : Bytes) (ms₁ ms₂ : List (Bytes × Json)) (x : Json) (e : ms = ms₁ ++ (b, x) :: ms₂)
    (hb : E.keyParse k b = some a) (hlast : ∀ y ∈ ms₂, E.keyParse k y.1 ≠ some a) :
    (parseAs E (.hmap k t) s = some (.ok (.map m)) → m.lookup a = decode E x t) ∧
    (StrictLinear (E.keyLt k) → parseAs E (.bmap k t) s = some (.ok (.map m)) → m.lookup a = decode E x t) := by
  have key : ∀ {ms₁ : List (Bytes × Json)} {kvs}, DecodedEntries E (E.keyParse k) t (ms₁ ++ (b, x) :: ms₂) kvs →
      lastOcc a kvs = decode E x t := by
    have none2 : ∀ {ms₂ kvs}, DecodedEntries E (E.keyParse k) t ms₂ kvs → (∀ y ∈ ms₂, E.keyParse k y.1 ≠ some a) →
        lastOcc a kvs = none := by
      intro ms₂ kvs hd
      induction hd with
      | nil => intro _; rfl
      | @cons c c' y v ms kvs hk hv hd ih =>
        intro hl
        rw [lastOcc_cons, ih fun y hy => hl y (List.mem_cons_of_mem _ hy), if_neg]
        · rfl
        · rintro rfl; exact hl _ (List.mem_cons_self ..) hk
    intro ms₁
    induction ms₁ with
    | nil =>
      intro kvs hd
      cases hd with
      | cons hk hv hd =>
        rw [hb] at hk
        simp only [Option.some.injEq] at hk
        subst hk
        rw [lastOcc_cons, none2 hd hlast, if_pos rfl, hv]; rfl
    | cons y ms₁ ih =>
      intro kvs hd
      cases hd with
      | @cons c c' z v _ kvs' hk hv hd =>
        rw [lastOcc_cons, ih hd]
        cases hx : decode E x t with
        | some w => rfl
        | none =>
          exfalso
          have : ∀ {l kvs}, DecodedEntries E (E.keyParse k) t (l ++ (b, x) :: ms₂) kvs → False := by
            intro l
            induction l with
            | nil => intro kvs h; cases h with | cons _ hv _ => rw [hx] at hv; cases hv
            | cons _ _ ih => intro kvs h; cases h with | cons _ _ h => exact ih h
          exact this hd
  have hobj : ∀ (T : Ty) (ins : List (Bytes × Val) → List (Bytes × Val)),
      (∀ ms, decode E (.obj ms) T = (decodeEntries E (E.keyParse k) t ms).map fun kvs => .map (ins kvs)) →
      parseAs E T s = some (.ok (.map m)) → ∃ kvs, DecodedEntries E (E.keyParse k) t ms kvs ∧ m = ins kvs := by
    intro T ins hT hr
    obtain ⟨h2, -, e⟩ := fromStr_run E h T
    rw [parseAs, e] at hr
    simp only [Option.map_some, Option.some.injEq] at hr
    have hd := (run_decode E _ _ _).1 hr
    rw [hT, Option.map_eq_some_iff] at hd
    obtain ⟨kvs, h3, h4⟩ := hd
    simp only [Val.map.injEq] at h4
    exact ⟨kvs, (decodeEntries_spec E _ _ _ _).1 h3, h4.symm⟩
  subst e
  constructor
  · intro hr
    obtain ⟨kvs, h3, rfl⟩ := hobj _ (fun kvs => kvs.foldl (fun m kv => hashInsert kv.1 kv.2 m) [])
      (fun ms => by conv => lhs; unfold decode) hr
    have hf := foldl_hash kvs [] List.Pairwise.nil
    rw [← key h3, hf.2 a]; simp [lastOcc]
  · intro hk hr
    obtain ⟨kvs, h3, rfl⟩ := hobj _ (fun kvs => kvs.foldl (fun m kv => btreeInsert (E.keyLt k) kv.1 kv.2 m) [])
      (fun ms => by conv => lhs; unfold decode) hr
    have hf := foldl_btree hk kvs [] List.Pairwise.nil
    rw [← key h3, hf.2 a]; simp [lastOcc]

example : parseAs exEnv (.bmap 0 .value) exObj =
    some (.ok (.map [(str! "x", .numU 1), (str! "y", .seq [.numU 1])])) := by
  rw [C26_btree_map exEnv 0 exEnv_keys_linear]
  have one : IsValue (.num litOne) (.numU 1) := .num numEvent_one (.pos 1)
  refine ⟨_, [(str! "y", .seq [.numU 1]), (str! "x", .numU 1), (str! "x", .numU 1)], _, exObj_text,
    .cons rfl ((decode_value _ _ _).2 (.arr (.cons one .nil))) (.cons rfl ((decode_value _ _ _).2 one) (.cons rfl ((decode_value _ _ _).2 one) .nil)), rfl, ?_, ?_⟩
  · simp [SortedKeys, strLt, exEnv]; decide
  · intro k
    simp only [lastOcc, List.reverse_cons, List.reverse_nil, List.nil_append, List.cons_append, List.lookup]
    cases k == str! "x" <;> rfl

/-! ## C23 -/

/-- **C23.** A derived enum deserializes to variant number `n` exactly from a JSON string equal to its name, and to none before it. -/
theorem C23_enum (E : Env) (i : Nat) (s : Bytes) (v : Val) :
    parseAs E (.enm i) s = some (.ok v) ↔ ∃ name n, JText s (.str name) ∧ v = .enm n ∧ (E.variants i)[n]? = some name ∧
      ∀ m < n, (E.variants i)[m]? ≠ some name := by
  rw [parseAs_ok]
  have key : ∀ name n, (E.variants i).findIdx? (· == name) = some n ↔ (E.variants i)[n]? = some name ∧
      ∀ m < n, (E.variants i)[m]? ≠ some name := by
    intro name n
    rw [List.findIdx?_eq_some_iff_getElem]
    constructor
    · rintro ⟨h1, h2, h3⟩
      refine ⟨by rw [List.getElem?_eq_getElem h1, eq_of_beq h2], fun m hm => ?_⟩
      have := h3 m hm
      rw [List.getElem?_eq_getElem (by omega)]
      simpa using this
    · rintro ⟨h1, h2⟩
      obtain ⟨h3, h4⟩ := List.getElem?_eq_some_iff.1 h1
      refine ⟨h3, by simp [h4], fun m hm => ?_⟩
      have := h2 m hm
      rw [List.getElem?_eq_getElem (by omega)] at this
      simpa using this
  constructor
  · rintro ⟨j, hj, hd⟩
    unfold decode at hd
    cases j with
    | str name =>
      simp only [decodeScalar, Option.map_eq_some_iff] at hd
      obtain ⟨n, h1, rfl⟩ := hd
      have := (key name n).1 h1
      exact ⟨name, n, hj, rfl, this⟩
    | num l =>
      have e : decodeScalar E (.num l) (.enm i) = none := decode_num_none E fun ev => by cases ev <;> rfl
      exact absurd (e.symm.trans hd) (by simp)
    | _ => simp [decodeScalar] at hd
  · rintro ⟨name, n, hj, rfl, h1⟩
    refine ⟨_, hj, ?_⟩
    unfold decode
    simp [decodeScalar, (key name n).2 h1]

example : parseAs exEnv (.enm 0) (str! "\"Red\"") = some (.ok (.enm 0)) := by
  rw [C23_enum]
  refine ⟨str! "Red", 0, ⟨[], _, [], rfl, De.ws_nil, .str (.mk (body := str! "Red") ?_), De.ws_nil⟩, rfl, rfl, by simp⟩
  exact .cons (.raw 0x52 (by decide) (by decide) (by decide)) (.cons (.raw 0x65 (by decide) (by decide) (by decide))
    (.cons (.raw 0x64 (by decide) (by decide) (by decide)) .nil))

/-! ## C24 -/

/-- **C24, `Option`.** `None` exactly on `null`, `Some(v)` exactly on a text other than `null` that decodes to `v`. -/
theorem C24_option (E : Env) (t : Ty) (s : Bytes) (v : Val) :
    parseAs E (.opt t) s = some (.ok v) ↔ ∃ j, JText s j ∧
      ((j = .null ∧ v = .optNone) ∨ (j ≠ .null ∧ ∃ u, v = .optSome u ∧ parseAs E t s = some (.ok u) ∧ decode E j t = some u)) := by
  rw [parseAs_ok]
  refine exists_congr fun j => and_congr_right fun hj => ?_
  conv => lhs; unfold decode
  have hn : j.isNull = true ↔ j = .null := by cases j <;> simp [Json.isNull]
  by_cases h : j = .null
  · simp [h, Json.isNull, eq_comm]
  · rw [if_neg (by rw [hn]; exact h)]
    simp only [Option.map_eq_some_iff, h, false_and, ne_eq, not_false_eq_true, true_and, false_or]
    constructor
    · rintro ⟨u, h1, rfl⟩; exact ⟨u, rfl, (parseAs_ok E).2 ⟨j, hj, h1⟩, h1⟩
    · rintro ⟨u, rfl, -, h1⟩; exact ⟨u, h1, rfl⟩

/-- **C24, `Box`.** `Box<T>` decodes exactly as `T`. -/
theorem C24_box (E : Env) (t : Ty) (s : Bytes) (v : Val) :
    parseAs E (.box t) s = some (.ok v) ↔ ∃ u, v = .box u ∧ parseAs E t s = some (.ok u) := by
  simp only [parseAs_ok]
  constructor
  · rintro ⟨j, hj, hd⟩
    unfold decode at hd
    simp only [Option.map_eq_some_iff] at hd
    obtain ⟨u, h1, rfl⟩ := hd
    exact ⟨u, rfl, j, hj, h1⟩
  · rintro ⟨u, rfl, j, hj, h1⟩
    refine ⟨j, hj, ?_⟩
    unfold decode
    simp [h1]

/-! ## C25 -/

/-- The shape of a successful sequence deserialization. -/
theorem C25_vec (E : Env) (t : Ty) (s : Bytes) (v : Val) :
    parseAs E (.vec t) s = some (.ok v) ↔ ∃ xs vs, JText s (.arr xs) ∧ DecodedElems E t xs vs ∧ v = .seq vs := by
  rw [parseAs_ok]
  constructor
  · rintro ⟨j, hj, hd⟩
    unfold decode at hd
    cases j with
    | arr xs =>
      simp only [Option.map_eq_some_iff] at hd
      obtain ⟨vs, h1, rfl⟩ := hd
      exact ⟨xs, vs, hj, (decodeAll_spec E t xs vs).1 h1, rfl⟩
    | num l =>
      have e : decodeScalar E (.num l) (.vec t) = none := decode_num_none E fun ev => by cases ev <;> rfl
      exact absurd (e.symm.trans hd) (by simp)
    | _ => simp [decodeScalar] at hd
  · rintro ⟨xs, vs, hj, h1, rfl⟩
    refine ⟨_, hj, ?_⟩
    unfold decode
    simp [(decodeAll_spec E t xs vs).2 h1]

/-- **C25, arrays.** `[T; N]` is Ok exactly for arrays of exactly `N` elements that all decode; order is kept. -/
theorem C25_array (E : Env) (t : Ty) (n : Nat) (s : Bytes) (v : Val) :
    parseAs E (.arr t n) s = some (.ok v) ↔ ∃ xs vs, JText s (.arr xs) ∧ xs.length = n ∧ DecodedElems E t xs vs ∧ v = .seq vs := by
  rw [parseAs_ok]
  constructor
  · rintro ⟨j, hj, hd⟩
    unfold decode at hd
    cases j with
    | arr xs =>
      simp only at hd
      split at hd
      · simp only [Option.map_eq_some_iff] at hd
        obtain ⟨vs, h1, rfl⟩ := hd
        exact ⟨xs, vs, hj, ‹_›, (decodeAll_spec E t xs vs).1 h1, rfl⟩
      · cases hd
    | num l =>
      have e : decodeScalar E (.num l) (.arr t n) = none := decode_num_none E fun ev => by cases ev <;> rfl
      exact absurd (e.symm.trans hd) (by simp)
    | _ => simp [decodeScalar] at hd
  · rintro ⟨xs, vs, hj, hl, h1, rfl⟩
    refine ⟨_, hj, ?_⟩
    unfold decode
    simp [(decodeAll_spec E t xs vs).2 h1, hl]

/-- **C25, pairs.** `(A, B)` is Ok exactly for arrays of exactly two elements that decode as `A` and `B`. -/
theorem C25_pair (E : Env) (a b : Ty) (s : Bytes) (v : Val) :
    parseAs E (.tup a b) s = some (.ok v) ↔ ∃ x y u w, JText s (.arr [x, y]) ∧ decode E x a = some u ∧ decode E y b = some w ∧
      v = .seq [u, w] := by
  rw [parseAs_ok]
  constructor
  · rintro ⟨j, hj, hd⟩
    unfold decode at hd
    cases j with
    | arr xs =>
      simp only at hd
      match xs, hj, hd with
      | [x, y], hj, hd =>
        simp only [Option.bind_eq_some_iff, Option.map_eq_some_iff] at hd
        obtain ⟨u, h1, w, h2, rfl⟩ := hd
        exact ⟨x, y, u, w, hj, h1, h2, rfl⟩
    | num l =>
      have e : decodeScalar E (.num l) (.tup a b) = none := decode_num_none E fun ev => by cases ev <;> rfl
      exact absurd (e.symm.trans hd) (by simp)
    | _ => simp [decodeScalar] at hd
  · rintro ⟨x, y, u, w, hj, h1, h2, rfl⟩
    refine ⟨_, hj, ?_⟩
    unfold decode
    simp [h1, h2]

example : parseAs exEnv (.arr .value 2) exText =
    some (.ok (.seq [.numU 1, .map [(str! "a", .null)]])) := by
  rw [C25_array]
  refine ⟨_, _, exText_tree, rfl, .cons ((decode_value _ _ _).2 (.num numEvent_one (.pos 1)))
    (.cons ((decode_value _ _ _).2 (.obj (.cons .null .nil) ?_ ?_)) .nil), rfl⟩
  · simp [SortedKeys]
  · intro k; simp [lastOcc]

end Miniserde
