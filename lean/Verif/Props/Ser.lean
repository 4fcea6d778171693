import Verif.Proof.Ser
import Verif.Proof.SerLib
import Verif.Proof.SerMonitor
import Verif.Proof.EncUtf8
import Verif.Proof.RoundTrip

/-!
# Properties of serialization

`Prints P ryu s w o w'`: `to_string` of the value `s` of an arbitrary implementation `P` of `Serialize` returns `o`.
`PrintsAs E order ryu t v o`: `to_string` of the library or derived value `v : t` returns `o`.
`ryu` is the text the `ryu` crate writes for a finite float; all that is assumed about it is `RyuSyntax`: it is a JSON number.
-/

namespace Miniserde

/-! ## Instances used in the examples -/

/-- An exact way to write a finite float: `m·2^e` as an integer with `.0`, or as `(m·5^k)e-k`. -/
def exLit : F64 → NumLit
  | .fin s m (.ofNat e) => ⟨s, decimal (m * 2 ^ e), some (str! "0"), none⟩
  | .fin s m (.negSucc k) => ⟨s, decimal (m * 5 ^ (k + 1)), none, some ⟨false, some true, decimal (k + 1)⟩⟩
  | _ => ⟨false, str! "0", none, none⟩

/-- `RyuSyntax` can be met. -/
theorem exRyu : RyuSyntax (fun x => (exLit x).text) exLit where
  wf x hx := by
    match x with
    | .fin s m (.ofNat e) => exact ⟨decimal_digits _, (decimal_wf s _).int_zero, fun ds h => by cases h; decide, fun _ h => by cases h⟩
    | .fin s m (.negSucc k) => exact ⟨decimal_digits _, (decimal_wf s _).int_zero, fun ds h => (by cases h), fun _ h => (by cases h; exact decimal_digits _)⟩
    | .nan => cases hx
    | .inf _ => cases hx
  text _ _ := rfl
  notInt x hx := by
    match x with
    | .fin s m (.ofNat e) => exact .inl (by simp [exLit])
    | .fin s m (.negSucc k) => exact .inr (by simp [exLit])
    | .nan => cases hx
    | .inf _ => cases hx

section
variable {ryu : F64 → Bytes} {lit : F64 → NumLit}

/-- `to_string` has at most one result. -/
theorem Prints.unique {σ : Type} {P : SProto σ} {s : P.S} {w : σ} {o o' : Bytes} {u u' : σ} (h : Prints P ryu s w o u)
    (h' : Prints P ryu s w o' u') : o = o' ∧ u = u' := by
  obtain ⟨n, h⟩ := h
  obtain ⟨m, h'⟩ := h'
  have h1 := runS_mono (Nat.le_max_left n m) h
  have h2 := runS_mono (Nat.le_max_right n m) h'
  rw [h1] at h2
  cases h2
  exact ⟨rfl, rfl⟩

/-! ## C27 -/

/-- **C27.** For every implementation of `Serialize`: what `to_string` returns is one JSON text, valid UTF-8, and its tree is that of
the fragments streamed. -/
theorem C27_json_text {σ : Type} (P : SProto σ) (hr : RyuSyntax ryu lit) (hP : P.Utf8) (s : P.S) (w w' : σ) (o : Bytes)
    (h : Prints P ryu s w o w') : ∃ t, Streams P s w t w' ∧ JText o (t.json lit) ∧ ValidUtf8 o := by
  obtain ⟨n, h⟩ := h
  obtain ⟨t, ht, rfl⟩ := toStringN_spec hr hP h
  exact ⟨t, ht, compact_text (FTree.litsWF hr t), compact_valid _ (FTree.litsWF hr t) (FTree.json_allStr t (ht.utf8 hP))⟩

/-- **C27.** Conversely, `to_string` returns on every value whose streams are finite, and returns the text of the streamed tree. -/
theorem C27_finite_streams {σ : Type} (P : SProto σ) (hr : RyuSyntax ryu lit) (hP : P.Utf8) (s : P.S) (w w' : σ) (t : FTree)
    (h : Streams P s w t w') : ∃ o, Prints P ryu s w o w' ∧ JText o (t.json lit) ∧ ValidUtf8 o :=
  ⟨compact (t.json lit), ⟨t.nodes, toStringN_streams hr h (h.utf8 hP) (Nat.le_refl _)⟩, compact_text (FTree.litsWF hr t),
    compact_valid _ (FTree.litsWF hr t) (FTree.json_allStr t (h.utf8 hP))⟩

/-! A user-written implementation: a counter that streams `[0,1,..,n-1]` and forgets to check its own state. -/

/-- `&self` is `None` for the counter itself and `Some(i)` for its `i`-th element; the world holds the next index. -/
def exCounter (n : Nat) : SProto Nat where
  S := Option Nat
  Q := Unit
  M := Empty
  begin s w := match s with | none => (some (.seq ()), 0) | some i => (some (.u64 i), w)
  seqNext _ w := if w < n then (some (some (some w)), w + 1) else (some none, w)
  mapNext m _ := nomatch m
  dropSeq _ w := w
  dropMap m _ := nomatch m

theorem exCounter_utf8 (n : Nat) : (exCounter n).Utf8 where
  str s w x w' h := by cases s <;> simp [exCounter] at h
  key m := nomatch m

example : Streams (exCounter 2) none 7 (.seq [.u64 0, .u64 1]) 2 := by
  refine .seq (P := exCounter 2) (q := ()) (w₁ := 0) rfl ?_
  refine .cons (P := exCounter 2) (s := some 0) (w₁ := 1) (w₂ := 1) rfl (.leaf (P := exCounter 2) rfl (.u64 0)) ?_
  exact .cons (P := exCounter 2) (s := some 1) (w₁ := 2) (w₂ := 2) rfl (.leaf (P := exCounter 2) rfl (.u64 1))
    (.nil (P := exCounter 2) rfl)

/-! ## C28 -/

/-- **C28.** `to_string` returns on every value of every library or derived type; when it returns, every stream it created has been
dropped, and none was touched after its drop. -/
theorem C28_total (E : Env) (order : Nat → List (Bytes × Val) → List (Bytes × Val)) (ho : ∀ n ms, (order n ms).Perm ms) (hE : E.Utf8)
    (hr : RyuSyntax ryu lit) (t : Ty) (v : Val) (h : HasTy E t v) :
    ∃ o h', Prints (serLib E order) ryu (t, v) SHeap.empty o h' ∧ (∀ q, h'.cells q = none) ∧ h'.fault = false ∧
      ∃ x, Encodes E t v x ∧ JText o (x.json lit) ∧ o = compact (x.json lit) ∧ ValidUtf8 o := by
  obtain ⟨x, h', h1, h2, h3⟩ := hasTy_good (order := order) ho h SHeap.empty (fun _ _ => rfl)
  have hu := encodes_utf8 hE h x h3
  exact ⟨compact (x.json lit), h', ⟨x.nodes, toStringN_streams hr h1 hu (Nat.le_refl _)⟩, fun q => by rw [h2.cells]; rfl, h2.fault,
    x, h3, compact_text (FTree.litsWF hr x), rfl, compact_valid _ (FTree.litsWF hr x) (FTree.json_allStr x hu)⟩

/-- **C28.** In particular it never panics. -/
theorem C28_no_panic (E : Env) (order : Nat → List (Bytes × Val) → List (Bytes × Val)) (ho : ∀ n ms, (order n ms).Perm ms) (hE : E.Utf8)
    (hr : RyuSyntax ryu lit) (t : Ty) (v : Val) (h : HasTy E t v) (n : Nat) (w : SHeap) :
    toStringN (serLib E order) ryu n (t, v) SHeap.empty ≠ .finished none w := by
  obtain ⟨o, h', ⟨m, hm⟩, -⟩ := C28_total E order ho hE hr t v h
  intro hn
  have h1 := runS_mono (Nat.le_max_left n m) hn
  have h2 := runS_mono (Nat.le_max_right n m) hm
  rw [h1] at h2
  cases h2

/-- **C28.** The driver itself never panics, whatever the implementation, if the implementation does not. -/
theorem C28_driver_no_panic {σ : Type} (P : SProto σ) (hP : P.Utf8) (hn : P.NoPanic) (n : Nat) (s : P.S) (w w' : σ) :
    toStringN P ryu n s w ≠ .finished none w' :=
  toStringN_no_panic hP hn n s w w'

example : (exCounter 3).NoPanic := ⟨fun s w => by cases s <;> simp [exCounter], fun q w => by simp [exCounter]; split <;> simp, fun m => nomatch m⟩

/-- What is printed for a well-typed value is the text of one of its encodings. -/
theorem prints_encodes (E : Env) (order : Nat → List (Bytes × Val) → List (Bytes × Val)) (ho : ∀ n ms, (order n ms).Perm ms) (hE : E.Utf8)
    (hr : RyuSyntax ryu lit) {t : Ty} {v : Val} (h : HasTy E t v) {o : Bytes} (hp : PrintsAs E order ryu t v o) :
    ∃ x, Encodes E t v x ∧ o = compact (x.json lit) ∧ JText o (x.json lit) ∧ ValidUtf8 o := by
  obtain ⟨o', h', hp', -, -, x, hx, hj, e, hv⟩ := C28_total E order ho hE hr t v h
  obtain ⟨w, hp⟩ := hp
  obtain ⟨rfl, rfl⟩ := Prints.unique hp hp'
  exact ⟨x, hx, e, hj, hv⟩

theorem exEnv_utf8 : exEnv.Utf8 where
  fields i f hf := by
    match i with
    | 0 =>
      refine valid_ascii ?_
      simp only [exEnv, List.mem_cons, List.not_mem_nil, or_false] at hf
      rcases hf with rfl | rfl | rfl <;> decide
    | _ + 1 => cases hf
  variants i f hf := by
    match i with
    | 0 =>
      refine valid_ascii ?_
      simp only [exEnv, List.mem_cons, List.not_mem_nil, or_false] at hf
      rcases hf with rfl | rfl <;> decide
    | _ + 1 => cases hf

/-- `Point { x: -7, tag: Some("a\"b"), next: Some(Box::new(Point { x: 1, tag: None, next: None })) }` -/
def exPoint : Val := .strct [.int (-7), .optSome (.str (str! "a\"b")), .optSome (.box (.strct [.int 1, .optNone, .optNone]))]

theorem exPoint_ty : HasTy exEnv (.strct 0) exPoint := by
  have hf : ∀ (j : Nat) (f : Bytes × Ty), (exEnv.fields 0)[j]? = some f → (j = 0 ∧ f.2 = .int true 32) ∨ (j = 1 ∧ f.2 = .opt .string) ∨
      (j = 2 ∧ f.2 = .opt (.box (.strct 0))) := by
    intro j f h
    match j with
    | 0 | 1 | 2 => cases h; simp
    | _ + 3 => simp [exEnv] at h
  have inner : HasTy exEnv (.strct 0) (.strct [.int 1, .optNone, .optNone]) := by
    refine .strct rfl fun j f v h hv => ?_
    rcases hf j f h with ⟨rfl, e⟩ | ⟨rfl, e⟩ | ⟨rfl, e⟩ <;> rw [e] <;> cases hv
    · exact .int (by decide) (by decide)
    · exact .none _
    · exact .none _
  refine .strct rfl fun j f v h hv => ?_
  rcases hf j f h with ⟨rfl, e⟩ | ⟨rfl, e⟩ | ⟨rfl, e⟩ <;> rw [e] <;> cases hv
  · exact .int (by decide) (by decide)
  · exact .some (.string (valid_ascii (by decide)))
  · exact .some (.box inner)

/-- The iteration order of hash maps in the examples: as stored. -/
def exOrder : Nat → List (Bytes × Val) → List (Bytes × Val) := fun _ ms => ms

example : PrintsAs exEnv exOrder (fun x => (exLit x).text) (.strct 0) exPoint
    (str! "{\"x\":-7,\"tag\":\"a\\\"b\",\"next\":{\"x\":1,\"tag\":null,\"next\":null}}") := by
  have d1 : decimal 1 = str! "1" := by rw [decimal]; rfl
  obtain ⟨o, h', hp, -, -, x, hx, -, e, -⟩ := C28_total exEnv exOrder (fun _ _ => .refl _) exEnv_utf8 exRyu _ _ exPoint_ty
  refine ⟨h', ?_⟩
  have : x = .map [(str! "x", .i64 (-7)), (str! "tag", .str (str! "a\"b")),
      (str! "next", .map [(str! "x", .i64 1), (str! "tag", .null), (str! "next", .null)])] := by
    cases hx with
    | strct h =>
      cases h with | cons h1 h =>
      cases h with | cons h2 h =>
      cases h with | cons h3 h =>
      cases h
      cases h1
      cases h2 with | some h2 =>
      cases h2
      cases h3 with | some h3 =>
      cases h3 with | box h3 =>
      cases h3 with | strct h =>
      cases h with | cons h1 h =>
      cases h with | cons h2 h =>
      cases h with | cons h3 h =>
      cases h; cases h1; cases h2; cases h3
      rfl
  rw [this] at e
  have e' : o = str! "{\"x\":-7,\"tag\":\"a\\\"b\",\"next\":{\"x\":1,\"tag\":null,\"next\":null}}" := by
    rw [e]
    simp only [FTree.json, FTree.jsonMembers, compact, compactMembers, NumLit.text, d1, Int.natAbs_neg, Int.natAbs_one]
    decide +kernel
  exact e' ▸ hp

/-! ## C29 -/

/-- **C29.** A string is written as a quoted literal and read back as it was. -/
theorem C29_strings (E : Env) (order : Nat → List (Bytes × Val) → List (Bytes × Val)) (s : Bytes) (hs : ValidUtf8 s) :
    ∃ o, PrintsAs E order ryu .string (.str s) o ∧ o = quoted s ∧ JString o s ∧ parseAs E .string o = some (.ok (.str s)) := by
  refine ⟨quoted s, ⟨SHeap.empty, 1, ?_⟩, rfl, quoted_string s, ?_⟩
  · show runS ryu 1 (.running ⟨[], [], .str s, SHeap.empty⟩) = _
    simp only [runS, stepS]
    rw [escapeStr_eq hs]
    simp only [advance, List.nil_append]
  · rw [parseAs_ok]
    refine ⟨.str s, ⟨[], quoted s, [], by simp, De.ws_nil, .str (quoted_string s), De.ws_nil⟩, ?_⟩
    unfold decode; rfl

/-- **C29.** Only the quote, the backslash and control characters are escaped, and no raw control character is written. -/
theorem C29_what_is_escaped (c : UInt8) :
    (c ≠ 0x22 ∧ c ≠ 0x5C ∧ 0x20 ≤ c → escapedByte c = [c]) ∧
    (c = 0x22 ∨ c = 0x5C ∨ c < 0x20 → (escapedByte c).head? = some 0x5C) ∧
    (∀ x ∈ escapedByte c, 0x20 ≤ x) := by
  have key : ∀ n : Fin 256, let c := UInt8.ofNat n.1
      (c ≠ 0x22 ∧ c ≠ 0x5C ∧ 0x20 ≤ c → escapedByte c = [c]) ∧
      (c = 0x22 ∨ c = 0x5C ∨ c < 0x20 → (escapedByte c).head? = some 0x5C) ∧ (∀ x ∈ escapedByte c, 0x20 ≤ x) := by
    decide +kernel
  have := key ⟨c.toNat, c.toNat_lt⟩
  simpa only [UInt8.ofNat_toNat] using this

example : ValidUtf8 (str! "a\n" ++ utf8Of '😀') := ⟨['a', '\n', '😀'], by decide +kernel⟩

/-! ## C30 -/

/-- **C30.** The output of `to_string` is the compact rendering of its tree: outside string literals there is no whitespace. -/
theorem C30_compact {σ : Type} (P : SProto σ) (hr : RyuSyntax ryu lit) (hP : P.Utf8) (s : P.S) (w w' : σ) (o : Bytes)
    (h : Prints P ryu s w o w') :
    (∃ t, Streams P s w t w' ∧ o = compact (t.json lit)) ∧
    ∀ c ∈ outsideStrings .outside o, c ≠ 0x20 ∧ c ≠ 0x09 ∧ c ≠ 0x0A ∧ c ≠ 0x0D := by
  obtain ⟨n, h⟩ := h
  obtain ⟨t, ht, rfl⟩ := toStringN_spec hr hP h
  refine ⟨⟨t, ht, rfl⟩, ?_⟩
  have := compact_noWs (t.json lit) (FTree.litsWF hr t) [] (by intro c hc; cases hc)
  rwa [List.append_nil] at this

/-- The scan does find whitespace outside strings, and only there. -/
example : outsideStrings .outside (str! "[\"a b\\\" c\", 1]") = str! "[, 1]" := by decide +kernel

/-! ## C31 -/

/-- The digits written: decimal digits, without leading zero, denoting the number. -/
theorem decimal_canonical (n : Nat) : Digits (decimal n) ∧ ((decimal n).head? = some 0x30 → decimal n = [0x30]) ∧ digitsVal (decimal n) = n :=
  ⟨decimal_digits n, (decimal_wf false n).int_zero, decimal_val n⟩

/-- **C31.** An integer is written in decimal and read back at the same type. -/
theorem C31_integers (E : Env) (order : Nat → List (Bytes × Val) → List (Bytes × Val)) (signed : Bool) (bits : Nat) (hb : bits ≤ 64) (z : Int)
    (hz : lowest signed bits ≤ z ∧ z ≤ highest signed bits) :
    ∃ o, PrintsAs E order ryu (.int signed bits) (.int z) o ∧ o = (if z < 0 then [0x2D] else []) ++ decimal z.natAbs ∧
      parseAs E (.int signed bits) o = some (.ok (.int z)) := by
  have hx : ∃ x, Encodes E (.int signed bits) (.int z) x ∧ LeafFrag (Q := Nat) (M := Nat) (if signed then .i64 z else .u64 z.toNat) x ∧
      (x.json exLit) = .num ⟨decide (z < 0), decimal z.natAbs, none, none⟩ := by
    cases signed with
    | true => exact ⟨_, .signed bits z, .i64 z, rfl⟩
    | false =>
      have : 0 ≤ z := by simpa [lowest] using hz.1
      obtain ⟨n, rfl⟩ := Int.eq_ofNat_of_zero_le this
      exact ⟨_, .unsigned bits n, .u64 n, by simp [FTree.json]⟩
  obtain ⟨x, he, hl, hj⟩ := hx
  have hwf := decimal_wf (decide (z < 0)) z.natAbs
  refine ⟨_, ⟨SHeap.empty, 1, ?_⟩, rfl, ?_⟩
  · cases signed with
    | true =>
      show runS ryu 1 (.running ⟨[], [], .i64 z, SHeap.empty⟩) = _
      simp only [runS, stepS, decimalInt, advance, List.nil_append]
      split <;> rfl
    | false =>
      have h0 : 0 ≤ z := by simpa [lowest] using hz.1
      show runS ryu 1 (.running ⟨[], [], .u64 z.toNat, SHeap.empty⟩) = _
      have e : z.toNat = z.natAbs := by omega
      simp only [runS, stepS, advance, List.nil_append, e]
      rw [if_neg (by omega), List.nil_append]
  · rw [parseAs_ok]
    have ht := num_text _ hwf
    have e : NumLit.text ⟨decide (z < 0), decimal z.natAbs, none, none⟩ = (if z < 0 then [0x2D] else []) ++ decimal z.natAbs := by
      simp [NumLit.text]
    rw [e] at ht
    exact ⟨_, ht, hj ▸ decode_int_back he hb hz⟩

example : lowest true 64 ≤ -9223372036854775808 ∧ (-9223372036854775808 : Int) ≤ highest true 64 := by decide

/-! ## C33 -/

/-- **C33.** Writing a value and reading it back at the same type gives the same value (hash maps compared as maps). -/
theorem C33_round_trip (E : Env) (order : Nat → List (Bytes × Val) → List (Bytes × Val)) (ho : ∀ n ms, (order n ms).Perm ms) (hE : E.Utf8)
    (hr : RyuSyntax ryu lit) (t : Ty) (v : Val) (h : HasTy E t v) (hp : Plain E t v) (o : Bytes) (hprint : PrintsAs E order ryu t v o) :
    ∃ v', parseAs E t o = some (.ok v') ∧ Same E t v v' := by
  obtain ⟨x, hx, -, hj, -⟩ := prints_encodes E order ho hE hr h hprint
  obtain ⟨v', h1, h2⟩ := back (lit := lit) hx h hp
  exact ⟨v', (parseAs_ok E).2 ⟨_, hj, h1⟩, h2⟩

/-- **C33.** The same from conditions on the type alone: no floats, `Option` only over types never written as `null`, distinct field
names and variant names, keys that survive printing and parsing, lawful `Ord`. -/
theorem C33_round_trip_types (E : Env) (order : Nat → List (Bytes × Val) → List (Bytes × Val)) (ho : ∀ n ms, (order n ms).Perm ms)
    (hE : E.Utf8) (hr : RyuSyntax ryu lit) (hp : E.Plain) (t : Ty) (ht : t.plain = true) (v : Val) (h : HasTy E t v) (o : Bytes)
    (hprint : PrintsAs E order ryu t v o) : ∃ v', parseAs E t o = some (.ok v') ∧ Same E t v v' :=
  C33_round_trip E order ho hE hr t v h (plain_of_type hp h ht) o hprint

/-- **C33.** Without hash maps, exactly the same value. -/
theorem C33_round_trip_exact (E : Env) (order : Nat → List (Bytes × Val) → List (Bytes × Val)) (ho : ∀ n ms, (order n ms).Perm ms)
    (hE : E.Utf8) (hr : RyuSyntax ryu lit) (hf : ∀ i, ∀ f ∈ E.fields i, f.2.noHash = true) (t : Ty) (ht : t.noHash = true) (v : Val)
    (h : HasTy E t v) (hp : Plain E t v) (o : Bytes) (hprint : PrintsAs E order ryu t v o) : parseAs E t o = some (.ok v) := by
  obtain ⟨v', h1, h2⟩ := C33_round_trip E order ho hE hr t v h hp o hprint
  rwa [h2.eq hf ht] at h1

theorem exEnv_plain : exEnv.Plain where
  fieldTypes i f hf := by
    match i with
    | 0 =>
      simp only [exEnv, List.mem_cons, List.not_mem_nil, or_false] at hf
      rcases hf with rfl | rfl | rfl <;> rfl
    | _ + 1 => cases hf
  fieldNames i := by
    match i with
    | 0 => exact exEnv_fields_nodup
    | _ + 1 => exact List.nodup_nil
  variants i := by
    match i with
    | 0 => exact (by decide : (exEnv.variants 0).Nodup)
    | _ + 1 => exact List.nodup_nil
  keys _ _ := rfl
  order _ := strLt_linear

example (o : Bytes) (h : PrintsAs exEnv exOrder (fun x => (exLit x).text) (.strct 0) exPoint o) :
    parseAs exEnv (.strct 0) o = some (.ok exPoint) :=
  C33_round_trip_exact exEnv exOrder (fun _ _ => .refl _) exEnv_utf8 exRyu
    (fun i f hf => by
      match i with
      | 0 =>
        simp only [exEnv, List.mem_cons, List.not_mem_nil, or_false] at hf
        rcases hf with rfl | rfl | rfl <;> rfl
      | _ + 1 => cases hf)
    (.strct 0) rfl exPoint exPoint_ty (plain_of_type exEnv_plain exPoint_ty rfl) o h

/-- `Option` over a type that is itself written as `null` does not round-trip: `Some(None)` comes back as `None`. -/
example (E : Env) (order : Nat → List (Bytes × Val) → List (Bytes × Val)) :
    PrintsAs E order ryu (.opt (.opt .bool)) (.optSome .optNone) (str! "null") ∧
    parseAs E (.opt (.opt .bool)) (str! "null") = some (.ok .optNone) := by
  refine ⟨⟨SHeap.empty, 1, ?_⟩, ?_⟩
  · show runS ryu 1 (.running ⟨[], [], .null, SHeap.empty⟩) = _
    simp [runS, stepS, advance]
  · rw [parseAs_ok]
    exact ⟨.null, ⟨[], str! "null", [], rfl, De.ws_nil, .null, De.ws_nil⟩, by unfold decode; rfl⟩

/-! ## C23, second half -/

/-- **C23.** Writing a variant of a derived enum and reading it back gives the same variant. -/
theorem C23_enum_round_trip (E : Env) (order : Nat → List (Bytes × Val) → List (Bytes × Val)) (i j : Nat) (name : Bytes)
    (hj : (E.variants i)[j]? = some name) (hu : ValidUtf8 name) (hd : (E.variants i).Nodup) :
    ∃ o, PrintsAs E order ryu (.enm i) (.enm j) o ∧ JString o name ∧ parseAs E (.enm i) o = some (.ok (.enm j)) := by
  refine ⟨quoted name, ⟨SHeap.empty, 1, ?_⟩, quoted_string name, ?_⟩
  · have hb : beginVal E order (.enm i) (.enm j) SHeap.empty = (some (.str name), SHeap.empty) := by simp [beginVal, hj]
    show runS ryu 1 (beginWith (P := serLib E order) [] [] (.enm i, .enm j) SHeap.empty) = _
    have : beginWith (P := serLib E order) [] [] (.enm i, .enm j) SHeap.empty = .running ⟨[], [], .str name, SHeap.empty⟩ := by
      unfold beginWith
      have hb' : (serLib E order).begin (.enm i, .enm j) SHeap.empty = (some (.str name), SHeap.empty) := hb
      rw [hb']
    rw [this]
    simp only [runS, stepS]
    rw [escapeStr_eq hu]
    simp only [advance, List.nil_append]
  · rw [parseAs_ok]
    refine ⟨.str name, ⟨[], quoted name, [], by simp, De.ws_nil, .str (quoted_string name), De.ws_nil⟩, ?_⟩
    obtain ⟨v', h1, h2⟩ := back (lit := exLit) (E := E) (.enm hj) (.enm (List.getElem?_eq_some_iff.1 hj).1) (.enm hd)
    cases h2 with
    | refl => exact h1

/-! ## C35 -/

/-- **C35.** A derived struct is written as an object with one member per field, in declaration order, under the field's name; the
value of each member is an encoding of the field, `null` for `None`. -/
theorem C35_struct (E : Env) (order : Nat → List (Bytes × Val) → List (Bytes × Val)) (ho : ∀ n ms, (order n ms).Perm ms) (hE : E.Utf8)
    (hr : RyuSyntax ryu lit) (i : Nat) (vs : List Val) (h : HasTy E (.strct i) (.strct vs)) (o : Bytes)
    (hprint : PrintsAs E order ryu (.strct i) (.strct vs) o) :
    ∃ ms : List (Bytes × Json), JText o (.obj ms) ∧ ms.map Prod.fst = (E.fields i).map Prod.fst ∧
      ∀ (j : Nat) name t v, (E.fields i)[j]? = some (name, t) → vs[j]? = some v →
        ∃ x, ms[j]? = some (name, x.json lit) ∧ Encodes E t v x ∧ (v = .optNone → x.json lit = .null) := by
  obtain ⟨x, hx, -, hj, -⟩ := prints_encodes E order ho hE hr h hprint
  cases hx with
  | strct hs =>
    rename_i xs
    have key : ∀ {fs : List (Bytes × Ty)} {us : List Val} {xs : List (Bytes × FTree)}, EncodesFields E fs us xs →
        (FTree.jsonMembers lit xs).map Prod.fst = fs.map Prod.fst ∧
        ∀ (j : Nat) name t v, fs[j]? = some (name, t) → us[j]? = some v →
        ∃ x, (FTree.jsonMembers lit xs)[j]? = some (name, x.json lit) ∧ Encodes E t v x := by
      intro fs
      induction fs with
      | nil => intro us xs h; cases h; exact ⟨rfl, by simp⟩
      | cons f fs ih =>
        intro us xs h
        cases h with
        | cons h hs =>
          obtain ⟨h1, h2⟩ := ih hs
          refine ⟨by simp [FTree.jsonMembers, h1], fun j => ?_⟩
          cases j with
          | zero =>
            intro name t v e e'
            cases e; cases e'
            exact ⟨_, rfl, h⟩
          | succ j => exact h2 j
    rw [FTree.json] at hj
    refine ⟨_, hj, (key hs).1, fun j name t v e e' => ?_⟩
    obtain ⟨x, h1, h2⟩ := (key hs).2 j name t v e e'
    refine ⟨x, h1, h2, ?_⟩
    rintro rfl
    cases h2 <;> rfl

/-! ## C36 -/

/-- **C36.** For every implementation of the traits and at every moment, the monitored run behaves as the original one and has
violated nothing; when it has returned or unwound, every stream has been dropped and only the value passed in is alive. -/
theorem C36_stack_discipline {σ : Type} (P : SProto σ) (n : Nat) (s : P.S) (w : σ) :
    SExit.untag P (toStringN P.monitored ryu n (s, 0) (w, Mon.init)) = toStringN P ryu n s w ∧
    (toStringN P.monitored ryu n (s, 0) (w, Mon.init)).mon.ok = true ∧
    ∀ o w', toStringN P.monitored ryu n (s, 0) (w, Mon.init) = .finished o w' → w'.2.stack = [.visitor 0] := by
  have h := toString_good (P := P) (ryu := ryu) n s w
  generalize toStringN P.monitored ryu n (s, 0) (w, Mon.init) = y at h
  cases y with
  | running st => exact ⟨h.1.symm, h.2.1, fun _ _ e => by cases e⟩
  | finished o w' => exact ⟨h.1.symm, h.2.1, fun _ _ e => by cases e; exact h.2.2⟩

/-- A run with one stream and two values handed out by it. -/
example : toStringN (exCounter 2).monitored (fun x => (exLit x).text) 3 (none, 0) (7, Mon.init) =
    .finished (some (str! "[0,1]")) (2, ⟨[.dropBuilder 1, .callBuilder 1, .callVisitor 3, .newVisitor 3 1, .callBuilder 1, .callVisitor 2,
      .newVisitor 2 1, .callBuilder 1, .newBuilder 1 0, .callVisitor 0]⟩) := by
  have d0 : decimal 0 = str! "0" := by rw [decimal]; rfl
  have d1 : decimal 1 = str! "1" := by rw [decimal]; rfl
  have h : Streams (exCounter 2).monitored (none, 0) (7, Mon.init) (.seq [.u64 0, .u64 1]) (2, ⟨[.dropBuilder 1, .callBuilder 1, .callVisitor 3, .newVisitor 3 1, .callBuilder 1, .callVisitor 2,
      .newVisitor 2 1, .callBuilder 1, .newBuilder 1 0, .callVisitor 0]⟩) := by
    refine .seq (P := (exCounter 2).monitored) (w₁ := (0, ⟨[.newBuilder 1 0, .callVisitor 0]⟩))
      (w₂ := (2, ⟨[.callBuilder 1, .callVisitor 3, .newVisitor 3 1, .callBuilder 1, .callVisitor 2,
        .newVisitor 2 1, .callBuilder 1, .newBuilder 1 0, .callVisitor 0]⟩)) (q := ((), 1)) rfl ?_
    refine .cons (P := (exCounter 2).monitored) (s := (some 0, 2)) rfl (.leaf (P := (exCounter 2).monitored) rfl (.u64 0)) ?_
    exact .cons (P := (exCounter 2).monitored) (s := (some 1, 3)) rfl (.leaf (P := (exCounter 2).monitored) rfl (.u64 1))
      (.nil (P := (exCounter 2).monitored) rfl)
  refine (toStringN_streams exRyu h ⟨trivial, trivial, trivial⟩ (by decide)).trans ?_
  simp only [FTree.json, FTree.jsons, compact, compactElems, NumLit.text, d0, d1]
  rfl

end
end Miniserde
