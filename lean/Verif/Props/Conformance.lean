import Verif.Props.Normal
import Verif.Props.Pretty

/-!
# The tests of the repository, run on the model

Not properties: checks that the model computes what `tests/` expects of the code, by evaluation in the kernel.
-/

namespace Miniserde

mutual

/-- Equality of values as a program. -/
def Val.same : Val → Val → Bool
  | .null, .null => true
  | .bool a, .bool b => a == b
  | .int a, .int b => decide (a = b)
  | .f32 a, .f32 b => decide (a = b)
  | .f64 a, .f64 b => decide (a = b)
  | .numU a, .numU b => decide (a = b)
  | .numI a, .numI b => decide (a = b)
  | .numF a, .numF b => decide (a = b)
  | .str a, .str b => decide (a = b)
  | .seq a, .seq b => Val.sames a b
  | .map a, .map b => Val.sameMembers a b
  | .optNone, .optNone => true
  | .optSome a, .optSome b => a.same b
  | .box a, .box b => a.same b
  | .strct a, .strct b => Val.sames a b
  | .enm a, .enm b => decide (a = b)
  | _, _ => false

def Val.sames : List Val → List Val → Bool
  | [], [] => true
  | a :: as, b :: bs => a.same b && Val.sames as bs
  | _, _ => false

def Val.sameMembers : List (Bytes × Val) → List (Bytes × Val) → Bool
  | [], [] => true
  | (k, a) :: as, (l, b) :: bs => decide (k = l) && (a.same b && Val.sameMembers as bs)
  | _, _ => false

end

mutual

theorem Val.same_eq : ∀ {a b : Val}, a.same b = true → a = b
  | .null, b, h => by cases b <;> simp_all [Val.same]
  | .bool _, b, h => by cases b <;> simp_all [Val.same]
  | .int _, b, h => by cases b <;> simp_all [Val.same]
  | .f32 _, b, h => by cases b <;> simp_all [Val.same]
  | .f64 _, b, h => by cases b <;> simp_all [Val.same]
  | .numU _, b, h => by cases b <;> simp_all [Val.same]
  | .numI _, b, h => by cases b <;> simp_all [Val.same]
  | .numF _, b, h => by cases b <;> simp_all [Val.same]
  | .str _, b, h => by cases b <;> simp_all [Val.same]
  | .optNone, b, h => by cases b <;> simp_all [Val.same]
  | .enm _, b, h => by cases b <;> simp_all [Val.same]
  | .seq _, b, h => by cases b <;> simp only [Val.same, Bool.false_eq_true] at h; rw [Val.sames_eq h]
  | .strct _, b, h => by cases b <;> simp only [Val.same, Bool.false_eq_true] at h; rw [Val.sames_eq h]
  | .map _, b, h => by cases b <;> simp only [Val.same, Bool.false_eq_true] at h; rw [Val.sameMembers_eq h]
  | .optSome _, b, h => by cases b <;> simp only [Val.same, Bool.false_eq_true] at h; rw [Val.same_eq h]
  | .box _, b, h => by cases b <;> simp only [Val.same, Bool.false_eq_true] at h; rw [Val.same_eq h]

theorem Val.sames_eq : ∀ {a b : List Val}, Val.sames a b = true → a = b
  | [], [], _ => rfl
  | [], _ :: _, h => by simp [Val.sames] at h
  | _ :: _, [], h => by simp [Val.sames] at h
  | a :: as, b :: bs, h => by
    rw [Val.sames, Bool.and_eq_true] at h
    rw [Val.same_eq h.1, Val.sames_eq h.2]

theorem Val.sameMembers_eq : ∀ {a b : List (Bytes × Val)}, Val.sameMembers a b = true → a = b
  | [], [], _ => rfl
  | [], _ :: _, h => by simp [Val.sameMembers] at h
  | _ :: _, [], h => by simp [Val.sameMembers] at h
  | (k, a) :: as, (l, b) :: bs, h => by
    rw [Val.sameMembers, Bool.and_eq_true, Bool.and_eq_true, decide_eq_true_eq] at h
    rw [h.1, Val.same_eq h.2.1, Val.sameMembers_eq h.2.2]

end

/-- Is the result `Ok` with this value? -/
def okWith (v : Val) : Option (Res Val) → Bool
  | some (.ok u) => u.same v
  | _ => false

/-- Is the result `Err`? -/
def isErr : Option (Res Val) → Bool
  | some .err => true
  | _ => false

theorem okWith_eq {v : Val} {r : Option (Res Val)} (h : okWith v r = true) : r = some (.ok v) := by
  cases r with
  | none => cases h
  | some r => cases r <;> first | cases h | (rw [okWith] at h; rw [Val.same_eq h])

theorem isErr_eq {r : Option (Res Val)} (h : isErr r = true) : r = some .err := by
  cases r with
  | none => cases h
  | some r => cases r <;> first | rfl | cases h

/-- Does `to_string` return `o` within `n` steps? -/
def printsWith (E : Env) (order : Nat → List (Bytes × Val) → List (Bytes × Val)) (ryu : F64 → Bytes) (n : Nat) (t : Ty) (v : Val) (o : Bytes) : Bool :=
  match toStringN (serLib E order) ryu n (t, v) SHeap.empty with
  | .finished (some x) _ => decide (x = o)
  | _ => false

theorem printsWith_eq {E : Env} {order : Nat → List (Bytes × Val) → List (Bytes × Val)} {ryu : F64 → Bytes} {n : Nat} {t : Ty} {v : Val} {o : Bytes}
    (h : printsWith E order ryu n t v o = true) : PrintsAs E order ryu t v o := by
  unfold printsWith at h
  split at h
  · rename_i x w e
    cases of_decide_eq_true h
    exact ⟨w, n, e⟩
  · cases h

/-! ## `tests/test_impls.rs` -/

example : parseAs exEnv (.arr .string 3) (str! "[\"1\",\"2\",\"3\"]") = some (.ok (.seq [.str [0x31], .str [0x32], .str [0x33]])) :=
  okWith_eq (by decide +kernel)

example : parseAs exEnv (.arr .string 3) (str! "[\"1\",\"2\"]") = some .err := isErr_eq (by decide +kernel)

example : parseAs exEnv (.arr .string 3) (str! "[\"1\",\"2\",\"3\",\"4\"]") = some .err := isErr_eq (by decide +kernel)

example : PrintsAs exEnv exOrder (fun x => (exLit x).text) (.arr .string 3) (.seq [.str [0x31], .str [0x32], .str [0x33]])
    (str! "[\"1\",\"2\",\"3\"]") :=
  printsWith_eq (n := 20) (by decide +kernel)

/-! ## `tests/test_number.rs` (for a `ryu` that writes `1.0` for one) -/

example : PrintsAs exEnv exOrder (fun _ => str! "1.0") .f64 (.f64 (.fin false (2 ^ 52) (-52))) (str! "1.0") := printsWith_eq (n := 3) (by decide +kernel)
example : PrintsAs exEnv exOrder (fun _ => str! "1.0") .f64 (.f64 .nan) (str! "null") := printsWith_eq (n := 3) (by decide +kernel)
example : PrintsAs exEnv exOrder (fun _ => str! "1.0") .f64 (.f64 (.inf false)) (str! "null") := printsWith_eq (n := 3) (by decide +kernel)
example : PrintsAs exEnv exOrder (fun _ => str! "1.0") .f64 (.f64 (.inf true)) (str! "null") := printsWith_eq (n := 3) (by decide +kernel)

/-! ## `tests/test_derive.rs` -/

/-- `Tag`, `Example`, `Nested`. -/
def testEnv : Env where
  fields
    | 0 => [(str! "x", .string), (str! "t1", .enm 0), (str! "t2", .box (.enm 0)), (str! "t3", .arr (.enm 0) 1), (str! "struct", .box (.strct 1))]
    | 1 => [(str! "y", .opt (.vec .string)), (str! "z", .opt .string)]
    | 2 => [(str! "x", .int false 32), (str! "y", .int false 32)]
    | _ => []
  variants
    | 0 => [str! "A", str! "renamedB", str! "enum"]
    | _ => []
  keyParse _ s := some s
  keyLt _ := strLt
  keyShow _ s := s

/-- `expected`. -/
def testExample : Val :=
  .strct [.str (str! "X"), .enm 0, .box (.enm 1), .seq [.enm 2], .box (.strct [.optSome (.seq [.str (str! "Y"), .str (str! "Y")]), .optNone])]

example : parseAs testEnv (.strct 0)
    (str! " {\"x\": \"X\", \"t1\": \"A\", \"t2\": \"renamedB\", \"t3\": [\"enum\"], \"struct\": {\"y\": [\"Y\", \"Y\"]}} ") =
    some (.ok testExample) := okWith_eq (by decide +kernel)

example : PrintsAs testEnv exOrder (fun x => (exLit x).text) (.strct 0) testExample
    (str! "{\"x\":\"X\",\"t1\":\"A\",\"t2\":\"renamedB\",\"t3\":[\"enum\"],\"struct\":{\"y\":[\"Y\",\"Y\"],\"z\":null}}") :=
  printsWith_eq (n := 60) (by decide +kernel)

/-! ## `tests/test_value.rs`: `test_debug` (with the `Debug` of strings of `Props/Pretty`); `test_round_trip_deeply_nested` is `C76_deep` -/

example : ∃ v, parseAs exEnv .value
    (str! "\n        {\n            \"Null\": null,\n            \"Bool\": true,\n            \"Number\": 1,\n            \"String\": \"...\",\n            \"Array\": [true],\n            \"EmptyArray\": [],\n            \"EmptyObject\": {}\n        }\n    ") =
      some (.ok v) ∧
    formatDebug (fun x => (exLit x).text) exWrites true v =
      str! "Object {\n    \"Array\": Array [\n        Bool(true),\n    ],\n    \"Bool\": Bool(true),\n    \"EmptyArray\": Array [],\n    \"EmptyObject\": Object {},\n    \"Null\": Null,\n    \"Number\": Number(1),\n    \"String\": String(\"...\"),\n}" :=
  ⟨.map [(str! "Array", .seq [.bool true]), (str! "Bool", .bool true), (str! "EmptyArray", .seq []), (str! "EmptyObject", .map []),
      (str! "Null", .null), (str! "Number", .numU 1), (str! "String", .str (str! "..."))], okWith_eq (by decide +kernel), by decide +kernel⟩

/-! ## `tests/regression/issue24.rs` and `tests/regression/issue9.rs` (unknown member; text after the value) -/

example : parseAs testEnv (.strct 2) (str! "{\"x\": 1, \"y\": 2, \"z\": 3}") = some (.ok (.strct [.int 1, .int 2])) := okWith_eq (by decide +kernel)

example : parseAs testEnv .bool (str! " true && false ") = some .err := isErr_eq (by decide +kernel)

/-! ## More inputs -/

example : parseAs exEnv .value (str! "\"\\uD83D\\uDE00\\u00e9\\n\"") = some (.ok (.str [0xF0, 0x9F, 0x98, 0x80, 0xC3, 0xA9, 0x0A])) := okWith_eq (by decide +kernel)
example : parseAs exEnv .value (str! "\"\\uD83D\"") = some .err := isErr_eq (by decide +kernel)
example : parseAs exEnv .value (str! "[1,]") = some .err := isErr_eq (by decide +kernel)
example : parseAs exEnv .value (str! "{\"a\":1,}") = some .err := isErr_eq (by decide +kernel)
example : parseAs exEnv .value (str! "01") = some .err := isErr_eq (by decide +kernel)
example : parseAs exEnv .value (str! "1.") = some .err := isErr_eq (by decide +kernel)
example : parseAs exEnv .value (str! "1e999") = some .err := isErr_eq (by decide +kernel)
example : parseAs exEnv .value (str! "0e999") = some (.ok (.numF (.fin false 0 (-1074)))) := okWith_eq (by decide +kernel)
example : parseAs exEnv .value (str! "1.5") = some (.ok (.numF (.fin false (3 * 2 ^ 51) (-52)))) := okWith_eq (by decide +kernel)
example : parseAs exEnv .value (str! "18446744073709551615") = some (.ok (.numU 18446744073709551615)) := okWith_eq (by decide +kernel)
example : parseAs exEnv .value (str! "-9223372036854775808") = some (.ok (.numI (-9223372036854775808))) := okWith_eq (by decide +kernel)
example : parseAs exEnv .value (str! "18446744073709551616") = some (.ok (.numF (.fin false (2 ^ 52) 12))) := okWith_eq (by decide +kernel)

end Miniserde
