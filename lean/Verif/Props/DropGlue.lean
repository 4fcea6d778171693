import Verif.Proof.DropGlue
import Verif.Props.Client

/-!
# Destructors of typed values, and `from_str` as a client of the visitors
-/

namespace Miniserde

/-- **C67.** `from_str` is one of the programs of C67: whatever the text, each of its calls is one a safe program could make, so memory after each of them is that of a
reachable state, in which nothing but `out` and what was borrowed from it exists; when it returns, only the visitor is left. -/
theorem C67_from_str (E : Env) {t : Ty} (ht : t.Small) {s : Bytes} (hs : ValidUtf8 s) :
    ∃ r h H, fromStrImpl (lib E) s (.place t ⟨0, 0, 0⟩) Heap.init = some (r, h) ∧
      fromStrImpl (lib E).recorded s (.place t ⟨0, 0, 0⟩) (Heap.init, []) = some (r, (h, H)) ∧
      CReach E false ⟨h, [⟨t, 0, [.visitor (.place t ⟨0, 0, 0⟩)]⟩]⟩ ∧ ∀ x ∈ H, ∃ refs, CReach E false ⟨x, [⟨t, 0, refs⟩]⟩ :=
  from_str_client E ht hs

/-- **C85.** In a program without recursive structs, dropping a value of a type, whatever the value, never has more calls active than a number that depends on the type only. -/
theorem C85_types {E : Env} {g : Nat → Nat} (hg : Flat E g) {t : Ty} {v : Val} (h : HasTy E t v) : DropFits E (t.glue g) t v := fits_of_type hg h

/-- **C85.** So whatever the text, also if it is not JSON or not of the type: all values that `from_str::<T>` holds in memory, at any moment (after any call it makes), are values
of their types, and dropping them takes no more than the number for `T`. -/
theorem C85_from_str {E : Env} (hE : E.Lawful) {g : Nat → Nat} (hg : Flat E g) {T : Ty} (hT : T.Small) {s : Bytes} (hs : ValidUtf8 s) :
    ∃ r h H, fromStrImpl (lib E) s (.place T ⟨0, 0, 0⟩) Heap.init = some (r, h) ∧
      fromStrImpl (lib E).recorded s (.place T ⟨0, 0, 0⟩) (Heap.init, []) = some (r, (h, H)) ∧
      ∀ m ∈ h :: H, ∃ decl : Nat → Ty, decl 0 = T ∧ ∀ a o, m.mem a = some o → ∀ t v, o.Holds E (decl a) t v → HasTy E t v ∧ DropFits E (T.glue g) t v := by
  obtain ⟨r, h, H, e1, e2, hr, hH⟩ := from_str_client E hT hs
  refine ⟨r, h, H, e1, e2, fun m hm => ?_⟩
  have : ∃ refs, CReach E false ⟨m, [⟨T, 0, refs⟩]⟩ := by
    rcases List.mem_cons.1 hm with rfl | hm
    · exact ⟨_, hr⟩
    · exact hH m hm
  obtain ⟨refs, hm⟩ := this
  obtain ⟨decl, h1, h2⟩ := reach_holds hE hg hm
  refine ⟨decl, h1 ⟨T, 0, refs⟩ (by simp), fun a o ho t v hh => ?_⟩
  obtain ⟨h3, w, hw, h4⟩ := h2 a o ho t v hh
  rw [List.mem_singleton.1 hw] at h4
  exact ⟨h3, (fits_of_type hg h3).mono h4⟩

/-- **C85.** If anything but whitespace follows a value, `from_str` returns `Err` when it has read all of the value, and drops it ... -/
theorem C85_drops (E : Env) {s : Bytes} {t : Ty} {v : Val} (hv : parseAs E t s = some (.ok v)) {c : UInt8} (hc : c = 0x2C ∨ c = 0x5D ∨ c = 0x7D) (r : Bytes) :
    ∃ h, fromStr E t (s ++ c :: r) = some (.err, h) ∧ h.mem 0 = some (.slot (some v)) := fromStr_garbage E hv hc r

/-- **C85.** ... so for the recursive `struct Node { next: Option<Box<Node>> }` and every stack there is a text that is not JSON, and hardly longer, on which
`from_str::<Node>` overflows the stack: when it returns `Err`, it has to drop a value that takes more calls.  (And the text without the last byte is read as such a value.) -/
theorem C85_recursive {E : Env} {i : Nat} (hi : E.fields i = [(str! "next", .opt (.box (.strct i)))]) (d : Nat) :
    ∃ s v h, s.length = 9 * d + 2 ∧ parseAs E (.strct i) s = some (.ok v) ∧ ¬ DropFits E d (.strct i) v ∧
      fromStr E (.strct i) (s ++ str! "]") = some (.err, h) ∧ h.mem 0 = some (.slot (some v)) := by
  obtain ⟨h, h1, h2⟩ := fromStr_garbage E (list_parse hi d) (c := 0x5D) (by simp) []
  refine ⟨listText d, listVal d, h, list_length d, list_parse hi d, fun hf => ?_, h1, h2⟩
  have := list_fits hi d d hf
  omega

/-- A program with recursive structs has no such numbers. -/
theorem C85_no_numbers {E : Env} {i : Nat} (hi : E.fields i = [(str! "next", .opt (.box (.strct i)))]) (g : Nat → Nat) : ¬ Flat E g := by
  intro h
  have := h i (str! "next", .opt (.box (.strct i))) (by rw [hi]; simp)
  simp only [Ty.glue] at this
  omega

/-! What `DropFits` says about `Value` is about the right tree. -/

/-- The tree in memory that the destructor of `Value` walks over has the shape of the value: an `Array` node for each array, with a part for each element in order, an `Object` node for each object, with a part for each entry in
order, and no other inner nodes. -/
inductive Sees : Val → DNode → Prop
  | array {k : Nat} {vs : List Val} {ns : List DNode} (len : ns.length = vs.length) (parts : ∀ (j : Nat) v n, vs[j]? = some v → ns[j]? = some n → Sees v n) : Sees (.seq vs) (.array k ns)
  | object {k : Nat} {ms : List (Bytes × Val)} {ns : List (Nat × DNode)} (len : ns.length = ms.length)
      (parts : ∀ (j : Nat) m n, ms[j]? = some m → ns[j]? = some n → Sees m.2 n.2) : Sees (.map ms) (.object k ns)
  | scalar {k : Nat} {v : Val} (h : (∀ vs, v ≠ .seq vs) ∧ ∀ ms, v ≠ .map ms) : Sees v (.scalar k)

mutual

theorem seesDnode : ∀ v : Val, Sees v v.dnode
  | .seq vs => by rw [Val.dnode]; exact .array (seesDnodes vs).1 (seesDnodes vs).2
  | .map ms => by rw [Val.dnode]; exact .object (seesDentries ms).1 (seesDentries ms).2
  | .null | .bool _ | .int _ | .f32 _ | .f64 _ | .numU _ | .numI _ | .numF _ | .str _ | .optNone | .optSome _ | .box _ | .strct _ | .enm _ => by
    rw [Val.dnode]
    · exact .scalar ⟨nofun, nofun⟩
    · nofun
    · nofun

theorem seesDnodes : ∀ vs : List Val, (Val.dnodes vs).length = vs.length ∧ ∀ (j : Nat) v n, vs[j]? = some v → (Val.dnodes vs)[j]? = some n → Sees v n
  | [] => by rw [Val.dnodes]; exact ⟨rfl, fun _ _ _ h => nomatch h⟩
  | v :: vs => by
    rw [Val.dnodes]
    refine ⟨by simp [(seesDnodes vs).1], fun j w n h1 h2 => ?_⟩
    cases j with
    | zero => cases h1; cases h2; exact seesDnode v
    | succ j => exact (seesDnodes vs).2 j w n h1 h2

theorem seesDentries : ∀ ms : List (Bytes × Val), (Val.dentries ms).length = ms.length ∧ ∀ (j : Nat) m n, ms[j]? = some m → (Val.dentries ms)[j]? = some n → Sees m.2 n.2
  | [] => by rw [Val.dentries]; exact ⟨rfl, fun _ _ _ h => nomatch h⟩
  | (k, v) :: ms => by
    rw [Val.dentries]
    refine ⟨by simp [(seesDentries ms).1], fun j m n h1 h2 => ?_⟩
    cases j with
    | zero => cases h1; cases h2; exact seesDnode v
    | succ j => exact (seesDentries ms).2 j m n h1 h2

end

/-- **C85.** What `DropFits` says about a `Value` is about the tree that this value is in memory. -/
theorem C85_seen (v : Val) : Sees v v.dnode := seesDnode v

example : Val.dnode (.seq [.null, .map [(str! "a", .seq [])]]) = .array 0 [.scalar 0, .object 0 [(0, .array 0 [])]] := by
  simp [Val.dnode, Val.dnodes, Val.dentries]

/-! Examples. -/

/-- `exEnv` with `struct Leaf { x: i32, rest: Vec<Value> }` (structure 0) and `struct Pair { a: Box<Leaf>, b: Option<Leaf> }` (structure 1). -/
def exFlat : Env :=
  { exEnv with
    fields
    | 0 => [(str! "x", .int true 32), (str! "rest", .vec .value)]
    | 1 => [(str! "a", .box (.strct 0)), (str! "b", .opt (.strct 0))]
    | _ => [] }

/-- Numbers for its structs. -/
def exGlue : Nat → Nat
  | 0 => 6
  | _ => 8

theorem exFlat_flat : Flat exFlat exGlue
  | 0, f, hf => by
    simp only [exFlat, List.mem_cons, List.not_mem_nil, or_false] at hf
    rcases hf with rfl | rfl <;> decide
  | 1, f, hf => by
    simp only [exFlat, List.mem_cons, List.not_mem_nil, or_false] at hf
    rcases hf with rfl | rfl <;> decide
  | _ + 2, _, hf => nomatch hf

theorem exFlat_lawful : exFlat.Lawful where
  keyLt := exEnv_lawful.keyLt
  keyShow := exEnv_lawful.keyShow
  small := fun
    | 0, f, hf => by
      simp only [exFlat, List.mem_cons, List.not_mem_nil, or_false] at hf
      rcases hf with rfl | rfl <;> simp [Ty.Small]
    | 1, f, hf => by
      simp only [exFlat, List.mem_cons, List.not_mem_nil, or_false] at hf
      rcases hf with rfl | rfl <;> simp [Ty.Small]
    | _ + 2, _, hf => nomatch hf

/-- A `Vec<Pair>` is dropped with at most ten nested calls, whatever it contains, ... -/
example (v : Val) (h : HasTy exFlat (.vec (.strct 1)) v) : DropFits exFlat 10 (.vec (.strct 1)) v := C85_types exFlat_flat h

/-- ... also on the way; ... -/
example (s : Bytes) (hs : ValidUtf8 s) := C85_from_str exFlat_lawful exFlat_flat (T := .vec (.strct 1)) trivial hs

/-- ... dropping a `Box<Box<()>>` takes three. -/
example : DropFits exEnv 3 (.box (.box .unit)) (.box (.box .null)) ∧ ¬ DropFits exEnv 2 (.box (.box .unit)) (.box (.box .null)) := ⟨trivial, id⟩

/-- `exEnv` with `struct Node { next: Option<Box<Node>> }`. -/
def exList : Env := { exEnv with fields := fun _ => [(str! "next", .opt (.box (.strct 0)))] }

/-- With a stack for a million calls. -/
example : ∃ s v h, s.length = 9000002 ∧ parseAs exList (.strct 0) s = some (.ok v) ∧ ¬ DropFits exList 1000000 (.strct 0) v ∧
    fromStr exList (.strct 0) (s ++ str! "]") = some (.err, h) ∧ h.mem 0 = some (.slot (some v)) := C85_recursive rfl 1000000

end Miniserde
