import Verif.Proof.ValueApi3
import Verif.Props.UniqueNames
import Verif.Props.Reparse

/-!
# Programs that use `Value`, `Array`, `Object`

`ApiRun read p ops p'` (`Model/ValueApi.lean`): the program `ops`, started with the variables of `p`, ends in `p'`.  Heap objects are numbered in the order of
allocation: `List.range p.next` are all that were ever allocated, `p.freed` those freed (in order), `p.owned` those owned by the variables.
-/

namespace Miniserde

/-- `json::from_str::<Value>`. -/
def readValue (E : Env) (s : Bytes) : Option Val :=
  match parseAs E .value s with
  | some (.ok v) => some v
  | _ => none

theorem readValue_sound {E : Env} (hE : E.Lawful) (s : Bytes) (v : Val) (hs : ValidUtf8 s) (h : readValue E s = some v) : HasTy E .value v := by
  unfold readValue at h
  split at h
  · next e => cases h; exact C41_type_sound E hE .value trivial s hs _ e
  · cases h

section
variable {ryu : F64 → Bytes} {lit : F64 → NumLit}

/-- **C66.** Every well-typed program runs to its end, whatever it does with its values ... -/
theorem C66_total (E : Env) (hE : E.Lawful) (ops : List ApiOp) (hops : ∀ op ∈ ops, op.WF) : ∃ p, ApiRun (readValue E) .start ops p :=
  apiRun_exists (readValue_sound hE) ops hops start_inv

/-- **C66.** ... and at any moment every heap object ever allocated is either freed, once, or owned by exactly one place of one variable: nothing is leaked, freed twice,
shared or used after being freed. -/
theorem C66_memory (E : Env) (hE : E.Lawful) (ops : List ApiOp) (hops : ∀ op ∈ ops, op.WF) (p : Prog) (h : ApiRun (readValue E) .start ops p) :
    (p.freed ++ p.owned).Perm (List.range p.next) ∧ (p.freed ++ p.owned).Nodup :=
  have hp := (apiRun_inv (readValue_sound hE) hops h start_inv).1.perm
  ⟨hp, hp.nodup_iff.2 List.nodup_range⟩

theorem specRun_append (read : Bytes → Option Val) (a b : List ApiOp) (vars : List Val) : specRun read vars (a ++ b) = specRun read (specRun read vars a) b := by
  induction a generalizing vars with
  | nil => rfl
  | cons op a ih => exact ih _

theorem specRun_drops (read : Bytes → Option Val) (n : Nat) : ∀ (vars : List Val), vars.length ≤ n → specRun read vars (List.replicate n (.drop 0)) = [] := by
  induction n with
  | zero => intro vars h; cases vars with | nil => rfl | cons _ _ => simp at h
  | succ n ih =>
    intro vars h
    rw [List.replicate_succ, specRun]
    refine ih _ ?_
    cases vars with
    | nil => simp [ApiOp.spec]
    | cons v vs => simp [ApiOp.spec] at h ⊢; omega

/-- **C66.** When in the end all variables go out of scope, everything has been freed exactly once. -/
theorem C66_no_leak (E : Env) (hE : E.Lawful) (ops : List ApiOp) (hops : ∀ op ∈ ops, op.WF) (p p' : Prog) (h : ApiRun (readValue E) .start ops p)
    (h' : ApiRun (readValue E) p (List.replicate p.vars.length (.drop 0)) p') : p'.vars = [] ∧ p'.freed.Perm (List.range p'.next) := by
  obtain ⟨h1, -⟩ := apiRun_inv (readValue_sound hE) hops h start_inv
  obtain ⟨h3, h4⟩ := apiRun_inv (readValue_sound hE) (fun op hm => by rw [List.eq_of_mem_replicate hm]; trivial) h' h1
  rw [specRun_drops _ _ _ (by simp)] at h4
  have hv : p'.vars = [] := by simpa using h4
  refine ⟨hv, ?_⟩
  have := h3.perm
  simp only [Prog.owned, hv, List.flatMap_nil, List.append_nil] at this
  exact this

/-- **C66.** The variables are what the operations say about plain trees, memory aside: in particular a clone and its original do not influence each other. -/
theorem C66_values (E : Env) (hE : E.Lawful) (ops : List ApiOp) (hops : ∀ op ∈ ops, op.WF) (p : Prog) (h : ApiRun (readValue E) .start ops p) :
    p.vars.map LVal.val = specRun (readValue E) [] ops :=
  (apiRun_inv (readValue_sound hE) hops h start_inv).2

/-- **C66.** No destructor call of the program, however deeply its values are nested, has more than six calls active at once. -/
theorem C66_bounded_depth (E : Env) (hE : E.Lawful) (ops : List ApiOp) (hops : ∀ op ∈ ops, op.WF) (p : Prog) (h : ApiRun (readValue E) .start ops p)
    (op : ApiOp) (hop : op.WF) (vars : List LVal) (o : OpResult) (he : op.exec (readValue E) p = some (vars, o)) (f : DFrame) (hf : f ∈ o.dead) (n : Nat) :
    (DState.run n ⟨[f], []⟩).calls.length ≤ 6 := by
  have h1 := (apiRun_inv (readValue_sound hE) hops h start_inv).1
  have g := exec_good (readValue_sound hE) h1.ok op hop
  rw [he] at g
  exact (g.2.2.1 f hf).runs.2 n

/-- **C66.** Every value a program can build is written as one JSON text without repeated names; if it has no floats it is read back, up to
non-negative `Number::I64` turning into `Number::U64`. -/
theorem C66_printable (E : Env) (hE : E.Lawful) (hu : E.Utf8) (order : Nat → List (Bytes × Val) → List (Bytes × Val)) (ho : ∀ n ms, (order n ms).Perm ms)
    (hr : RyuSyntax ryu lit) (ops : List ApiOp) (hops : ∀ op ∈ ops, op.WF) (v : Val) (hv : v ∈ specRun (readValue E) [] ops) :
    ∃ o j, PrintsAs E order ryu .value v o ∧ JText o j ∧ j.NoDup ∧ ValidUtf8 o ∧ (v.FloatFree → readValue E o = some v.canon) := by
  obtain ⟨p, hp⟩ := C66_total E hE ops hops
  rw [← C66_values E hE ops hops p hp] at hv
  obtain ⟨x, hx, rfl⟩ := List.mem_map.1 hv
  have ht : HasTy E .value x.val := ((apiRun_inv (readValue_sound hE) hops hp start_inv).1.ok x hx).hasTy
  obtain ⟨o, w, h1, -, -, t, h2, h3, -, h4⟩ := C28_total E order ho hu hr _ _ ht
  refine ⟨o, _, ⟨w, h1⟩, h3, ?_, h4, fun hf => ?_⟩
  · exact encodes_noDup h2 ht
  · rw [readValue, (C34_value E order ho hu hr _ ht hf o ⟨w, h1⟩).1]

end

/-- What `withKey` and `withoutKey` of the specification do to an object. -/
theorem withKey_lookup {α : Type} (k k' : Bytes) (v : α) {ms : List (Bytes × α)} (h : SortedKeys strLt ms) :
    (withKey k v ms).lookup k' = if k' = k then some v else ms.lookup k' := by
  rw [← insert_withKey k v h, bytesLt_eq_strLt]
  exact lookup_btreeInsert strLt_linear k v k' ms h

theorem withoutKey_lookup {α : Type} (k k' : Bytes) : ∀ (ms : List (Bytes × α)), (withoutKey k ms).lookup k' = if k' = k then none else ms.lookup k'
  | [] => by simp [withoutKey]
  | (a, u) :: ms => by
    have ih := withoutKey_lookup k k' ms
    rw [withoutKey] at *
    by_cases e : a = k
    · subst e
      rw [List.filter_cons_of_neg (by simp), ih, lookup_cons']
      by_cases e : k' = a <;> simp [e]
    · rw [List.filter_cons_of_pos (by simpa using e), lookup_cons', ih, lookup_cons']
      by_cases e' : k' = a
      · subst e'; simp [e]
      · simp [e']

/-! A program:
```
let mut a = json::from_str::<Value>(r#"{"k":[1,2]}"#);      // [a]
let b = a.clone();                                            // [b, a]
let t = true.into();  a["k"][0] = t;                          // [b, a]
a.insert("j", b.clone()); let x = b.remove("k"); for y in x.into_iter().take(1) {..}
```
-/
def exProgram : List ApiOp :=
  [.parse (str! "{\"k\":[1,2]}"), .clone 0 [], .scalar (.bool true), .edit 1 [.key (str! "k"), .idx 0] .assign,
   .clone 0 [], .edit 1 [] (.insertKey (str! "j")), .edit 0 [] (.removeKey (str! "k")), .intoIter 1]

def exRead : Bytes → Option Val := fun _ => some (.map [(str! "k", .seq [.numU 1, .numU 2])])

example : specRun exRead [] exProgram =
    [.numU 1, .map [], .map [(str! "j", .map [(str! "k", .seq [.numU 1, .numU 2])]), (str! "k", .seq [.bool true, .numU 2])]] := by
  with_unfolding_all rfl

/-- `let mut a = ..; a["k"].sort_by(..); a["k"].retain(..); a.retain(..)`; the elements that `swap_remove` returns become variables. -/
def exVecProgram : List ApiOp :=
  [.parse (str! "{\"j\":null,\"k\":[1,2,3]}"), .edit 0 [.key (str! "k")] (.rearrange [2, 0, 1] [] []), .edit 0 [.key (str! "k")] (.rearrange [0, 2] [1] []),
   .edit 1 [] (.select [.gone, .keep])]

example : specRun (fun _ => some (.map [(str! "j", .null), (str! "k", .seq [.numU 1, .numU 2, .numU 3])])) [] exVecProgram =
    [.numU 1, .map [(str! "k", .seq [.numU 3, .numU 2])]] := by
  with_unfolding_all rfl

/-- A closure given to `retain` that panics when it sees the second element, after the first was dropped: `Vec` keeps what was not yet looked at, then everything is unwound; caught, it is only the first of the two operations.
(This is how the operations of `Vec` and `BTreeMap` behave when a closure panics: each element is still in exactly one place.) -/
example : specRun (fun _ => some (.seq [.numU 1, .numU 2, .numU 3])) [] [.parse (str! "[1,2,3]"), .edit 0 [] (.rearrange [1, 2] [] [0])] = [.seq [.numU 2, .numU 3]] ∧
    specRun (fun _ => some (.seq [.numU 1, .numU 2, .numU 3])) [] [.parse (str! "[1,2,3]"), .edit 0 [] (.rearrange [1, 2] [] [0]), .drop 9] = [] := by
  constructor <;> with_unfolding_all rfl

example : ∀ op ∈ exVecProgram, op.WF := by
  intro op h
  simp only [exVecProgram, List.mem_cons, List.not_mem_nil, or_false] at h
  rcases h with rfl | rfl | rfl | rfl <;> first | trivial | exact valid_ascii (by decide)

example : ∀ op ∈ exProgram, op.WF := by
  intro op h
  simp only [exProgram, List.mem_cons, List.not_mem_nil, or_false] at h
  rcases h with rfl | rfl | rfl | rfl | rfl | rfl | rfl | rfl <;> first | trivial | exact valid_ascii (by decide)

end Miniserde
