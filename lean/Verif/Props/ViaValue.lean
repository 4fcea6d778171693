import Verif.Proof.ViaValue
import Verif.Proof.Prefix
import Verif.Props.Reparse

/-!
# Going through `Value` loses nothing
-/

namespace Miniserde

/-- **C47.** If two documents parse as the same `Value`, and the second has no repeated keys, then whatever type the first parses as, the second
does too, with the same value (hash maps compared as sets of entries). -/
theorem C47_same_value (E : Env) (hE : E.KeysFaithful) (t : Ty) (s s' : Bytes) (j' : Json) (hj' : JText s' j') (hn : j'.NoDup) (u v : Val)
    (h : parseAs E .value s = some (.ok u)) (h' : parseAs E .value s' = some (.ok u)) (hv : parseAs E t s = some (.ok v)) :
    ∃ v', parseAs E t s' = some (.ok v') ∧ Same E t v v' := by
  obtain ⟨j, hj, hd⟩ := (C04_ok E t s v).1 hv
  obtain ⟨j₁, hj₁, hu⟩ := (C03_value E s u).1 h
  obtain ⟨j₂, hj₂, hu'⟩ := (C03_value E s' u).1 h'
  cases JText.unique hj₁ hj
  cases JText.unique hj₂ hj'
  obtain ⟨v', h1, h2⟩ := follows hE _ j (Nat.lt_succ_self _) t v hd j' u hu hu' hn
  exact ⟨v', (C04_ok E t s' v').2 ⟨j', hj', h1⟩, h2⟩

/-- **C47.** Two documents without repeated keys that parse as the same `Value` are indistinguishable by every type without hash maps: the result
of `from_str`, success or error, is the same. -/
theorem C47_indistinguishable (E : Env) (hE : E.KeysFaithful) (hf : ∀ i, ∀ f ∈ E.fields i, f.2.noHash = true) (t : Ty) (ht : t.noHash = true)
    (s s' : Bytes) (hs : s.length < 2 ^ 31) (hs' : s'.length < 2 ^ 31) (j j' : Json) (hj : JText s j) (hj' : JText s' j') (hn : j.NoDup)
    (hn' : j'.NoDup) (u : Val) (h : parseAs E .value s = some (.ok u)) (h' : parseAs E .value s' = some (.ok u)) :
    parseAs E t s = parseAs E t s' := by
  have key : ∀ {s s' : Bytes} {j' : Json}, JText s' j' → j'.NoDup → parseAs E .value s = some (.ok u) → parseAs E .value s' = some (.ok u) →
      ∀ v, parseAs E t s = some (.ok v) → parseAs E t s' = some (.ok v) := by
    intro s s' j' hj' hn' h h' v hv
    obtain ⟨v', h1, h2⟩ := C47_same_value E hE t s s' j' hj' hn' u v h h' hv
    rw [Same.eq hf h2 ht] at h1
    exact h1
  rw [(C04_compositional E t s hs).1 j hj, (C04_compositional E t s' hs').1 j' hj']
  have k1 := key hj' hn' h h'
  have k2 := key hj hn h' h
  rw [(C04_compositional E t s hs).1 j hj, (C04_compositional E t s' hs').1 j' hj'] at k1 k2
  cases e : decode E j t with
  | some v => rw [e] at k1; exact (k1 v rfl).symm
  | none =>
    cases e' : decode E j' t with
    | none => rfl
    | some v => rw [e, e'] at k2; exact k2 v rfl

/-! ## The text of a `Value` has no repeated keys -/

section
variable {E : Env} {lit : F64 → NumLit} {ryu : F64 → Bytes}

theorem encodes_keys : ∀ {ms : List (Bytes × Val)} {xs : List (Bytes × FTree)}, EncodesEntries E (fun k => k) .value ms xs →
    (FTree.jsonMembers lit xs).map Prod.fst = ms.map Prod.fst
  | _, _, .nil _ _ => rfl
  | _, _, .cons _ hs => by simp [FTree.jsonMembers, encodes_keys hs]

mutual

theorem encodes_noDup : ∀ {v : Val} {x : FTree}, Encodes E .value v x → HasTy E .value v → (x.json lit).NoDup
  | _, _, .numU _ n ht, _ => by simp only [FTree.json]; exact .num _
  | _, _, .numI _ z ht, _ => by simp only [FTree.json]; exact .num _
  | _, _, .numF _ x ht, _ => by
    simp only [FTree.json]
    split
    · exact .num _
    · exact .null
  | _, _, .vNull, _ => .null
  | _, _, .vBool b, _ => .bool b
  | _, _, .vStr s, _ => .str s
  | _, _, .array ht hs, h => by
    cases h with
    | array _ h => simp only [FTree.json]; exact .arr (encodesAll_noDup hs h)
  | _, _, .object ht hs, h => by
    cases h with
    | object _ _ hsort h =>
      simp only [FTree.json]
      exact .obj (by rw [encodes_keys hs]; exact sorted_nodup strLt_linear hsort) (encodesEntries_noDup hs h)

theorem encodesAll_noDup : ∀ {vs : List Val} {xs : List FTree}, EncodesAll E .value vs xs → (∀ v ∈ vs, HasTy E .value v) →
    ∀ j ∈ FTree.jsons lit xs, j.NoDup
  | _, _, .nil _, _, j, hj => nomatch hj
  | _, _, .cons h hs, ht, j, hj => by
    simp only [FTree.jsons, List.mem_cons] at hj
    rcases hj with rfl | hj
    · exact encodes_noDup h (ht _ List.mem_cons_self)
    · exact encodesAll_noDup hs (fun v hv => ht v (List.mem_cons_of_mem _ hv)) j hj

theorem encodesEntries_noDup : ∀ {ms : List (Bytes × Val)} {xs : List (Bytes × FTree)}, EncodesEntries E (fun k => k) .value ms xs →
    (∀ m ∈ ms, HasTy E .value m.2) → ∀ m ∈ FTree.jsonMembers lit xs, m.2.NoDup
  | _, _, .nil _ _, _, j, hj => nomatch hj
  | _, _, .cons h hs, ht, j, hj => by
    simp only [FTree.jsonMembers, List.mem_cons] at hj
    rcases hj with rfl | hj
    · exact encodes_noDup h (ht _ List.mem_cons_self)
    · exact encodesEntries_noDup hs (fun v hv => ht v (List.mem_cons_of_mem _ hv)) j hj

end

/-- **C47.** Reading a document into a `Value` without floats (and without a `-0`), writing that and reading the result as any other type gives what reading the document
as that type directly gives. -/
theorem C47_through_value (E : Env) (hE : E.KeysFaithful) (hu : E.Utf8) (order : Nat → List (Bytes × Val) → List (Bytes × Val))
    (ho : ∀ n ms, (order n ms).Perm ms) (hr : RyuSyntax ryu lit) (hL : E.Lawful) (t : Ty) (s : Bytes) (hs : ValidUtf8 s) (u v : Val)
    (h : parseAs E .value s = some (.ok u)) (hn : u.Normal) (o : Bytes) (hp : PrintsAs E order ryu .value u o)
    (hv : parseAs E t s = some (.ok v)) : ∃ v', parseAs E t o = some (.ok v') ∧ Same E t v v' := by
  have hty := C41_type_sound E hL .value trivial s hs u h
  have hff := normal_floatFree hn
  obtain ⟨x, hx, e, hj, -⟩ := prints_encodes E order ho hu hr hty hp
  have h2 := (C34_value E order ho hu hr u hty hff o hp).1
  rw [canon_normal hn] at h2
  exact C47_same_value E hE t s o _ hj (encodes_noDup hx hty) u v h h2 hv

end

theorem exEnv_faithful : exEnv.KeysFaithful where
  fieldNames := exEnv_plain.fieldNames
  order := exEnv_plain.order
  inj _ a b x h h' := by
    have h1 : some a = some x := h
    have h2 : some b = some x := h'
    cases h1; cases h2; rfl

/-- `Point` from `{"y":[1],"x":1,"x":1}`, directly and through `Value` (whose text has only one `x`). -/
example (o : Bytes) (ho : PrintsAs exEnv exOrder (fun x => (exLit x).text) .value (.map [(str! "x", .numU 1), (str! "y", .seq [.numU 1])]) o)
    (h : parseAs exEnv .value exObj = some (.ok (.map [(str! "x", .numU 1), (str! "y", .seq [.numU 1])])))
    (h' : parseAs exEnv (.strct 0) exObj = some (.ok (.strct [.int 1, .optNone, .optNone]))) :
    ∃ v', parseAs exEnv (.strct 0) o = some (.ok v') ∧ Same exEnv (.strct 0) (.strct [.int 1, .optNone, .optNone]) v' := by
  refine C47_through_value exEnv exEnv_faithful exEnv_utf8 exOrder (fun _ _ => .refl _) exRyu exEnv_lawful (.strct 0) exObj
    (valid_ascii (by decide)) _ _ h (.map fun m hm => ?_) o ho h'
  simp only [List.mem_cons, List.not_mem_nil, or_false] at hm
  rcases hm with rfl | rfl
  · exact .numU 1
  · exact .seq fun v hv => by rw [List.mem_singleton] at hv; subst hv; exact .numU 1

/-- Repeated keys matter: `{"x":null,"x":1}` and `{"x":1}` are the same `Value`, but only the second is a `Point`. -/
example : decode exEnv (.obj [(str! "x", .null), (str! "x", .num litOne)]) (.strct 0) = none ∧
    ∃ m, IsValue (.obj [(str! "x", .null), (str! "x", .num litOne)]) (.map m) ∧ IsValue (.obj [(str! "x", .num litOne)]) (.map m) := by
  refine ⟨?_, [(str! "x", .numU 1)], ?_, ?_⟩
  · unfold decode
    simp only
    rw [decodeFields, show fieldIdx (exEnv.fields 0) (str! "x") = some 0 by decide]
    simp only [show (exEnv.fields 0)[0]? = some (str! "x", Ty.int true 32) from rfl]
    rw [show decode exEnv .null (.int true 32) = none by unfold decode; rfl]
    rfl
  · have one : IsValue (.num litOne) (.numU 1) := .num numEvent_one (.pos 1)
    refine .obj (.cons .null (.cons one .nil)) (List.pairwise_singleton _ _) fun k => ?_
    rw [lastOcc_cons, lastOcc_cons, lookup_cons']
    by_cases e : k = str! "x" <;> simp [e, lastOcc]
  · have one : IsValue (.num litOne) (.numU 1) := .num numEvent_one (.pos 1)
    refine .obj (.cons one .nil) (List.pairwise_singleton _ _) fun k => ?_
    rw [lastOcc_cons, lookup_cons']
    by_cases e : k = str! "x" <;> simp [e, lastOcc]

end Miniserde
