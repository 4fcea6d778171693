import Verif.Proof.Evolve

/-!
# Documents remain readable when a type is changed compatibly
-/

namespace Miniserde

/-- **C56.** If a type is replaced by a wider one (`Spec/Evolve.lean`: more bits, optional instead of mandatory, boxed or not, a vector instead of an array or
pair, fewer fields, more variants, ... at any depth), then every text that was read as the old type is read as the new type, as the corresponding value. -/
theorem C56_evolution (E : Env) (S : Nat → Nat → Prop) (hS : StructsWiden E S) (t t' : Ty) (hw : Widens E S t t') (s : Bytes) (v : Val)
    (h : parseAs E t s = some (.ok v)) : ∃ v', parseAs E t' s = some (.ok v') ∧ Becomes E t v t' v' := by
  obtain ⟨j, hj, hd⟩ := (parseAs_ok E).1 h
  obtain ⟨v', h1, h2⟩ := evolve hS _ j (Nat.lt_succ_self _) t t' hw v hd
  exact ⟨v', (parseAs_ok E).2 ⟨j, hj, h1⟩, h2⟩

/-- **C56**, for integers: a text read as an integer type is read as any integer type that contains the integer, as the same integer (for an unsigned type: a
positive integer, since `-0` is not accepted there). -/
theorem C56_integers (E : Env) (signed signed' : Bool) (bits bits' : Nat) (s : Bytes) (z : Int) (h : parseAs E (.int signed bits) s = some (.ok (.int z)))
    (hr : if signed' then -2 ^ (bits' - 1) ≤ z ∧ z < 2 ^ (bits' - 1) else 0 < z ∧ z < 2 ^ bits') :
    parseAs E (.int signed' bits') s = some (.ok (.int z)) := by
  obtain ⟨j, hj, hd⟩ := (parseAs_ok E).1 h
  refine (parseAs_ok E).2 ⟨j, hj, ?_⟩
  obtain ⟨l, ev, z', rfl, hl, hv, hz⟩ := int_inv hd
  cases hv
  refine int_intro hl ?_
  rcases hz with ⟨h1, h2, h3⟩ | ⟨k, h1, h2, h3⟩
  · subst h1
    have hneg : z ≤ 0 := numEvent_neg hl
    cases signed' with
    | true => exact .inl ⟨rfl, rfl, by simpa using hr.1⟩
    | false => simp at hr; omega
  · refine .inr ⟨k, h1, h2, ?_⟩
    cases signed' <;> simp at hr ⊢ <;> omega

/-! ## Example -/

/-- Version 1 and version 2 of a recursive type:
```
struct V1 { id: u8, name: String, pos: (i32, i32), kind: K1, next: Option<Box<V1>>, old: Vec<String> }   enum K1 { A, B }
struct V2 { kind: K2, id: i64, pos: Vec<i64>, name: Option<String>, next: Option<V2> }                   enum K2 { B, A, C }
``` -/
def exVersions : Env where
  fields
    | 1 => [(str! "id", .int false 8), (str! "name", .string), (str! "pos", .tup (.int true 32) (.int true 32)), (str! "kind", .enm 1),
        (str! "next", .opt (.box (.strct 1))), (str! "old", .vec .string)]
    | 2 => [(str! "kind", .enm 2), (str! "id", .int true 64), (str! "pos", .vec (.int true 64)), (str! "name", .opt .string), (str! "next", .opt (.strct 2))]
    | _ => []
  variants
    | 1 => [str! "A", str! "B"]
    | 2 => [str! "B", str! "A", str! "C"]
    | _ => []
  keyParse _ s := some s
  keyLt _ := strLt
  keyShow _ s := s

theorem exVersions_widen : StructsWiden exVersions fun i i' => i = 1 ∧ i' = 2 := by
  rintro i i' ⟨rfl, rfl⟩
  refine ⟨by decide, by decide, ?_⟩
  intro n t' h
  simp only [exVersions, List.mem_cons, Prod.mk.injEq, List.not_mem_nil, or_false] at h
  rcases h with ⟨rfl, rfl⟩ | ⟨rfl, rfl⟩ | ⟨rfl, rfl⟩ | ⟨rfl, rfl⟩ | ⟨rfl, rfl⟩
  · exact ⟨.enm 1, by simp [exVersions], .enm (by decide), by decide⟩
  · exact ⟨.int false 8, by simp [exVersions], .sign (by decide), by decide⟩
  · exact ⟨.tup (.int true 32) (.int true 32), by simp [exVersions], .tupVec (.int (by decide)) (.int (by decide)), by decide⟩
  · exact ⟨.string, by simp [exVersions], .some (.refl _) rfl, by decide⟩
  · exact ⟨.opt (.box (.strct 1)), by simp [exVersions], .opt (.unbox (.strct ⟨rfl, rfl⟩)), by decide⟩

/-- Whatever version 1 could read, version 2 can. -/
example (s : Bytes) (v : Val) (h : parseAs exVersions (.strct 1) s = some (.ok v)) : ∃ v', parseAs exVersions (.strct 2) s = some (.ok v') :=
  (C56_evolution exVersions _ exVersions_widen _ _ (.strct ⟨rfl, rfl⟩) s v h).imp fun _ h => h.1

end Miniserde
