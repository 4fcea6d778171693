import Verif.Proof.ValueApi2

/-!
# Programs that use `Value`: executions
-/

namespace Miniserde

/-! ## Collecting pairs -/

def wtp (a : Nat) : List (Bytes × LVal) → Nat
  | [] => 0
  | (_, x) :: kvs => wt a x + wtp a kvs

theorem wtp_zip (a : Nat) : ∀ (ks : List Bytes) (vs : List LVal), ks.length = vs.length → wtp a (ks.zip vs) = wts a vs
  | [], [], _ => rfl
  | [], _ :: _, h => by simp at h
  | _ :: _, [], h => by simp at h
  | k :: ks, v :: vs, h => by
    rw [List.zip_cons_cons, wtp, wts, wtp_zip a ks vs (by simpa using h)]

theorem fromPairs_good : ∀ (kvs : List (Bytes × LVal)) (n : Nat) {ms : List (Bytes × Nat × LVal)}, (∀ kv ∈ kvs, ValidUtf8 kv.1 ∧ kv.2.OK) →
    (∀ m ∈ ms, ValidUtf8 m.1) → SortedKeys strLt ms → (∀ m ∈ ms, m.2.2.OK) →
    ((∀ m ∈ (fromPairs n kvs ms).2.1, ValidUtf8 m.1) ∧ SortedKeys strLt (fromPairs n kvs ms).2.1 ∧ ∀ m ∈ (fromPairs n kvs ms).2.1, m.2.2.OK) ∧
    (fromPairs n kvs ms).2.1.map (fun m => (m.1, m.2.2.val)) =
      (kvs.map fun kv => (kv.1, kv.2.val)).foldl (fun ms kv => withKey kv.1 kv.2 ms) (ms.map fun m => (m.1, m.2.2.val)) ∧
    DeadOK (fromPairs n kvs ms).2.2.1 ∧
    ∀ a, wte a ms + wtp a kvs + (List.range (fromPairs n kvs ms).1).count a =
      wte a (fromPairs n kvs ms).2.1 + dw a (fromPairs n kvs ms).2.2.1 + (fromPairs n kvs ms).2.2.2.count a + (List.range n).count a
  | [], n, ms, _, hu, hs, h => ⟨⟨hu, hs, h⟩, rfl, .nil, fun a => by simp [fromPairs, wtp, dw]⟩
  | (k, v) :: kvs, n, ms, hkv, hu, hs, h => by
    have hr : ∀ a, (List.range (n + 1)).count a = (List.range n).count a + [n].count a := fun a => by rw [List.range_succ, List.count_append]
    obtain ⟨hk, hv⟩ := hkv _ List.mem_cons_self
    have hkv' : ∀ kv ∈ kvs, ValidUtf8 kv.1 ∧ kv.2.OK := fun kv hm => hkv kv (List.mem_cons_of_mem _ hm)
    have hu' : ∀ m ∈ withKey k (n, v) ms, ValidUtf8 m.1 := by
      intro m hm
      rcases withKey_mem hm with rfl | hm
      · exact hk
      · exact hu m hm
    have h' : ∀ m ∈ withKey k (n, v) ms, m.2.2.OK := by
      intro m hm
      rcases withKey_mem hm with rfl | hm
      · exact hv
      · exact h m hm
    have ih := fromPairs_good kvs (n + 1) hkv' hu' (withKey_sorted k (n, v) hs) h'
    rw [withKey_map (fun m : Nat × LVal => m.2.val)] at ih
    rw [fromPairs]
    cases e : entryFind k ms with
    | some r =>
      obtain ⟨j, l, old⟩ := r
      obtain ⟨h1, h2⟩ := entryFind_some e
      have h5 := set_withKey (n, v) hs h1
      simp only
      rw [h5]
      obtain ⟨i1, i2, i3, i4⟩ := ih
      refine ⟨i1, i2, fun f hf => ?_, fun a => ?_⟩
      · rcases List.mem_cons.1 hf with rfl | hf
        · exact deadOK_value _
        · exact i3 f hf
      · have := i4 a
        have h6 := wte_set a (k' := k) (l' := n) v h1
        rw [h5] at h6
        have h7 := hr a
        have h8 : List.count a old.node.owns = wt a old := rfl
        simp only [wtp, dw, DFrame.frees, List.count_cons, List.count_nil] at *
        omega
    | none =>
      obtain ⟨h1, h2⟩ := entryFind_none e
      have h5 := insert_withKey k (n, v) hs
      simp only
      rw [h5]
      obtain ⟨i1, i2, i3, i4⟩ := ih
      refine ⟨i1, i2, i3, fun a => ?_⟩
      have := i4 a
      have h6 := wte_insert a (l := n) (x := v) h1
      rw [h5] at h6
      have h7 := hr a
      simp only [wtp] at *
      omega

/-! ## One operation -/

def ExecGood (p : Prog) : Option (List LVal × OpResult) → Option (List Val) → Prop
  | none, s => s = none
  | some (vars, o), s => (∀ v ∈ vars, v.OK) ∧ s = some (vars.map LVal.val) ∧ DeadOK o.dead ∧
      ∀ a, wts a p.vars + (List.range o.next).count a = wts a vars + dw a o.dead + o.freed.count a + (List.range p.next).count a

theorem intoIter_good {v : LVal} (n : Nat) (hv : v.OK) :
    match v.intoIter n with
    | none => ∃ i s, v = .scalar i s
    | some (xs, dead, freed) => (∀ x ∈ xs, x.OK) ∧ DeadOK dead ∧ (∀ a, wt a v = wts a xs + dw a dead + freed.count a) ∧
        ∀ read vars, ApiOp.spec read (v.val :: vars) (.intoIter n) = some (xs.map LVal.val ++ vars) := by
  cases v with
  | scalar i s => exact ⟨i, s, rfl⟩
  | array i xs =>
    cases hv with
    | array _ h =>
      refine ⟨fun x hx => h x (List.mem_of_mem_take hx), fun f hf => ?_, fun a => ?_, fun read vars => ?_⟩
      · simp only [takeArray, List.nil_append, List.mem_singleton] at hf; subst hf; exact drops_vecIter _ _
      · have := wts_split a n xs
        have h1 := count_ownsAll a (xs.drop n)
        simp only [takeArray, List.nil_append, dw, DFrame.frees, List.count_cons, List.count_nil, wt_array, h1]; omega
      · simp only [ApiOp.spec, val_array, takeArray, List.map_take]
  | object i ms =>
    cases hv with
    | object _ hu hs h =>
      refine ⟨fun x hx => ?_, fun f hf => ?_, fun a => ?_, fun read vars => ?_⟩
      · obtain ⟨m, hm, rfl⟩ := List.mem_map.1 hx
        exact h m (List.mem_of_mem_take hm)
      · simp only [takeObject, List.nil_append, List.mem_singleton] at hf; subst hf; exact drops_mapIter _ _
      · have := wte_split a n ms
        have h1 := count_ownsEntries a (ms.drop n)
        have h2 := wts_map_snd a (ms.take n)
        simp only [takeObject, List.nil_append, dw, DFrame.frees, List.count_cons, List.count_nil, wt_object, h1]; omega
      · simp only [ApiOp.spec, val_object, takeObject, List.map_take, List.map_map]; rfl

theorem exec_good {E : Env} {read : Bytes → Option Val} (hread : ∀ s v, ValidUtf8 s → read s = some v → HasTy E .value v) {p : Prog} (hp : ∀ v ∈ p.vars, v.OK)
    (op : ApiOp) (hop : op.WF) : ExecGood p (op.exec read p) (op.spec read (p.vars.map LVal.val)) := by
  have hr : ∀ a, (List.range (p.next + 1)).count a = (List.range p.next).count a + [p.next].count a := fun a => by rw [List.range_succ, List.count_append]
  have hcons : ∀ {v : LVal}, v.OK → ∀ x ∈ v :: p.vars, x.OK := fun {v} h x hx => by
    rcases List.mem_cons.1 hx with rfl | hx
    · exact h
    · exact hp x hx
  cases op with
  | scalar s =>
    refine ⟨hcons (.scalar _ hop), by simp [ApiOp.spec, val_scalar], .nil, fun a => ?_⟩
    simp only [wts, dw, List.count_nil, wt_scalar, hr]; omega
  | array =>
    refine ⟨hcons (.array _ (by simp)), by simp [ApiOp.spec, val_array], .nil, fun a => ?_⟩
    simp only [wts, dw, List.count_nil, wt_array, hr]; omega
  | object =>
    refine ⟨hcons (.object _ (by simp) .nil (by simp)), by simp [ApiOp.spec, val_object], .nil, fun a => ?_⟩
    simp only [wts, wte, dw, List.count_nil, wt_object, hr]; omega
  | parse s =>
    simp only [ApiOp.exec, ApiOp.spec]
    cases e : read s with
    | none => exact ⟨hp, rfl, .nil, fun a => by simp [dw]⟩
    | some v =>
      obtain ⟨h1, h2, h3⟩ := fresh_ok p.next (hread s v hop e)
      refine ⟨hcons h1, by simp [h2], .nil, fun a => ?_⟩
      have := h3 a
      simp only [wts, dw, List.count_nil]; omega
  | clone x q =>
    simp only [ApiOp.exec, ApiOp.spec, List.getElem?_map]
    cases e : p.vars[x]? with
    | none => rfl
    | some w =>
      obtain ⟨h1, h2⟩ := get_ok q (hp w (List.mem_of_getElem? e))
      simp only [Option.map_some, Option.bind_some]
      rw [← h1]
      cases e' : LVal.get q w with
      | none => rfl
      | some v =>
        obtain ⟨h3, h4, h5⟩ := clone_ok p.next (h2 v e')
        refine ⟨hcons h3, by simp [h4], .nil, fun a => ?_⟩
        have := h5 a
        simp only [wts, dw, List.count_nil]; omega
  | drop x =>
    simp only [ApiOp.exec, ApiOp.spec, List.getElem?_map]
    cases e : p.vars[x]? with
    | none => rfl
    | some w =>
      refine ⟨fun v hv => hp v (List.mem_of_mem_eraseIdx hv), by simp [List.eraseIdx_map], fun f hf => ?_, fun a => ?_⟩
      · simp only [List.mem_singleton] at hf; subst hf; exact deadOK_value _
      · have := wts_erase a e
        have h8 : List.count a w.node.owns = wt a w := rfl
        simp only [dw, DFrame.frees, List.count_nil]; omega
  | move x =>
    simp only [ApiOp.exec, ApiOp.spec, List.getElem?_map]
    cases e : p.vars[x]? with
    | none => rfl
    | some w =>
      refine ⟨fun v hv => ?_, by simp [List.eraseIdx_map], .nil, fun a => ?_⟩
      · rcases List.mem_cons.1 hv with rfl | hv
        · exact hp _ (List.mem_of_getElem? e)
        · exact hp v (List.mem_of_mem_eraseIdx hv)
      · have := wts_erase a e
        simp only [wts, dw, List.count_nil]; omega
  | collect n =>
    simp only [ApiOp.exec, ApiOp.spec, List.length_map]
    by_cases hn : n ≤ p.vars.length
    · rw [if_pos hn, if_pos hn]
      refine ⟨fun v hv => ?_, by simp [val_array, List.map_take, List.map_drop], .nil, fun a => ?_⟩
      · rcases List.mem_cons.1 hv with rfl | hv
        · exact .array _ fun v hv => hp v (List.mem_of_mem_take hv)
        · exact hp v (List.mem_of_mem_drop hv)
      · have := wts_split a n p.vars
        simp only [wts, dw, List.count_nil, wt_array, hr]; omega
    · rw [if_neg hn, if_neg hn]; rfl
  | collectPairs ks =>
    simp only [ApiOp.exec, ApiOp.spec, List.length_map]
    by_cases hn : ks.length ≤ p.vars.length
    · rw [if_pos hn, if_pos hn]
      obtain ⟨⟨h1, h2, h3⟩, h4, h5, h6⟩ := fromPairs_good (ks.zip (p.vars.take ks.length)) (p.next + 1) (ms := [])
        (fun kv hkv => ⟨hop kv.1 (List.of_mem_zip hkv).1, hp kv.2 (List.mem_of_mem_take (List.of_mem_zip hkv).2)⟩) (by simp) .nil (by simp)
      refine ⟨fun v hv => ?_, ?_, h5, fun a => ?_⟩
      · rcases List.mem_cons.1 hv with rfl | hv
        · exact .object _ h1 h2 h3
        · exact hp v (List.mem_of_mem_drop hv)
      · simp only [List.map_cons, val_object, h4, List.map_nil, ← List.map_take, ← List.map_drop, List.zip_map_right]
        rfl
      · have h7 := h6 a
        have h8 := wts_split a ks.length p.vars
        rw [wtp_zip a ks _ (by simp; omega)] at h7
        have h9 := hr a
        simp only [wts, wte, wt_object] at *; omega
    · rw [if_neg hn, if_neg hn]; rfl
  | intoIter n =>
    simp only [ApiOp.exec]
    cases e : p.vars with
    | nil => rfl
    | cons v vars =>
      have hv : v.OK := hp v (by rw [e]; exact List.mem_cons_self)
      have := intoIter_good n hv
      simp only [List.map_cons]
      cases e' : v.intoIter n with
      | none =>
        rw [e'] at this
        obtain ⟨i, s, rfl⟩ := this
        rw [val_scalar]
        cases s <;> rfl
      | some r =>
        obtain ⟨xs, dead, freed⟩ := r
        rw [e'] at this
        obtain ⟨h1, h2, h3, h4⟩ := this
        refine ⟨fun x hx => ?_, by rw [h4]; simp, h2, fun a => ?_⟩
        · rcases List.mem_append.1 hx with hx | hx
          · exact h1 x hx
          · exact hp x (by rw [e]; exact List.mem_cons_of_mem _ hx)
        · have := h3 a
          rw [e]
          simp only [wts, wts_append]; omega
  | edit x q e =>
    have hsrc : ∀ (y : Nat) (r : List Loc), (p.vars[y]?.bind (LVal.get r)).map LVal.val = (p.vars.map LVal.val)[y]?.bind (Val.get r) ∧
        ∀ z, p.vars[y]?.bind (LVal.get r) = some z → z.OK := by
      intro y r
      rw [List.getElem?_map]
      cases e : p.vars[y]? with
      | none => exact ⟨rfl, fun z h => by cases h⟩
      | some w => exact get_ok r (hp w (List.mem_of_getElem? e))
    have hk : ∀ k, e = .insertKey k → ValidUtf8 k := fun k h => by subst h; exact hop
    simp only [ApiOp.exec, ApiOp.spec]
    have hs : (e.source p.vars).map LVal.val = e.sourceSpec (p.vars.map LVal.val) ∧ ∀ z, e.source p.vars = some z → z.OK := by
      clear hk hop
      cases e with
      | cloneFrom y r => exact hsrc y r
      | _ => exact ⟨rfl, fun _ h => by cases h⟩
    obtain ⟨hs3, hs1⟩ := hs
    have main : ∀ (arg : Option LVal) (vars : List LVal), (∀ z, arg = some z → z.OK) → (∀ v ∈ vars, v.OK) → (∀ a, wts a p.vars = argw a arg + wts a vars) →
        ExecGood p (vars[x]?.bind fun v => (v.modify (e.run arg (e.source p.vars) p.next) q).map fun r => (r.2.ret ++ vars.set x r.1, r.2))
          ((vars.map LVal.val)[x]?.bind fun v => (v.modify (e.spec (arg.map LVal.val) (e.sourceSpec (p.vars.map LVal.val))) q).map fun r => r.2 ++ (vars.map LVal.val).set x r.1) := by
      intro arg vars harg hvars hw
      rw [← hs3]
      rw [List.getElem?_map]
      cases e1 : vars[x]? with
      | none => rfl
      | some v =>
        have hv := hvars v (List.mem_of_getElem? e1)
        have g := modify_good (n := p.next) (inn := fun a => argw a arg) (fun v hv => edit_good (E := e) hv harg hs1 hk) q hv
        simp only [Option.map_some, Option.bind_some]
        cases e2 : v.modify (e.run arg (e.source p.vars) p.next) q with
        | none =>
          rw [e2] at g
          simp only [EditGood] at g
          rw [g]; rfl
        | some r =>
          obtain ⟨v', o⟩ := r
          rw [e2] at g
          obtain ⟨g1, g2, g3, g4, g5⟩ := g
          rw [g3]
          refine ⟨fun z hz => ?_, by simp [vals_eq, List.map_set], g4, fun a => ?_⟩
          · rcases List.mem_append.1 hz with hz | hz
            · exact g2 z hz
            · rcases List.mem_or_eq_of_mem_set hz with hz | rfl
              · exact hvars z hz
              · exact g1
          · have h1 := g5 a
            have h2 := wts_set a v' e1
            simp only at h1
            have h3 := hw a
            simp only [wts_append]; omega
    rw [← consumes_eq]
    cases ht : e.takesArg with
    | false => exact main none p.vars (fun _ h => by cases h) hp fun a => by simp [argw]
    | true =>
      cases hvs : p.vars with
      | nil => rfl
      | cons w vars =>
        rw [hvs] at hp main
        exact main (some w) vars (fun z hz => by cases hz; exact hp _ List.mem_cons_self) (fun v hv => hp v (List.mem_cons_of_mem _ hv)) fun a => by simp [argw, wts]

/-! ## Programs -/

/-- The invariant. -/
structure Prog.Inv (p : Prog) : Prop where
  ok : ∀ v ∈ p.vars, v.OK
  balance : ∀ a, p.freed.count a + wts a p.vars = (List.range p.next).count a

theorem start_inv : Prog.start.Inv := ⟨by simp [Prog.start], fun a => by simp [Prog.start, wts]⟩

section
variable {E : Env} {read : Bytes → Option Val} (hread : ∀ s v, ValidUtf8 s → read s = some v → HasTy E .value v)
include hread

theorem apiStep_inv {p p' : Prog} {op : ApiOp} (hop : op.WF) (h : ApiStep read p op p') (hp : p.Inv) :
    p'.Inv ∧ p'.vars.map LVal.val = (op.spec read (p.vars.map LVal.val)).getD [] := by
  have g := exec_good hread hp.ok op hop
  cases h with
  | ok h hd =>
    rw [h] at g
    obtain ⟨g1, g2, g3, g4⟩ := g
    refine ⟨⟨g1, fun a => ?_⟩, by rw [g2]; rfl⟩
    have h1 := hp.balance a
    have h2 := g4 a
    have h3 := dropAll_count hd g3 a
    simp only [List.count_append] at *; omega
  | panic h hd =>
    rw [h] at g
    simp only [ExecGood] at g
    refine ⟨⟨by simp, fun a => ?_⟩, by rw [g]; rfl⟩
    have h1 := hp.balance a
    have h3 := dropAll_count hd (deadOK_values _) a
    rw [dw_values] at h3
    simp only [List.count_append, wts] at *; omega

theorem apiStep_exists {p : Prog} {op : ApiOp} (hop : op.WF) (hp : p.Inv) : ∃ p', ApiStep read p op p' := by
  have g := exec_good hread hp.ok op hop
  cases e : op.exec read p with
  | none =>
    obtain ⟨log, h⟩ := dropAll_exists _ (deadOK_values p.vars)
    exact ⟨_, .panic e h⟩
  | some r =>
    obtain ⟨vars, o⟩ := r
    rw [e] at g
    obtain ⟨log, h⟩ := dropAll_exists _ g.2.2.1
    exact ⟨_, .ok e h⟩

theorem apiRun_inv {p p' : Prog} {ops : List ApiOp} (hops : ∀ op ∈ ops, op.WF) (h : ApiRun read p ops p') (hp : p.Inv) :
    p'.Inv ∧ p'.vars.map LVal.val = specRun read (p.vars.map LVal.val) ops := by
  induction h with
  | nil m => exact ⟨hp, rfl⟩
  | cons h hs ih =>
    obtain ⟨h1, h2⟩ := apiStep_inv hread (hops _ List.mem_cons_self) h hp
    obtain ⟨h3, h4⟩ := ih (fun op hm => hops op (List.mem_cons_of_mem _ hm)) h1
    exact ⟨h3, by rw [h4, h2]; rfl⟩

theorem apiRun_exists (ops : List ApiOp) : ∀ {p : Prog}, (∀ op ∈ ops, op.WF) → p.Inv → ∃ p', ApiRun read p ops p' := by
  induction ops with
  | nil => exact fun _ _ => ⟨_, .nil _⟩
  | cons op ops ih =>
    intro p hops hp
    obtain ⟨p₁, h1⟩ := apiStep_exists hread (hops op List.mem_cons_self) hp
    obtain ⟨p₂, h2⟩ := ih (fun op hm => hops op (List.mem_cons_of_mem _ hm)) (apiStep_inv hread (hops op List.mem_cons_self) h1 hp).1
    exact ⟨p₂, .cons h1 h2⟩

end

theorem owned_count (p : Prog) (a : Nat) : p.owned.count a = wts a p.vars := by
  rw [Prog.owned]
  induction p.vars with
  | nil => rfl
  | cons v vs ih => rw [List.flatMap_cons, List.count_append, ih]; rfl

theorem Prog.Inv.perm {p : Prog} (h : p.Inv) : (p.freed ++ p.owned).Perm (List.range p.next) := by
  rw [List.perm_iff_count]
  intro a
  rw [List.count_append, owned_count]
  exact h.balance a

end Miniserde
