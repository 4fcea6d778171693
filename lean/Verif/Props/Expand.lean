import Verif.Proof.Expand

namespace Miniserde.Expand

theorem lib_true {S : Site} {id : Bytes} {tp cp : List Bytes} {ns : Ns} {p : List Bytes} {vars tps cps items : List Bytes}
    (hi : str! "miniserde" ∉ items) (hc : Crate S tps) (hk : known ns p = true) :
    Clean S id tp cp (.use (.lib ns p)) ⟨vars, tps, cps, items⟩ = True := eq_true ((clean_at hi hk).2 hc)

theorem begin_applied {S : Site} {d : Struct} {items : List Bytes} {h : Bytes} (hi : str! "miniserde" ∉ items) (hh : h ∈ items) (hc : Crate S d.tparams) :
    CleanD S d (beginBody (applied d (.helper h))) (sc0 d items) ↔
      Free S d.cparams (str! "__out") ∧ h ∉ d.tparams ∧ ∀ n ∈ d.cparams, n ∉ d.tparams → n ∉ items ∧ S.types n = none := by
  unfold CleanD sc0
  rw [clean_begin hi hc]
  refine and_congr_right fun hf => ?_
  have := clean_applied (S := S) (d := d) (items := items) (head := .helper h) (vars := [str! "__out"]) (fun n hn e => by
    rw [List.mem_singleton] at e
    exact hf.2 (e ▸ hn))
  unfold CleanD at this
  rw [this, clean_helper hh]

theorem de_items {S : Site} {d : Struct} {items : List Bytes} (hi : str! "miniserde" ∉ items) (hv : str! "__Visitor" ∈ items) (hs : str! "__State" ∈ items)
    (hc : Crate S d.tparams) :
    (∀ t ∈ deItems d, CleanD S d t ⟨[], [], [], items⟩) ↔
      (∀ p ∈ d.bounds, p.1 ≠ .val → p.2 ∉ d.tparams → p.2 ∉ items) ∧
      (S.types d.name = some .target ∧ d.name ∉ d.tparams ∧ d.name ∉ items) ∧
      (∀ n ∈ d.cparams, n ∉ d.tparams → n ∉ items ∧ S.types n = none) ∧
      Free S d.cparams (str! "__out") ∧
      str! "__Visitor" ∉ d.tparams ∧ str! "__State" ∉ d.tparams ∧
      (S.values (str! "Ok") = some .ok ∧ str! "Ok" ∉ d.cparams) ∧
      (d.fields.map Prod.fst ++ [str! "__out"]).Nodup ∧
      (∀ f ∈ d.fields, ∀ p ∈ f.2, p.1 ≠ .val → p.2 ∉ d.tparams → p.2 ∉ items) ∧
      Free S d.cparams (str! "__k") ∧
      (d.fields ≠ [] → Takes S) ∧ (∀ f ∈ d.fields, Free S d.cparams f.1) := by
  have it := fun b => clean_item (S := S) (d := d) (items := items) (body := b) (sc := ⟨[], [], [], items⟩) rfl rfl
  have lt := fun (vars : List Bytes) {ns : Ns} {p : List Bytes} (hk : known ns p = true) =>
    lib_true (S := S) (id := d.name) (tp := d.tparams) (cp := d.cparams) (cps := d.cparams) (vars := vars) hi hc hk
  have bd := clean_bounded (S := S) (d := d) (items := items) (trait := str! "Deserialize") hi (by decide) hc
  have ap := fun (head : Src) => clean_applied (S := S) (d := d) (items := items) (head := head) (vars := []) (fun _ _ => List.not_mem_nil)
  have cp := fun ms => clean_copy (S := S) (d := d) (items := items) (ms := ms)
  have bg := begin_applied (S := S) (d := d) (items := items) (h := str! "__Visitor") hi hv hc
  have id0 := clean_ident (S := S) (id := d.name) (tp := d.tparams) (cp := d.cparams) (sc := ⟨[], d.tparams, d.cparams, items⟩)
  have ok0 := clean_ok (S := S) (id := d.name) (tp := d.tparams) (cp := d.cparams) (sc := ⟨[], d.tparams, d.cparams, items⟩) List.not_mem_nil
  have hV := fun vars => clean_helper (S := S) (id := d.name) (tp := d.tparams) (cp := d.cparams) (sc := ⟨vars, d.tparams, d.cparams, items⟩) hv
  have hS := fun vars => clean_helper (S := S) (id := d.name) (tp := d.tparams) (cp := d.cparams) (sc := ⟨vars, d.tparams, d.cparams, items⟩) hs
  have fk := fresh_iff (S := S) (x := str! "__k") (sc := ⟨[], d.tparams, d.cparams, items⟩) List.not_mem_nil
  have vk := eq_true (clean_var (S := S) (id := d.name) (tp := d.tparams) (cp := d.cparams) (n := str! "__k")
    (sc := ⟨[str! "__k"], d.tparams, d.cparams, items⟩) List.mem_cons_self)
  have ls := fun (rest : Tm) (hn : (d.fields.map Prod.fst).Nodup) => clean_lets (S := S) (d := d) (items := items) (rest := rest) hi hc (d.fields.map Prod.fst) [] (by
    rwa [List.append_nil])
  have id1 := fun vars => clean_ident (S := S) (id := d.name) (tp := d.tparams) (cp := d.cparams) (sc := ⟨vars, d.tparams, d.cparams, items⟩)
  unfold CleanD sc0 at *
  unfold deItems
  by_cases hn : (d.fields.map Prod.fst ++ [str! "__out"]).Nodup
  case neg => 
    refine iff_of_false (fun h => ?_) (fun h => hn h.2.2.2.2.2.2.2.1)
    have := h _ (List.mem_cons_of_mem _ (List.mem_cons_of_mem _ (List.mem_cons_of_mem _ List.mem_cons_self)))
    rw [it, clean_all] at this
    exact hn (clean_fields.1 (this.2 _ List.mem_cons_self))
  have hn' : (d.fields.map Prod.fst).Nodup := (List.nodup_append.1 hn).1
  have vr : (∀ j ∈ d.fields, Clean S d.name d.tparams d.cparams (.use (.var j.1)) ⟨(d.fields.map Prod.fst).reverse ++ [], d.tparams, d.cparams, items⟩) = True := by
    refine eq_true fun j hj => clean_var ?_
    simp only [List.append_nil, List.mem_reverse]
    exact List.mem_map_of_mem hj
  simp only [List.forall_mem_cons, List.not_mem_nil, false_imp_iff, implies_true, and_true, it, clean_all, priv, root, bd, bg, ap, id1, ok0, hV, hS, clean_bind, fk, vk, ls _ hn', vr,
    clean_fields, List.forall_mem_map, clean_seq, cp,
    lt _ (show known .ty [str! "__private", str! "Option"] = true by decide),
    lt _ (show known .ty [str! "__private", str! "Box"] = true by decide),
    lt _ (show known .ty [str! "__private", str! "str"] = true by decide),
    lt _ (show known .ty [str! "de", str! "Visitor"] = true by decide),
    lt _ (show known .ty [str! "de", str! "Map"] = true by decide),
    lt _ (show known .ty [str! "Deserialize"] = true by decide),
    lt _ (show known .ty [str! "Result"] = true by decide),
    lt _ (show known .val [str! "__private", str! "Box", str! "new"] = true by decide),
    lt _ (show known .val [str! "__private", str! "Ok"] = true by decide),
    lt _ (show known .val [str! "__private", str! "Some"] = true by decide),
    lt _ (show known .val [str! "Deserialize", str! "default"] = true by decide),
    lt _ (show known .val [str! "Deserialize", str! "begin"] = true by decide),
    lt _ (show known .val [str! "de", str! "Visitor", str! "ignore"] = true by decide)]
  have nd : ([str! "__out"] : List Bytes).Nodup := by simp
  have ne : (d.fields.map Prod.fst ≠ []) ↔ d.fields ≠ [] := by simp
  simp only [hn, nd, ne, true_and]
  clear it lt bd ap cp bg id0 ok0 hV hS fk vk ls id1 vr hn hn' nd ne hi hv hs hc
  generalize (∀ p ∈ d.bounds, p.1 ≠ Ns.val → p.2 ∉ d.tparams → p.2 ∉ items) = B
  generalize (∀ n ∈ d.cparams, n ∉ d.tparams → n ∉ items ∧ S.types n = none) = C
  generalize (S.types d.name = some .target ∧ d.name ∉ d.tparams ∧ d.name ∉ items) = T
  constructor
  · rintro ⟨⟨b, t, c⟩, ⟨-, -, -, fo, vi, -⟩, ⟨-, -, -, ok, st⟩, ⟨-, cf, -⟩, -, -, -, fk, tk, ff, -⟩
    exact ⟨b, t, c, fo, vi, st, ok, cf, fk, tk, ff⟩
  · rintro ⟨b, t, c, fo, vi, st, ok, cf, fk, tk, ff⟩
    exact ⟨⟨b, t, c⟩, ⟨b, ⟨t, c⟩, b, fo, vi, c⟩, ⟨b, ⟨vi, c⟩, b, ok, st⟩, ⟨b, cf, t, c⟩, b, ⟨st, c⟩, b, fk, tk, ff, t⟩

/-- Copied tokens that do not mention the name of an item of the block. -/
theorem copied_iff {d : Struct} {items : List Bytes} {ms : List (Ns × Bytes)} (hp : ∀ h ∈ items, h ∉ d.tparams) :
    (∀ p ∈ ms, p.1 ≠ .val → p.2 ∉ d.tparams → p.2 ∉ items) ↔ ∀ h ∈ items, (Ns.ty, h) ∉ ms ∧ (Ns.arg, h) ∉ ms := by
  constructor
  · intro h x hx
    exact ⟨fun hm => h _ hm (by simp) (hp x hx) hx, fun hm => h _ hm (by simp) (hp x hx) hx⟩
  · rintro h ⟨ns, x⟩ hm hv - hi
    cases ns with
    | val => exact hv rfl
    | ty => exact (h x hi).1 hm
    | arg => exact (h x hi).2 hm

theorem mem_mentions {d : Struct} {p : Ns × Bytes} : p ∈ d.mentions ↔ p ∈ d.bounds ∨ ∃ f ∈ d.fields, p ∈ f.2 := by
  simp only [Struct.mentions, List.mem_append, List.mem_flatMap]

/-- Derived `Deserialize` of a struct is hygienic exactly under the conditions listed. -/
theorem C87_struct_de (S : Site) (d : Struct) : d.Hygienic S (deStruct d) ↔ d.DeFits S := by
  have hi : str! "miniserde" ∉ [str! "__Visitor", str! "__State"] := by decide
  have hv : str! "__Visitor" ∈ [str! "__Visitor", str! "__State"] := by decide
  have hs : str! "__State" ∈ [str! "__Visitor", str! "__State"] := by decide
  show Clean S d.name d.tparams d.cparams (deStruct d) Scope.top ↔ _
  unfold deStruct
  rw [clean_items, clean_all]
  constructor
  · intro h
    have hc : Crate S d.tparams := by
      have h0 := h _ List.mem_cons_self
      have it := (clean_item (S := S) (d := d) (items := [str! "__Visitor", str! "__State"]) (sc := ⟨[], [], [], [str! "__Visitor", str! "__State"]⟩) rfl rfl).1 h0
      have := clean_all.1 it.2 _ (List.mem_cons_of_mem _ List.mem_cons_self)
      exact (clean_at hi (by decide)).1 this
    obtain ⟨b, ⟨t1, t2, t3⟩, c, fo, vi, st, ok, nd, cf, fk, tk, ff⟩ := (de_items hi hv hs hc).1 h
    have hp : ∀ h ∈ [str! "__Visitor", str! "__State"], h ∉ d.tparams := by
      intro x hx
      simp only [List.mem_cons, List.not_mem_nil, or_false] at hx
      rcases hx with rfl | rfl
      · exact vi
      · exact st
    have hm : ∀ p ∈ d.mentions, p.1 ≠ .val → p.2 ∉ d.tparams → p.2 ∉ [str! "__Visitor", str! "__State"] := by
      intro p hpm
      rcases mem_mentions.1 hpm with hb | ⟨f, hf, hpf⟩
      · exact b p hb
      · exact cf f hf p hpf
    have hu := (copied_iff hp).1 hm
    obtain ⟨nd1, -, nd3⟩ := List.nodup_append.1 nd
    refine ⟨⟨hc.1, t1, hc.2, t2, fun n hn ht => (c n hn ht).2⟩, ok, ⟨?_, vi, ?_, hu _ hv⟩, ⟨?_, st, ?_, hu _ hs⟩, nd1, ?_, ⟨fo, fk, ff⟩, tk⟩
    · exact fun e => t3 (e ▸ hv)
    · exact fun hn => (c _ hn vi).1 hv
    · exact fun e => t3 (e ▸ hs)
    · exact fun hn => (c _ hn st).1 hs
    · exact fun f hf => nd3 _ (List.mem_map_of_mem hf) _ List.mem_cons_self
  · rintro ⟨⟨c1, t1, c2, t2, cs⟩, ok, ⟨v1, v2, v3, v4⟩, ⟨s1, s2, s3, s4⟩, nd, out, ⟨fo, fk, ff⟩, tk⟩
    have hp : ∀ h ∈ [str! "__Visitor", str! "__State"], h ∉ d.tparams := by
      intro x hx
      simp only [List.mem_cons, List.not_mem_nil, or_false] at hx
      rcases hx with rfl | rfl
      · exact v2
      · exact s2
    have hm := (copied_iff (ms := d.mentions) hp).2 (by
      intro x hx
      simp only [List.mem_cons, List.not_mem_nil, or_false] at hx
      rcases hx with rfl | rfl
      · exact v4
      · exact s4)
    refine (de_items hi hv hs ⟨c1, c2⟩).2 ⟨fun p hb => hm p (mem_mentions.2 (.inl hb)), ⟨t1, t2, ?_⟩, ?_, fo, v2, s2, ok, ?_,
      fun f hf p hpf => hm p (mem_mentions.2 (.inr ⟨f, hf, hpf⟩)), fk, tk, ff⟩
    · simp only [List.mem_cons, List.not_mem_nil, or_false]
      exact fun e => e.elim v1 s1
    · refine fun n hn ht => ⟨?_, cs n hn ht⟩
      simp only [List.mem_cons, List.not_mem_nil, or_false]
      rintro (rfl | rfl)
      · exact v3 hn
      · exact s3 hn
    · refine List.nodup_append.2 ⟨nd, by simp, ?_⟩
      intro a ha b hb
      obtain ⟨f, hf, rfl⟩ := List.mem_map.1 ha
      rw [List.mem_singleton] at hb
      exact hb ▸ out f hf

theorem ser_items {S : Site} {d : Struct} {items : List Bytes} (hi : str! "miniserde" ∉ items) (hs : str! "__Map" ∈ items)
    (hc : Crate S d.tparams) :
    (∀ t ∈ serItems d, CleanD S d t ⟨[], [], [], items⟩) ↔
      (∀ p ∈ d.bounds, p.1 ≠ .val → p.2 ∉ d.tparams → p.2 ∉ items) ∧
      (S.types d.name = some .target ∧ d.name ∉ d.tparams ∧ d.name ∉ items) ∧
      (∀ n ∈ d.cparams, n ∉ d.tparams → n ∉ items ∧ S.types n = none) ∧
      str! "__Map" ∉ d.tparams ∧ Free S d.cparams (str! "__state") := by
  have it := fun b => clean_item (S := S) (d := d) (items := items) (body := b) (sc := ⟨[], [], [], items⟩) rfl rfl
  have lt := fun (vars : List Bytes) {ns : Ns} {p : List Bytes} (hk : known ns p = true) =>
    lib_true (S := S) (id := d.name) (tp := d.tparams) (cp := d.cparams) (cps := d.cparams) (vars := vars) hi hc hk
  have bd := clean_bounded (S := S) (d := d) (items := items) (trait := str! "Serialize") hi (by decide) hc
  have ap := fun (head : Src) => clean_applied (S := S) (d := d) (items := items) (head := head) (vars := []) (fun _ _ => List.not_mem_nil)
  have hM := fun vars => clean_helper (S := S) (id := d.name) (tp := d.tparams) (cp := d.cparams) (sc := ⟨vars, d.tparams, d.cparams, items⟩) hs
  have fk := fresh_iff (S := S) (x := str! "__state") (sc := ⟨[], d.tparams, d.cparams, items⟩) List.not_mem_nil
  have vk := eq_true (clean_var (S := S) (id := d.name) (tp := d.tparams) (cp := d.cparams) (n := str! "__state")
    (sc := ⟨[str! "__state"], d.tparams, d.cparams, items⟩) List.mem_cons_self)
  have id1 := fun vars => clean_ident (S := S) (id := d.name) (tp := d.tparams) (cp := d.cparams) (sc := ⟨vars, d.tparams, d.cparams, items⟩)
  unfold CleanD sc0 at *
  unfold serItems
  have nd : ([str! "data", str! "state"] : List Bytes).Nodup := by decide
  simp only [List.forall_mem_cons, List.not_mem_nil, false_imp_iff, implies_true, and_true, true_and, it, clean_all, priv, root, bd, ap, id1, hM, clean_bind, fk, vk,
    clean_fields, List.forall_mem_map, clean_seq, nd,
    lt _ (show known .ty [str! "__private", str! "Option"] = true by decide),
    lt _ (show known .ty [str! "__private", str! "Cow"] = true by decide),
    lt _ (show known .ty [str! "__private", str! "str"] = true by decide),
    lt _ (show known .ty [str! "__private", str! "usize"] = true by decide),
    lt _ (show known .ty [str! "ser", str! "Fragment"] = true by decide),
    lt _ (show known .ty [str! "ser", str! "Map"] = true by decide),
    lt _ (show known .ty [str! "Serialize"] = true by decide),
    lt _ (show known .val [str! "__private", str! "Box", str! "new"] = true by decide),
    lt _ (show known .val [str! "__private", str! "Some"] = true by decide),
    lt _ (show known .val [str! "__private", str! "None"] = true by decide),
    lt _ (show known .val [str! "__private", str! "Cow", str! "Borrowed"] = true by decide),
    lt _ (show known .val [str! "ser", str! "Fragment", str! "Map"] = true by decide)]
  clear it lt bd ap hM fk vk id1 nd hi hs hc
  generalize (∀ p ∈ d.bounds, p.1 ≠ Ns.val → p.2 ∉ d.tparams → p.2 ∉ items) = B
  generalize (∀ n ∈ d.cparams, n ∉ d.tparams → n ∉ items ∧ S.types n = none) = C
  generalize (S.types d.name = some .target ∧ d.name ∉ d.tparams ∧ d.name ∉ items) = T
  constructor
  · rintro ⟨-, ⟨b, t, c⟩, -, ⟨m, -⟩, -, f⟩
    exact ⟨b, t, c, m, f⟩
  · rintro ⟨b, t, c, m, f⟩
    exact ⟨⟨b, ⟨t, c⟩, b, m⟩, ⟨b, t, c⟩, b, ⟨m, c⟩, b, f⟩

/-- Derived `Serialize` of a struct is hygienic exactly under the conditions listed. -/
theorem C87_struct_ser (S : Site) (d : Struct) : d.Hygienic S (serStruct d) ↔ d.SerFits S := by
  have hi : str! "miniserde" ∉ [str! "__Map"] := by decide
  have hs : str! "__Map" ∈ [str! "__Map"] := by decide
  show Clean S d.name d.tparams d.cparams (serStruct d) Scope.top ↔ _
  unfold serStruct
  rw [clean_items, clean_all]
  constructor
  · intro h
    have hc : Crate S d.tparams := by
      have h0 := h _ List.mem_cons_self
      have it := (clean_item (S := S) (d := d) (items := [str! "__Map"]) (sc := ⟨[], [], [], [str! "__Map"]⟩) rfl rfl).1 h0
      have := clean_all.1 it.2 _ List.mem_cons_self
      exact (clean_at hi (by decide)).1 this
    obtain ⟨b, ⟨t1, t2, t3⟩, c, m, f⟩ := (ser_items hi hs hc).1 h
    have hp : ∀ h ∈ [str! "__Map"], h ∉ d.tparams := by
      intro x hx
      rw [List.mem_singleton] at hx
      exact hx ▸ m
    exact ⟨⟨hc.1, t1, hc.2, t2, fun n hn ht => (c n hn ht).2⟩,
      ⟨fun e => t3 (e ▸ hs), m, fun hn => (c _ hn m).1 hs, (copied_iff hp).1 b _ hs⟩, f⟩
  · rintro ⟨⟨c1, t1, c2, t2, cs⟩, ⟨s1, s2, s3, s4⟩, f⟩
    have hp : ∀ h ∈ [str! "__Map"], h ∉ d.tparams := by
      intro x hx
      rw [List.mem_singleton] at hx
      exact hx ▸ s2
    refine (ser_items hi hs ⟨c1, c2⟩).2 ⟨(copied_iff hp).2 ?_, ⟨t1, t2, ?_⟩, ?_, s2, f⟩
    · intro x hx
      rw [List.mem_singleton] at hx
      exact hx ▸ s4
    · simpa using s1
    · refine fun n hn ht => ⟨?_, cs n hn ht⟩
      rw [List.mem_singleton]
      rintro rfl
      exact s3 hn

/-- Derived `Deserialize` of an enum is hygienic exactly under the conditions listed. -/
theorem C87_enum_de (S : Site) (d : Enum) : d.Hygienic S (deEnum d) ↔ d.DeFits S := by
  have hi : str! "miniserde" ∉ [str! "__Visitor"] := by decide
  have hv : str! "__Visitor" ∈ [str! "__Visitor"] := by decide
  show Clean S d.name [] [] (deEnum d) Scope.top ↔ _
  unfold deEnum
  rw [clean_items, clean_all]
  simp only [Scope.top]
  by_cases hc : Crate S []
  · have lt := fun (vars : List Bytes) {ns : Ns} {p : List Bytes} (hk : known ns p = true) =>
      lib_true (S := S) (id := d.name) (tp := []) (cp := []) (cps := []) (vars := vars) hi hc hk
    have bg := fun v => clean_begin (S := S) (id := d.name) (tp := []) (cp := []) (visitor := v) (cps := []) hi hc
    have hV := fun vars => clean_helper (S := S) (id := d.name) (tp := []) (cp := []) (sc := ⟨vars, [], [], [str! "__Visitor"]⟩) hv
    have id1 := fun vars => clean_ident (S := S) (id := d.name) (tp := []) (cp := []) (sc := ⟨vars, [], [], [str! "__Visitor"]⟩)
    have va := fun vars v => clean_variant (S := S) (id := d.name) (tp := []) (cp := []) (v := v) (sc := ⟨vars, [], [], [str! "__Visitor"]⟩)
    simp only [List.mem_singleton] at id1 va
    have f1 := fresh_iff (S := S) (x := str! "s") (sc := ⟨[], [], [], [str! "__Visitor"]⟩) List.not_mem_nil
    have f2 := fresh_iff (S := S) (x := str! "value") (sc := ⟨[str! "s"], [], [], [str! "__Visitor"]⟩) (by decide)
    have v1 := eq_true (clean_var (S := S) (id := d.name) (tp := []) (cp := []) (n := str! "s")
      (sc := ⟨[str! "s"], [], [], [str! "__Visitor"]⟩) List.mem_cons_self)
    have v2 := eq_true (clean_var (S := S) (id := d.name) (tp := []) (cp := []) (n := str! "value")
      (sc := ⟨[str! "value", str! "s"], [], [], [str! "__Visitor"]⟩) List.mem_cons_self)
    have nd : ([str! "__out"] : List Bytes).Nodup := by simp
    simp only [List.forall_mem_cons, List.not_mem_nil, false_imp_iff, implies_true, and_true, true_and, clean_all, priv, root, bg, hV, id1, clean_bind, f1, f2, v1, v2,
      clean_fields, List.forall_mem_map, va, nd, not_false_eq_true,
      lt _ (show known .ty [str! "__private", str! "Option"] = true by decide),
      lt _ (show known .ty [str! "__private", str! "str"] = true by decide),
      lt _ (show known .ty [str! "Deserialize"] = true by decide),
      lt _ (show known .ty [str! "Result"] = true by decide),
      lt _ (show known .ty [str! "de", str! "Visitor"] = true by decide),
      lt _ (show known .val [str! "__private", str! "Err"] = true by decide),
      lt _ (show known .val [str! "__private", str! "Some"] = true by decide),
      lt _ (show known .val [str! "__private", str! "Ok"] = true by decide),
      lt _ (show known .val [str! "Error"] = true by decide)]
    constructor
    · rintro ⟨⟨t, n⟩, -, fo, fs, -, fv⟩
      exact ⟨hc.1, t, n, fo, fs, fv⟩
    · rintro ⟨-, t, n, fo, fs, fv⟩
      exact ⟨⟨t, n⟩, ⟨t, n⟩, fo, fs, fun _ _ => ⟨t, n⟩, fv⟩
  · refine iff_of_false (fun h => hc ?_) (fun h => hc ⟨h.crate, List.not_mem_nil⟩)
    have := h _ (List.mem_cons_of_mem _ List.mem_cons_self)
    exact (clean_at hi (by decide)).1 this

/-- Derived `Serialize` of an enum is hygienic exactly under the conditions listed. -/
theorem C87_enum_ser (S : Site) (d : Enum) : d.Hygienic S (serEnum d) ↔ d.SerFits S := by
  have hi : str! "miniserde" ∉ ([] : List Bytes) := List.not_mem_nil
  show Clean S d.name [] [] (serEnum d) Scope.top ↔ _
  unfold serEnum
  rw [clean_all]
  simp only [Scope.top]
  by_cases hc : Crate S []
  · have lt := fun (vars : List Bytes) {ns : Ns} {p : List Bytes} (hk : known ns p = true) =>
      lib_true (S := S) (id := d.name) (tp := []) (cp := []) (cps := []) (vars := vars) hi hc hk
    have id1 := fun vars => clean_ident (S := S) (id := d.name) (tp := []) (cp := []) (sc := ⟨vars, [], [], []⟩)
    have va := fun vars v => clean_variant (S := S) (id := d.name) (tp := []) (cp := []) (v := v) (sc := ⟨vars, [], [], []⟩)
    simp only [List.forall_mem_cons, List.not_mem_nil, false_imp_iff, implies_true, and_true, true_and, clean_all, root, id1,
      List.forall_mem_map, va, not_false_eq_true,
      lt _ (show known .ty [str! "Serialize"] = true by decide),
      lt _ (show known .ty [str! "ser", str! "Fragment"] = true by decide),
      lt _ (show known .val [str! "ser", str! "Fragment", str! "Str"] = true by decide),
      lt _ (show known .val [str! "__private", str! "Cow", str! "Borrowed"] = true by decide)]
    constructor
    · rintro ⟨t, -⟩
      exact ⟨hc.1, t⟩
    · rintro ⟨-, t⟩
      exact ⟨t, fun _ _ => t⟩
  · refine iff_of_false (fun h => hc ?_) (fun h => hc ⟨h.crate, List.not_mem_nil⟩)
    have := h _ List.mem_cons_self
    exact (clean_at hi (by decide)).1 this

/-- Only these names of the module matter to the code derived for a struct: `miniserde`, the struct's own name, `Ok`, the names of its constant parameters, names that are constants,
and methods called `take`.  In particular the module may have its own `Option`, `Some`, `Box`, `Result`, `String`, `str`, `Visitor`, `Map`, `Error`, .. -/
theorem C87_other_names (S S' : Site) (d : Struct)
    (ht : ∀ x, x = str! "miniserde" ∨ x = d.name ∨ x ∈ d.cparams → S.types x = S'.types x)
    (ho : S.values (str! "Ok") = S'.values (str! "Ok")) (hf : S.fixed = S'.fixed) (hm : S.methods (str! "take") = S'.methods (str! "take")) :
    (d.Hygienic S (deStruct d) ↔ d.Hygienic S' (deStruct d)) ∧ (d.Hygienic S (serStruct d) ↔ d.Hygienic S' (serStruct d)) := by
  have key : ∀ S S' : Site, (∀ x, x = str! "miniserde" ∨ x = d.name ∨ x ∈ d.cparams → S.types x = S'.types x) →
      S.values (str! "Ok") = S'.values (str! "Ok") → S.fixed = S'.fixed → S.methods (str! "take") = S'.methods (str! "take") →
      (d.DeFits S → d.DeFits S') ∧ (d.SerFits S → d.SerFits S') := by
    intro S S' ht ho hf hm
    have hcom : d.Common S → d.Common S' := fun h =>
      ⟨(ht _ (.inl rfl)) ▸ h.crate, (ht _ (.inr (.inl rfl))) ▸ h.target, h.crateParam, h.targetParam, fun n hn hp => (ht n (.inr (.inr hn))) ▸ h.consts n hn hp⟩
    have hfree : ∀ x, Free S d.cparams x → Free S' d.cparams x := fun x h => ⟨hf ▸ h.1, h.2⟩
    refine ⟨fun h => ?_, fun h => ⟨hcom h.common, h.map, hfree _ h.vars⟩⟩
    exact ⟨hcom h.common, ⟨ho ▸ h.ok.1, h.ok.2⟩, h.visitor, h.state, h.fields, h.out,
      ⟨hfree _ h.vars.1, hfree _ h.vars.2.1, fun f hff => hfree _ (h.vars.2.2 f hff)⟩, fun hne => ⟨hm ▸ (h.takes hne).1, hm ▸ (h.takes hne).2⟩⟩
  have k1 := key S S' ht ho hf hm
  have k2 := key S' S (fun x hx => (ht x hx).symm) ho.symm hf.symm hm.symm
  rw [C87_struct_de, C87_struct_de, C87_struct_ser, C87_struct_ser]
  exact ⟨⟨k1.1, k2.1⟩, ⟨k1.2, k2.2⟩⟩

/-! ### Examples -/

/-- A module with the crate in scope, the struct or enum `Point`, a struct `Option` and an enum variant `Some` of its own. -/
def exSite : Site where
  types x :=
    if x = str! "miniserde" then some .crate
    else if x = str! "Point" then some .target
    else if x = str! "Option" then some (.other 1)
    else none
  values x := if x = str! "Ok" then some .ok else if x = str! "Some" then some (.other 2) else none
  fixed x := x == str! "Some"
  methods _ _ := false

/-- `struct Point<T: Clone, const N: usize> { x: T, r#s: [u8; N], miniserde: Option<T> }` -/
def exStruct : Struct where
  name := str! "Point"
  tparams := [str! "T"]
  cparams := [str! "N"]
  bounds := [(.ty, str! "Clone")]
  fields := [(str! "x", [(.arg, str! "T")]), (str! "s", [(.ty, str! "u8"), (.val, str! "N")]), (str! "miniserde", [(.ty, str! "Option"), (.arg, str! "T")])]

example : exStruct.Hygienic exSite (deStruct exStruct) :=
  (C87_struct_de _ _).2 ⟨⟨by decide, by decide, by decide, by decide, by decide⟩, by decide, ⟨by decide, by decide, by decide, by decide⟩,
    ⟨by decide, by decide, by decide, by decide⟩, by decide, by decide, by simp only [Free]; decide, fun _ => by simp only [Takes]; decide⟩

example : exStruct.Hygienic exSite (serStruct exStruct) :=
  (C87_struct_ser _ _).2 ⟨⟨by decide, by decide, by decide, by decide, by decide⟩, ⟨by decide, by decide, by decide, by decide⟩, by simp only [Free]; decide⟩

example : (Enum.mk (str! "Point") [str! "A", str! "Some"]).Hygienic exSite (deEnum ⟨str! "Point", [str! "A", str! "Some"]⟩) :=
  (C87_enum_de _ _).2 ⟨by decide, by decide, by decide, by simp only [Free]; decide⟩

example : (Enum.mk (str! "Point") [str! "A", str! "Some"]).Hygienic exSite (serEnum ⟨str! "Point", [str! "A", str! "Some"]⟩) :=
  (C87_enum_ser _ _).2 ⟨by decide, by decide⟩

/-- A module with its own `Ok` breaks derived `Deserialize` of structs, and nothing else. -/
example : ¬ exStruct.Hygienic { exSite with values := fun _ => some (.other 3) } (deStruct exStruct) ∧
    exStruct.Hygienic { exSite with values := fun _ => some (.other 3) } (serStruct exStruct) := by
  refine ⟨fun h => absurd ((C87_struct_de _ _).1 h).ok.1 (by decide), (C87_struct_ser _ _).2 ?_⟩
  exact ⟨⟨by decide, by decide, by decide, by decide, by decide⟩, ⟨by decide, by decide, by decide, by decide⟩, by simp only [Free]; decide⟩

/-- So does a trait in scope with a method `take(self)` for `Option<T>`. -/
example : ¬ exStruct.Hygienic { exSite with methods := fun m r => m == str! "take" && r == .val } (deStruct exStruct) :=
  fun h => absurd (((C87_struct_de _ _).1 h).takes (by decide)).1 (by decide)

/-- So does a field called `__out`, and a type called `__State` in the type of a field. -/
example : ¬ (Struct.mk (str! "Point") [] [] [] [(str! "__out", [])]).Hygienic exSite (deStruct ⟨str! "Point", [], [], [], [(str! "__out", [])]⟩) ∧
    ¬ (Struct.mk (str! "Point") [] [] [] [(str! "x", [(.ty, str! "__State")])]).Hygienic exSite
      (deStruct ⟨str! "Point", [], [], [], [(str! "x", [(.ty, str! "__State")])]⟩) :=
  ⟨fun h => absurd (((C87_struct_de _ _).1 h).out) (by decide), fun h => absurd (((C87_struct_de _ _).1 h).state.copied.1) (by decide)⟩

end Miniserde.Expand
