import Verif.Spec.Expand

namespace Miniserde.Expand

/-- All names of the code, in the scope, are as meant. -/
def Clean (S : Site) (id : Bytes) (tp cp : List Bytes) (t : Tm) (sc : Scope) : Prop :=
  ∀ o ∈ t.occs S id sc, o.AsMeant S tp cp

variable {S : Site} {id : Bytes} {tp cp : List Bytes}

theorem clean_nil {sc : Scope} : Clean S id tp cp .nil sc ↔ True := by
  simp [Clean, Tm.occs]

theorem clean_seq {a b : Tm} {sc : Scope} : Clean S id tp cp (.seq a b) sc ↔ Clean S id tp cp a sc ∧ Clean S id tp cp b sc := by
  simp only [Clean, Tm.occs, List.mem_append]
  exact ⟨fun h => ⟨fun o ho => h o (.inl ho), fun o ho => h o (.inr ho)⟩, fun h o ho => ho.elim (h.1 o) (h.2 o)⟩

theorem clean_all {ts : List Tm} {sc : Scope} : Clean S id tp cp (.all ts) sc ↔ ∀ t ∈ ts, Clean S id tp cp t sc := by
  induction ts with
  | nil => simp [Tm.all, clean_nil]
  | cons t ts ih => simp [Tm.all, clean_seq, ih]

theorem clean_map {α : Type} {f : α → Tm} {xs : List α} {sc : Scope} :
    Clean S id tp cp (.all (xs.map f)) sc ↔ ∀ x ∈ xs, Clean S id tp cp (f x) sc := by
  rw [clean_all]
  simp

theorem clean_use {src : Src} {sc : Scope} :
    Clean S id tp cp (.use src) sc ↔ src.Means (sc.path S (src.tokens id).1 (src.tokens id).2) := by
  simp [Clean, Tm.occs, Occ.AsMeant]

theorem clean_copied {ns : Ns} {x : Bytes} {sc : Scope} :
    Clean S id tp cp (.copied ns x) sc ↔ sc.name S ns x = Scope.name S ⟨[], tp, cp, []⟩ ns x := by
  simp [Clean, Tm.occs, Occ.AsMeant]

theorem clean_generics {ts cs : List Bytes} {b : Tm} {sc : Scope} :
    Clean S id tp cp (.generics ts cs b) sc ↔ Clean S id tp cp b { sc with tparams := ts, cparams := cs } := by
  simp [Clean, Tm.occs]

theorem clean_items {ns : List Bytes} {b : Tm} {sc : Scope} :
    Clean S id tp cp (.items ns b) sc ↔ Clean S id tp cp b { sc with items := ns } := by
  simp [Clean, Tm.occs]

theorem clean_bind {x : Bytes} {b : Tm} {sc : Scope} :
    Clean S id tp cp (.bind x b) sc ↔ sc.fresh S x = true ∧ Clean S id tp cp b { sc with vars := x :: sc.vars } := by
  simp [Clean, Tm.occs, Occ.AsMeant]

theorem clean_fields {ns : List Bytes} {sc : Scope} : Clean S id tp cp (.fields ns) sc ↔ ns.Nodup := by
  simp [Clean, Tm.occs, Occ.AsMeant]

theorem clean_method {m : Bytes} {sc : Scope} : Clean S id tp cp (.method m) sc ↔ probe S m = true := by
  simp [Clean, Tm.occs, Occ.AsMeant]

theorem probe_take : probe S (str! "take") = true ↔ Takes S := by
  have h1 : ((str! "take", Recv.val) ∈ inherent) = False := by simp only [eq_iff_iff, iff_false]; decide
  have h2 : ((str! "take", Recv.ref) ∈ inherent) = False := by simp only [eq_iff_iff, iff_false]; decide
  have h3 : ((str! "take", Recv.mut) ∈ inherent) = True := by simp only [eq_iff_iff, iff_true]; decide
  unfold probe Takes
  simp only [h1, h2, h3, if_false, decide_true]
  cases S.methods (str! "take") .val <;> cases S.methods (str! "take") .ref <;> simp

theorem probe_ok_or : probe S (str! "ok_or") = true := by
  have h1 : ((str! "ok_or", Recv.val) ∈ inherent) = True := by simp only [eq_iff_iff, iff_true]; decide
  unfold probe
  simp only [h1, if_true]

/-- What makes paths through the crate work. -/
def Crate (S : Site) (tp : List Bytes) : Prop := S.types (str! "miniserde") = some .crate ∧ str! "miniserde" ∉ tp

theorem clean_lib {ns : Ns} {p : List Bytes} {l : Lib} {sc : Scope} (hi : str! "miniserde" ∉ sc.items)
    (hl : inCrate .root ns p = some l) (hm : ((ns, p), l) ∈ libMeans) :
    Clean S id tp cp (.use (.lib ns p)) sc ↔ Crate S sc.tparams := by
  rw [clean_use]
  cases p with
  | nil => simp [inCrate] at hl
  | cons y rest =>
    simp only [Src.tokens, Src.Means, Scope.path, Scope.type, Crate, if_neg hi]
    by_cases h : str! "miniserde" ∈ sc.tparams
    · rw [if_pos h]; simp [h]
    · rw [if_neg h]
      cases e : S.types (str! "miniserde") with
      | none => simp
      | some x =>
        cases x with
        | crate => simp only [Option.map_some, hl]; exact ⟨fun _ => ⟨trivial, h⟩, fun _ => ⟨l, hm, rfl⟩⟩
        | target => 
          simp only [Option.map_some]
          by_cases hr : rest = [] <;> simp [hr]
        | ok => simp
        | other n => simp

theorem clean_ok {sc : Scope} (hv : str! "Ok" ∉ sc.vars) :
    Clean S id tp cp (.use .ok) sc ↔ S.values (str! "Ok") = some .ok ∧ str! "Ok" ∉ sc.cparams := by
  rw [clean_use]
  simp only [Src.tokens, Src.Means, Scope.path, Scope.name, Scope.value, if_neg hv]
  by_cases h : str! "Ok" ∈ sc.cparams
  · rw [if_pos h]; simp [h, found]
  · rw [if_neg h]
    cases e : S.values (str! "Ok") with
    | none => simp [found]
    | some x => cases x <;> simp [found, Entity.meaning, h]

theorem clean_ident {sc : Scope} :
    Clean S id tp cp (.use .ident) sc ↔ S.types id = some .target ∧ id ∉ sc.tparams ∧ id ∉ sc.items := by
  rw [clean_use]
  simp only [Src.tokens, Src.Means, Scope.path, Scope.name, Scope.type]
  by_cases h : id ∈ sc.tparams
  · rw [if_pos h]; simp [h, found]
  · rw [if_neg h]
    by_cases hi : id ∈ sc.items
    · rw [if_pos hi]; simp [hi, found]
    · rw [if_neg hi]
      cases e : S.types id with
      | none => simp [found]
      | some x => cases x <;> simp [found, Entity.meaning, h, hi]

theorem clean_variant {v : Bytes} {sc : Scope} :
    Clean S id tp cp (.use (.variant v)) sc ↔ S.types id = some .target ∧ id ∉ sc.tparams ∧ id ∉ sc.items := by
  rw [clean_use]
  simp only [Src.tokens, Src.Means, Scope.path, Scope.type]
  by_cases h : id ∈ sc.tparams
  · rw [if_pos h]; simp [h]
  · rw [if_neg h]
    by_cases hi : id ∈ sc.items
    · rw [if_pos hi]; simp [hi]
    · rw [if_neg hi]
      cases e : S.types id with
      | none => simp
      | some x =>
        cases x with
        | crate =>
          simp only [Option.map_some]
          cases inCrate .root .val [v] <;> simp
        | target => simp [h, hi]
        | ok => simp
        | other n => simp

theorem clean_tparam {n : Bytes} {sc : Scope} (h : n ∈ sc.tparams) : Clean S id tp cp (.use (.tparam n)) sc := by
  rw [clean_use]
  simp [Src.tokens, Src.Means, Scope.path, Scope.name, Scope.type, h, found]

theorem clean_cparam {n : Bytes} {sc : Scope} (h : n ∈ sc.cparams) (hv : n ∉ sc.vars) :
    Clean S id tp cp (.use (.cparam n)) sc ↔ (n ∉ sc.tparams → n ∉ sc.items ∧ S.types n = none) := by
  rw [clean_use]
  simp only [Src.tokens, Src.Means, Scope.path, Scope.name, Scope.type]
  by_cases ht : n ∈ sc.tparams
  · simp [ht, found]
  · rw [if_neg ht]
    by_cases hi : n ∈ sc.items
    · rw [if_pos hi]; simp [hi, ht, found]
    · rw [if_neg hi]
      cases e : S.types n with
      | none => simp [Scope.value, hv, h, found, hi]
      | some x => cases x <;> simp [found, Entity.meaning, ht]

theorem clean_helper {n : Bytes} {sc : Scope} (h : n ∈ sc.items) :
    Clean S id tp cp (.use (.helper n)) sc ↔ n ∉ sc.tparams := by
  rw [clean_use]
  simp only [Src.tokens, Src.Means, Scope.path, Scope.name, Scope.type]
  by_cases ht : n ∈ sc.tparams
  · simp [ht, found]
  · simp [ht, h, found]

theorem clean_var {n : Bytes} {sc : Scope} (h : n ∈ sc.vars) : Clean S id tp cp (.use (.var n)) sc := by
  rw [clean_use]
  simp [Src.tokens, Src.Means, Scope.path, Scope.name, Scope.value, h, found]

theorem fresh_iff {x : Bytes} {sc : Scope} (h : x ∉ sc.vars) : sc.fresh S x = true ↔ Free S sc.cparams x := by
  simp only [Scope.fresh, h, decide_false, Bool.false_or, Free]
  by_cases hc : x ∈ sc.cparams
  · simp [hc]
  · cases S.fixed x <;> simp [hc]

/-- User tokens keep their meaning unless they mention an item of the block. -/
theorem clean_user {ns : Ns} {x : Bytes} {items : List Bytes} :
    Clean S id tp cp (.copied ns x) ⟨[], tp, cp, items⟩ ↔ (ns ≠ .val → x ∉ tp → x ∉ items) := by
  rw [clean_copied]
  have e : ∀ m : Option Entity, ∀ n, found (m.map .inl) ≠ .helper n := by
    intro m n
    cases m with
    | none => simp [found]
    | some y => cases y <;> simp [found, Entity.meaning]
  have e2 : ∀ n, found (Scope.value S ⟨[], tp, cp, []⟩ x) ≠ .helper n := by
    intro n
    simp only [Scope.value, List.not_mem_nil, if_false]
    by_cases hc : x ∈ cp
    · simp [hc, found]
    · simp only [if_neg hc]; exact e _ n
  by_cases ht : x ∈ tp
  · cases ns <;> simp [Scope.name, Scope.type, Scope.value, ht]
  · by_cases hi : x ∈ items
    · cases ns with
      | val => simp [Scope.name, Scope.value]
      | ty =>
        simp only [Scope.name, Scope.type, if_neg ht, if_pos hi, List.not_mem_nil, if_false]
        refine ⟨fun h => absurd h.symm ?_, fun h => absurd hi (h (by simp) ht)⟩
        exact e _ x
      | arg =>
        simp only [Scope.name, Scope.type, if_neg ht, if_pos hi, List.not_mem_nil, if_false]
        refine ⟨fun h => absurd h.symm ?_, fun h => absurd hi (h (by simp) ht)⟩
        cases S.types x with
        | none => exact e2 x
        | some y => exact e (some y) x
    · refine ⟨fun _ _ _ => hi, fun _ => ?_⟩
      cases ns <;> simp [Scope.name, Scope.type, Scope.value, ht, hi]

/-- The path leads to the item it is meant for. -/
def known (ns : Ns) (p : List Bytes) : Bool :=
  match inCrate .root ns p with
  | some l => decide (((ns, p), l) ∈ libMeans)
  | none => false

theorem clean_known {ns : Ns} {p : List Bytes} {sc : Scope} (hi : str! "miniserde" ∉ sc.items) (hk : known ns p = true) :
    Clean S id tp cp (.use (.lib ns p)) sc ↔ Crate S sc.tparams := by
  unfold known at hk
  cases e : inCrate .root ns p with
  | none => rw [e] at hk; cases hk
  | some l => rw [e] at hk; exact clean_lib hi e (by simpa using hk)

theorem clean_at {ns : Ns} {p : List Bytes} {vars tps cps items : List Bytes} (hi : str! "miniserde" ∉ items) (hk : known ns p = true) :
    Clean S id tp cp (.use (.lib ns p)) ⟨vars, tps, cps, items⟩ ↔ Crate S tps := clean_known (sc := ⟨vars, tps, cps, items⟩) hi hk

/-- Facts about a struct in a block with the given items. -/
structure Base (S : Site) (d : Struct) (items : List Bytes) : Prop where
  crate : Crate S d.tparams
  target : S.types d.name = some .target ∧ d.name ∉ d.tparams ∧ d.name ∉ items
  consts : ∀ n ∈ d.cparams, n ∉ d.tparams → n ∉ items ∧ S.types n = none
  bounds : ∀ p ∈ d.bounds, p.1 ≠ .val → p.2 ∉ d.tparams → p.2 ∉ items

abbrev sc0 (d : Struct) (items : List Bytes) : Scope := ⟨[], d.tparams, d.cparams, items⟩

abbrev CleanD (S : Site) (d : Struct) (t : Tm) (sc : Scope) : Prop := Clean S d.name d.tparams d.cparams t sc

variable {d : Struct} {items : List Bytes}

theorem clean_copy {ms : List (Ns × Bytes)} :
    CleanD S d (copy ms) (sc0 d items) ↔ ∀ p ∈ ms, p.1 ≠ .val → p.2 ∉ d.tparams → p.2 ∉ items := by
  unfold CleanD copy
  rw [clean_map]
  simp only [clean_user]

theorem clean_applied {head : Src} {vars : List Bytes} (hv : ∀ n ∈ d.cparams, n ∉ vars) :
    CleanD S d (applied d head) ⟨vars, d.tparams, d.cparams, items⟩ ↔
      CleanD S d (.use head) ⟨vars, d.tparams, d.cparams, items⟩ ∧ ∀ n ∈ d.cparams, n ∉ d.tparams → n ∉ items ∧ S.types n = none := by
  unfold CleanD applied
  rw [clean_seq, clean_seq, clean_map, clean_map]
  refine and_congr_right fun _ => ?_
  constructor
  · exact fun h n hn => (clean_cparam (sc := ⟨vars, d.tparams, d.cparams, items⟩) hn (hv n hn)).1 (h.2 n hn)
  · refine fun h => ⟨fun n hn => clean_tparam hn, fun n hn => ?_⟩
    exact (clean_cparam (sc := ⟨vars, d.tparams, d.cparams, items⟩) hn (hv n hn)).2 (h n hn)

theorem clean_bounded {trait : Bytes} (hi : str! "miniserde" ∉ items) (hk : known .ty [trait] = true) (hc : Crate S d.tparams) :
    CleanD S d (bounded d trait) (sc0 d items) ↔ ∀ p ∈ d.bounds, p.1 ≠ .val → p.2 ∉ d.tparams → p.2 ∉ items := by
  unfold CleanD bounded
  rw [clean_seq, clean_map]
  refine ⟨fun h => (clean_copy (d := d)).1 h.1, fun h => ⟨(clean_copy (d := d)).2 h, fun n hn => ?_⟩⟩
  rw [clean_seq]
  exact ⟨clean_tparam hn, (clean_known hi hk).2 hc⟩

theorem clean_item {body : Tm} {sc : Scope} (hv : sc.vars = []) (hi : sc.items = items) :
    CleanD S d (item d body) sc ↔
      (∀ p ∈ d.bounds, p.1 ≠ .val → p.2 ∉ d.tparams → p.2 ∉ items) ∧ CleanD S d body (sc0 d items) := by
  obtain ⟨v, t, c, i⟩ := sc
  subst hv hi
  unfold CleanD item
  rw [clean_generics, clean_seq]
  exact and_congr_left fun _ => clean_copy

theorem clean_begin {id : Bytes} {tp cp : List Bytes} {visitor : Tm} {tps cps : List Bytes} (hi : str! "miniserde" ∉ items) (hc : Crate S tps) :
    Clean S id tp cp (beginBody visitor) ⟨[], tps, cps, items⟩ ↔
      Free S cps (str! "__out") ∧ Clean S id tp cp visitor ⟨[str! "__out"], tps, cps, items⟩ := by
  have k1 : known .ty [str! "__private", str! "Option"] = true := by decide
  have k2 : known .ty [str! "de", str! "Visitor"] = true := by decide
  unfold beginBody priv
  simp only [clean_all, List.forall_mem_cons, List.not_mem_nil, false_imp_iff, implies_true, and_true, clean_bind, clean_at hi k1, clean_at hi k2]
  rw [fresh_iff (sc := ⟨[], tps, cps, items⟩) (List.not_mem_nil)]
  constructor
  · exact fun h => ⟨h.2.2.1, h.2.2.2.2.2⟩
  · exact fun h => ⟨hc, hc, h.1, clean_var (List.mem_cons_self), hc, h.2⟩

theorem clean_lets {rest : Tm} (hi : str! "miniserde" ∉ items) (hc : Crate S d.tparams) : ∀ (fs vars : List Bytes), (fs ++ vars).Nodup →
    (CleanD S d (lets fs rest) ⟨vars, d.tparams, d.cparams, items⟩ ↔
      (fs ≠ [] → Takes S) ∧ (∀ f ∈ fs, Free S d.cparams f) ∧ CleanD S d rest ⟨fs.reverse ++ vars, d.tparams, d.cparams, items⟩)
  | [], vars, _ => by simp [lets]
  | f :: fs, vars, hn => by
    have k : known .val [str! "Error"] = true := by decide
    have hn' : (fs ++ f :: vars).Nodup := by
      have : (fs ++ f :: vars).Perm (f :: fs ++ vars) := List.perm_middle
      exact this.nodup_iff.2 hn
    have hf : f ∉ vars := by
      intro h
      simp only [List.cons_append, List.nodup_cons] at hn
      exact hn.1 (List.mem_append_right _ h)
    unfold CleanD lets root
    simp only [clean_seq, clean_all, List.forall_mem_cons, List.not_mem_nil, false_imp_iff, implies_true, and_true, clean_bind, clean_method, probe_take,
      probe_ok_or, clean_at hi k]
    have ih := clean_lets (rest := rest) hi hc fs (f :: vars) hn'
    unfold CleanD at ih
    rw [ih, fresh_iff (sc := ⟨vars, d.tparams, d.cparams, items⟩) hf]
    simp only [List.reverse_cons, List.append_assoc, List.singleton_append]
    constructor
    · exact fun h => ⟨fun _ => h.1.1, ⟨h.2.1, h.2.2.2.1⟩, h.2.2.2.2⟩
    · exact fun h => ⟨⟨h.1 (by simp), trivial, hc⟩, h.2.1.1, fun _ => h.1 (by simp), h.2.1.2, h.2.2⟩

end Miniserde.Expand
