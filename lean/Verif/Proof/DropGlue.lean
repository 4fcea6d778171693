import Verif.Spec.DropGlue
import Verif.Proof.Client
import Verif.Proof.Drop
import Verif.Proof.Monitor
import Verif.Proof.Utf8
import Verif.Proof.FloatFinite
import Verif.Proof.Typed

/-!
# Destructors of typed values; `from_str` as a program that uses visitors
-/

namespace Miniserde
variable {E : Env}

/-! ## Drop glue -/

theorem DropFits.mono : ∀ {d e : Nat} {t : Ty} {v : Val}, d ≤ e → DropFits E d t v → DropFits E e t v := by
  intro d
  induction d with
  | zero =>
    intro e t v hd h
    unfold DropFits at h ⊢
    split at h <;> try exact h.elim
    all_goals first
      | exact fun n => Nat.le_trans (h n) hd
      | (exfalso; rename_i heq; exact Nat.succ_ne_zero _ heq.symm)
      | simp_all
  | succ d ih =>
    intro e t v hd h
    obtain ⟨e, rfl⟩ : ∃ e', e = e' + 1 := ⟨e - 1, by omega⟩
    have hd' : d ≤ e := by omega
    unfold DropFits at h ⊢
    split at h
    all_goals first
      | exact fun n => Nat.le_trans (h n) hd
      | (rename_i heq; cases heq; first
          | exact ih hd' h
          | exact ⟨ih hd' h.1, ih hd' h.2⟩
          | exact fun v hv => ih hd' (h v hv)
          | exact fun j f v h1 h2 => ih hd' (h j f v h1 h2))
      | trivial

/-- The type bounds what dropping a value takes. -/
theorem fits_of_type {g : Nat → Nat} (hg : Flat E g) {t : Ty} {v : Val} (h : HasTy E t v) : DropFits E (t.glue g) t v := by
  have hv : ∀ v : Val, DropFits E 5 .value v := fun v n => (drops_value v.dnode).runs.2 n
  induction h with
  | numU ht | numI ht | numF ht => rcases ht with rfl | rfl <;> first | exact hv _ | (simp [DropFits, Ty.glue])
  | vNull | vBool | vStr => exact hv _
  | array ht => rcases ht with rfl | rfl <;> first | exact hv _ | exact fun n => Nat.le_succ_of_le ((drops_array 0 _).runs.2 n)
  | object ht => rcases ht with rfl | rfl <;> first | exact hv _ | exact fun n => Nat.le_succ_of_le ((drops_object 0 _).runs.2 n)
  | box _ ih => exact ih
  | some _ ih => exact ih
  | tup _ _ ih1 ih2 => exact ⟨ih1.mono (Nat.le_max_left _ _), ih2.mono (Nat.le_max_right _ _)⟩
  | vec _ ih => exact ih
  | arr _ _ ih => exact ih
  | hmap _ _ _ ih => exact ih
  | bmap _ _ _ ih => exact ih
  | strct _ _ ih => exact fun j f v h1 h2 => (ih j f v h1 h2).mono (hg _ f (List.mem_of_getElem? h1))
  | _ => simp [DropFits, Ty.glue]

/-! ## What memory holds -/

theorem field_glue {g : Nat → Nat} (hg : Flat E g) {T : Ty} {k : Bool} {core : Core} (h : CoreOk E T k core) {t : Ty} {v : Val} (hh : core.Holds E t v) :
    HasTy E t v ∧ t.glue g ≤ T.glue g := by
  cases h with
  | vec hT hd he =>
    obtain ⟨rfl, hh⟩ := hh
    refine ⟨hh.elim (hd v) (he v), ?_⟩
    rcases hT with rfl | ⟨rfl | rfl, rfl⟩ <;> simp [Ty.glue]
  | arr hl hlen hs he =>
    obtain ⟨rfl, hh⟩ := hh
    refine ⟨?_, by simp [Ty.glue]⟩
    rcases hh with hh | hh
    · obtain ⟨j, hj⟩ := List.mem_iff_getElem?.1 hh
      exact (hs j _ hj).1 v rfl
    · exact he v hh
  | tup hx hy =>
    rcases hh with ⟨rfl, hh⟩ | ⟨rfl, hh⟩
    · exact ⟨hx v hh, by simp only [Ty.glue]; omega⟩
    · exact ⟨hy v hh, by simp only [Ty.glue]; omega⟩
  | map hk hm _ hv =>
    obtain ⟨rfl, hh⟩ := hh
    refine ⟨?_, by cases hk <;> simp [Ty.glue]⟩
    rcases hh with ⟨x, hh⟩ | hh
    · cases hk with
      | hash =>
        cases hm with
        | hmap _ _ h => exact h _ hh
        | object ht => rcases ht with e | e <;> cases e
      | btree =>
        cases hm with
        | bmap _ _ h => exact h _ hh
        | object ht => rcases ht with e | e <;> cases e
      | object => cases hm with | object _ _ _ h => exact h _ hh
      | value => cases hm with | object _ _ _ h => exact h _ hh
    · exact hv v hh
  | strct hl h =>
    obtain ⟨j, f, h1, rfl, h2⟩ := hh
    exact ⟨h j f _ h1 h2 v rfl, Nat.le_succ_of_le (hg _ f (List.mem_of_getElem? h1))⟩

/-- The type of a field of a builder. -/
theorem fieldTy_glue {g : Nat → Nat} (hg : Flat E g) {T : Ty} {k : Bool} {core : Core} (h : CoreOk E T k core) {f : Nat} {t : Ty} (hf : core.fieldTy E f = some t) :
    t.glue g ≤ T.glue g := by
  cases h with
  | vec hT =>
    rcases f with _ | f <;> simp only [Core.fieldTy, Option.some.injEq, reduceCtorEq] at hf
    subst hf
    rcases hT with rfl | ⟨rfl | rfl, rfl⟩ <;> simp [Ty.glue]
  | arr =>
    rcases f with _ | f <;> simp only [Core.fieldTy, Option.some.injEq, reduceCtorEq] at hf
    subst hf; simp [Ty.glue]
  | tup =>
    rcases f with _ | _ | f <;> simp only [Core.fieldTy, Option.some.injEq, reduceCtorEq] at hf <;> subst hf <;> simp only [Ty.glue] <;> omega
  | map hk =>
    rcases f with _ | f <;> simp only [Core.fieldTy, Option.some.injEq, reduceCtorEq] at hf
    subst hf
    cases hk <;> simp [Ty.glue]
  | strct =>
    simp only [Core.fieldTy, Option.map_eq_some_iff] at hf
    obtain ⟨x, h1, rfl⟩ := hf
    exact Nat.le_succ_of_le (hg _ x (List.mem_of_getElem? h1))

/-- What the objects of a chain of builders hold. -/
theorem Chain.holds {gl : Nat → Nat} (hg : Flat E gl) {m : Mem} {g : Nat → Ty} {t : Ty} {k : Bool} {p : Ptr} {q : BH} {a : Nat} {fp : List Nat}
    (h : Chain E m g t k p q a fp) : (∀ x ∈ fp, ∀ o, m x = some o → ∀ t' v, o.Holds E (g x) t' v → HasTy E t' v ∧ t'.glue gl ≤ t.glue gl) ∧
      ∀ out core f t', m a = some (.builder out core) → core.fieldTy E f = some t' → t'.glue gl ≤ t.glue gl := by
  induction h with
  | base hb hm hc hp =>
    refine ⟨fun x hx o ho t' v hh => ?_, fun out core f t' ho hf => ?_⟩
    · rw [List.mem_singleton.1 hx, hm] at ho
      cases ho
      exact field_glue hg hc hh
    · rw [hm] at ho
      cases ho
      exact fieldTy_glue hg hc hf
  | opt _ ih =>
    exact ⟨fun x hx o ho t' v hh => ⟨(ih.1 x hx o ho t' v hh).1, Nat.le_succ_of_le (ih.1 x hx o ho t' v hh).2⟩,
      fun out core f t' ho hf => Nat.le_succ_of_le (ih.2 out core f t' ho hf)⟩
  | @box t k p b s q' a fp c hm hq hs hgs hp h ih =>
    refine ⟨fun x hx o ho t' v hh => ?_, fun out core f t' ho hf => Nat.le_succ_of_le (ih.2 out core f t' ho hf)⟩
    rcases List.mem_cons.1 hx with rfl | hx
    · rw [hm] at ho
      cases ho
      exact hh.elim
    · rcases List.mem_cons.1 hx with rfl | hx
      · obtain ⟨y, hy, hc⟩ := h.place.read
        rw [hs] at ho
        cases ho
        obtain ⟨rfl, rfl⟩ := hh
        simp only [Mem.read, hs, Option.bind_some, Obj.get, readD, Option.some.injEq] at hy
        subst hy
        rw [hgs]
        exact ⟨hc v rfl, Nat.le_succ _⟩
      · exact ⟨(ih.1 x hx o ho t' v hh).1, Nat.le_succ_of_le (ih.1 x hx o ho t' v hh).2⟩

theorem Closed.holds {m : Mem} {g : Nat → Ty} {t : Ty} {p : Ptr} {q : BH} {fp : List Nat} (h : Closed E m g t p q fp) :
    ∀ x ∈ fp, ∀ o, m x = some o → ∀ t' v, ¬ o.Holds E (g x) t' v := by
  induction h with
  | box hm hs _ =>
    intro x hx o ho t' v hh
    simp only [List.mem_cons, List.not_mem_nil, or_false] at hx
    rcases hx with rfl | rfl
    · rw [hm] at ho
      cases ho
      exact hh
    · rw [hs] at ho
      cases ho
      cases hh.2
  | opt _ ih => exact ih

/-- What is used for a variable holds nothing that takes longer to drop than the variable's type says. -/
theorem Stack.holds {gl : Nat → Nat} (hg : Flat E gl) {m : Mem} {g : Nat → Ty} {root : Nat} {T : Ty} {refs : List Hold} {fp : List Nat} (h : Stack E m g root T refs fp) :
    (∀ x ∈ fp, ∀ o, m x = some o → ∀ t' v, o.Holds E (g x) t' v → HasTy E t' v ∧ t'.glue gl ≤ T.glue gl) ∧
      ∀ t p r, refs = .visitor (.place t p) :: r → t.glue gl ≤ T.glue gl := by
  induction h with
  | nil hm hc hgr hT =>
    refine ⟨fun x hx o ho t' v hh => ?_, fun t p r e => nomatch e⟩
    rw [List.mem_singleton.1 hx, hm] at ho
    cases ho
    rw [List.mem_singleton.1 hx, hgr] at hh
    obtain ⟨rfl, rfl⟩ := hh
    exact ⟨hc v rfl, Nat.le_refl _⟩
  | root _ ih => exact ⟨ih.1, fun t p r e => by cases e; exact Nat.le_refl _⟩
  | build h hl hn ih =>
    refine ⟨fun x hx o ho t' v hh => ?_, fun t p r e => nomatch e⟩
    rcases List.mem_append.1 hx with hx | hx
    · have hle := ih.2 _ _ _ rfl
      cases hl with
      | chain hc _ => exact ⟨((hc.holds hg).1 x hx o ho t' v hh).1, Nat.le_trans ((hc.holds hg).1 x hx o ho t' v hh).2 hle⟩
      | closed hc => exact (hc.holds x hx o ho t' v hh).elim
    · exact ih.1 x hx o ho t' v hh
  | child h hc hn ha hf ih =>
    have hle := ih.2 _ _ _ rfl
    refine ⟨fun x hx o ho t' v hh => ?_, fun t p r e => ?_⟩
    · rcases List.mem_append.1 hx with hx | hx
      · exact ⟨((hc.holds hg).1 x hx o ho t' v hh).1, Nat.le_trans ((hc.holds hg).1 x hx o ho t' v hh).2 hle⟩
      · exact ih.1 x hx o ho t' v hh
    · cases e
      exact Nat.le_trans ((hc.holds hg).2 _ _ _ _ ha hf) hle
  | ignV _ ih => exact ⟨ih.1, fun t p r e => nomatch e⟩
  | ignB _ ih => exact ⟨ih.1, fun t p r e => nomatch e⟩

theorem Stack.root_ty {m : Mem} {g : Nat → Ty} {root : Nat} {T : Ty} {refs : List Hold} {fp : List Nat} (h : Stack E m g root T refs fp) : g root = T := by
  induction h with
  | nil _ _ hgr _ => exact hgr
  | root _ ih => exact ih
  | build _ _ _ ih => exact ih
  | child _ _ _ _ _ ih => exact ih
  | ignV _ ih => exact ih
  | ignB _ ih => exact ih

theorem Vars.owner {m : Mem} {g : Nat → Ty} {vars : List OutVar} {F : List Nat} (h : Vars E m g vars F) {x : Nat} (hx : x ∈ F) :
    ∃ w ∈ vars, ∃ fp, Stack E m g w.addr w.ty w.refs fp ∧ x ∈ fp := by
  induction h with
  | nil => cases hx
  | @cons y rest fp F hs hr ih =>
    rcases List.mem_append.1 hx with hx | hx
    · exact ⟨y, List.mem_cons_self, fp, hs, hx⟩
    · obtain ⟨w, h1, h2⟩ := ih hx
      exact ⟨w, List.mem_cons_of_mem _ h1, h2⟩

/-- For all programs. -/
theorem reach_holds (hE : E.Lawful) {gl : Nat → Nat} (hg : Flat E gl) {c : Client} (hr : CReach E false c) :
    ∃ decl : Nat → Ty, (∀ w ∈ c.vars, decl w.addr = w.ty) ∧ ∀ x o, c.heap.mem x = some o → ∀ t v, o.Holds E (decl x) t v →
      HasTy E t v ∧ ∃ w ∈ c.vars, t.glue gl ≤ w.ty.glue gl := by
  obtain ⟨F, L, g, hI, hL⟩ := inv_reach hE hr
  refine ⟨g, fun w hw => ?_, fun x o ho t v hh => ?_⟩
  · obtain ⟨fp, hs, -⟩ := hI.vars.mem hw
    exact hs.root_ty
  · have hx : x ∈ F := by
      have := (hI.all x).1 (by rw [ho]; simp)
      rwa [hL rfl, List.append_nil] at this
    obtain ⟨w, hw, fp, hs, hx⟩ := hI.vars.owner hx
    have := (hs.holds hg).1 x hx o ho t v hh
    exact ⟨this.1, w, hw, this.2⟩

/-! ## `from_str` is such a program -/

mutual

/-- All arguments passed to visitors are of their Rust types. -/
def PT.Legal : PT → Prop
  | .leaf ev => ev.Legal
  | .bad _ => True
  | .seq xs _ => PT.LegalL xs
  | .map ms _ => PT.LegalM ms

def PT.LegalL : List PT → Prop
  | [] => True
  | x :: xs => x.Legal ∧ PT.LegalL xs

def PT.LegalM : List (Bytes × PT) → Prop
  | [] => True
  | (k, x) :: ms => ValidUtf8 k ∧ x.Legal ∧ PT.LegalM ms

end

theorem event_legal {d d' : De} {ev : Event} (h : d.event = .ok (ev, d')) (hl : ev.isLeaf = true) (hv : ValidUtf8 d.rest) : ev.Legal := by
  obtain ⟨w, t, hw, ht, te⟩ := event_ok_spec h
  rw [te.rest, List.append_assoc] at hv
  cases ht with
  | num l hwf ev he =>
    rcases numEvent_range he with ⟨n, rfl, h1, -⟩ | ⟨z, rfl, h1, h2, -⟩ | ⟨m, e, rfl, h1⟩
    · exact h1
    · exact ⟨h1, Int.le_trans h2 (by decide)⟩
    · exact h1
  | str hs => exact (jstring_valid hs (valid_drop_ascii (ws_ascii hw) hv)).1
  | _ => trivial

mutual

theorem PVal.legal : ∀ {d t o} (_ : PVal d t o), ValidUtf8 d.rest → t.Legal
  | _, _, _, .err _, _ => trivial
  | _, _, _, .panic _, _ => trivial
  | _, _, _, .leaf h hl, hv => event_legal h hl hv
  | _, _, _, .seq h hs, hv => hs.legal (event_valid h hv).1
  | _, _, _, .map h hs, hv => hs.legal (event_valid h hv).1

theorem PElems.legal : ∀ {ac d xs e o} (_ : PElems ac d xs e o), ValidUtf8 d.rest → PT.LegalL xs
  | _, _, _, _, _, .close _, _ => trivial
  | _, _, _, _, _, .stop _, _ => trivial
  | _, _, _, _, _, .child h hx hr, hv =>
    ⟨hx.legal ((sepStep_valid (by simp) hv).2 _ h), hr.legal ((hx.valid ((sepStep_valid (by simp) hv).2 _ h)).2 _ rfl)⟩
  | _, _, _, _, _, .last h hx, hv => ⟨hx.legal ((sepStep_valid (by simp) hv).2 _ h), trivial⟩

theorem PMembers.legal : ∀ {ac d xs e o} (_ : PMembers ac d xs e o), ValidUtf8 d.rest → PT.LegalM xs
  | _, _, _, _, _, .close _, _ => trivial
  | _, _, _, _, _, .stop _, _ => trivial
  | _, _, _, _, _, .keyStop _ _, _ => trivial
  | _, _, _, _, _, .noColon h hk, hv => ⟨(keyStep_valid ((sepStep_valid (by simp) hv).2 _ h)).2 _ hk, trivial, trivial⟩
  | _, _, _, _, _, .child h hk hx hr, hv => by
    obtain ⟨h0, h00⟩ := (keyStep_valid ((sepStep_valid (by simp) hv).2 _ h)).1 _ _ hk
    exact ⟨h0, hx.legal h00, hr.legal ((hx.valid h00).2 _ rfl)⟩
  | _, _, _, _, _, .last h hk hx, hv => by
    obtain ⟨h0, h00⟩ := (keyStep_valid ((sepStep_valid (by simp) hv).2 _ h)).1 _ _ hk
    exact ⟨h0, hx.legal h00, trivial⟩

end

section
variable (E) (T : Ty) (a : Nat)

/-- A moment of a program with one variable. -/
def Moment (h : Heap) : Prop := ∃ refs, CReach E false ⟨h, [⟨T, a, refs⟩]⟩

/-- The program is at `h`, with these references, and has been at all moments of the record. -/
def AtRef (refs : List Hold) (w : Heap × List Heap) : Prop := CReach E false ⟨w.1, [⟨T, a, refs⟩]⟩ ∧ ∀ h ∈ w.2, Moment E T a h

variable {E T a}

theorem AtRef.next {refs refs' : List Hold} {w : Heap × List Heap} (h : AtRef E T a refs w) {p : Bool} {h' : Heap}
    (s : CStep E ⟨w.1, [] ++ ⟨T, a, refs⟩ :: []⟩ p ⟨h', [] ++ ⟨T, a, refs'⟩ :: []⟩) : AtRef E T a refs' (h', h' :: w.2) := by
  have hr : CReach E false ⟨h', [⟨T, a, refs'⟩]⟩ := .step h.1 s
  refine ⟨hr, fun x hx => ?_⟩
  rcases List.mem_cons.1 hx with rfl | hx
  · exact ⟨refs', hr⟩
  · exact h.2 x hx

theorem AtRef.same {refs refs' : List Hold} {w : Heap × List Heap} (h : AtRef E T a refs w) {p : Bool}
    (s : CStep E ⟨w.1, [] ++ ⟨T, a, refs⟩ :: []⟩ p ⟨w.1, [] ++ ⟨T, a, refs'⟩ :: []⟩) : AtRef E T a refs' w := ⟨.step h.1 s, h.2⟩

theorem note_ok {σ α : Type} {H : List σ} {f : Res α × σ} {r : Res α} {w1 : σ} (h : f = (r, w1)) : noteRes H f = (r, (w1, w1 :: H)) := by rw [noteRes, h]

mutual

theorem rec_val (v : VH) (refs : List Hold) : ∀ (x : PT) (h : Heap) (H : List Heap), x.Legal → AtRef E T a (.visitor v :: refs) (h, H) →
    ∃ r h' H', drivePT (lib E) v x h = (r, h') ∧ drivePT (lib E).recorded v x (h, H) = (r, (h', H')) ∧ AtRef E T a (.visitor v :: refs) (h', H')
  | .leaf ev, h, H, hl, hr => by
    have key : ev.Legal → AtRef E T a (.visitor v :: refs) ((leafAt E v ev h).2, (leafAt E v ev h).2 :: H) := fun he => hr.next (.leaf ev he)
    cases ev <;> first
      | exact ⟨_, _, _, drivePT.eq_1 (lib E) v h _, drivePT.eq_1 (lib E).recorded v (h, H) _, key hl⟩
      | exact hl.elim
  | .bad p, h, H, hl, hr => ⟨_, _, H, drivePT.eq_2 (lib E) v h p, drivePT.eq_2 (lib E).recorded v (h, H) p, hr⟩
  | .seq xs e, h, H, hl, hr => by
    have hs := hr.next (.open (v := v) (refs := refs) false)
    rcases hq : openV E v false h with ⟨r, h1⟩
    simp only [hq] at hs
    have hq' : (lib E).seq v h = (r, h1) := hq
    cases r with
    | ok q =>
      obtain ⟨r', h', H', fin, e1, e2, h2⟩ := rec_elems q false (.visitor v :: refs) xs e h1 _ hl hs
      refine ⟨_, _, _, (seq_ok hq').trans (congrArg (fun z => (z.1, (lib E).dropSeq q z.2)) e1),
        (seq_ok (P := (lib E).recorded) (note_ok hq')).trans (congrArg (fun z => (z.1, (lib E).recorded.dropSeq q z.2)) e2), h2.next .drop⟩
    | err => exact ⟨_, _, _, seq_err hq', seq_err (P := (lib E).recorded) (note_ok hq'), hs⟩
    | panic => exact ⟨_, _, _, seq_panic hq', seq_panic (P := (lib E).recorded) (note_ok hq'), hs⟩
  | .map xs e, h, H, hl, hr => by
    have hs := hr.next (.open (v := v) (refs := refs) true)
    rcases hq : openV E v true h with ⟨r, h1⟩
    simp only [hq] at hs
    have hq' : (lib E).map v h = (r, h1) := hq
    cases r with
    | ok q =>
      obtain ⟨r', h', H', fin, e1, e2, h2⟩ := rec_members q false (.visitor v :: refs) xs e h1 _ hl hs
      refine ⟨_, _, _, (map_ok hq').trans (congrArg (fun z => (z.1, (lib E).dropMap q z.2)) e1),
        (map_ok (P := (lib E).recorded) (note_ok hq')).trans (congrArg (fun z => (z.1, (lib E).recorded.dropMap q z.2)) e2), h2.next .drop⟩
    | err => exact ⟨_, _, _, map_err hq', map_err (P := (lib E).recorded) (note_ok hq'), hs⟩
    | panic => exact ⟨_, _, _, map_panic hq', map_panic (P := (lib E).recorded) (note_ok hq'), hs⟩

theorem rec_elems (q : BH) (fin : Bool) (refs : List Hold) : ∀ (xs : List PT) (e : End) (h : Heap) (H : List Heap), PT.LegalL xs →
    AtRef E T a (.builder q false fin :: refs) (h, H) →
    ∃ r h' H' fin', driveElemsPT (lib E) q xs e h = (r, h') ∧ driveElemsPT (lib E).recorded q xs e (h, H) = (r, (h', H')) ∧
      AtRef E T a (.builder q false fin' :: refs) (h', H')
  | [], .closed, h, H, hl, hr => by
    have hs := hr.next (.finish (q := q) (k := false) (fin := fin) (refs := refs))
    have key : ∃ fin', AtRef E T a (.builder q false fin' :: refs) ((finishB E q h).2, (finishB E q h).2 :: H) := by
      cases hf : (finishB E q h).1 with
      | ok u => rw [hf] at hs; exact ⟨true, hs⟩
      | err => rw [hf] at hs; exact ⟨fin, hs⟩
      | panic => rw [hf] at hs; exact ⟨fin, hs⟩
    obtain ⟨fin', key⟩ := key
    exact ⟨_, _, _, fin', driveElemsPT.eq_1 (lib E) q h, driveElemsPT.eq_1 (lib E).recorded q (h, H), key⟩
  | [], .stop p, h, H, hl, hr => ⟨_, _, H, fin, driveElemsPT.eq_2 (lib E) q h p, driveElemsPT.eq_2 (lib E).recorded q (h, H) p, hr⟩
  | x :: xs, e, h, H, hl, hr => by
    have hs := hr.next (.element (q := q) (fin := fin) (refs := refs))
    rcases hq : childB E q none h with ⟨r, h1⟩
    simp only [hq] at hs
    have hq' : (lib E).element q h = (r, h1) := hq
    cases r with
    | ok v =>
      obtain ⟨r2, h2, H1, hx, e1, h1'⟩ := rec_val v (.builder q false fin :: refs) x h1 _ hl.1 hs
      have hrel := h1'.same .release
      cases r2 with
      | ok u =>
        obtain ⟨r3, h3, H2, fin2, e2, e2', h2'⟩ := rec_elems q fin refs xs e h2 H1 hl.2 hrel
        exact ⟨_, _, H2, fin2, (elem_ok hq' hx).trans e2, (elem_ok (P := (lib E).recorded) (note_ok hq') e1).trans e2', h2'⟩
      | err => exact ⟨_, _, _, fin, elem_err' hq' hx, elem_err' (P := (lib E).recorded) (note_ok hq') e1, hrel⟩
      | panic => exact ⟨_, _, _, fin, elem_panic' hq' hx, elem_panic' (P := (lib E).recorded) (note_ok hq') e1, hrel⟩
    | err => exact ⟨_, _, _, fin, elem_err hq', elem_err (P := (lib E).recorded) (note_ok hq'), hs⟩
    | panic => exact ⟨_, _, _, fin, elem_panic hq', elem_panic (P := (lib E).recorded) (note_ok hq'), hs⟩

theorem rec_members (q : BH) (fin : Bool) (refs : List Hold) : ∀ (xs : List (Bytes × PT)) (e : End) (h : Heap) (H : List Heap), PT.LegalM xs →
    AtRef E T a (.builder q true fin :: refs) (h, H) →
    ∃ r h' H' fin', driveMembersPT (lib E) q xs e h = (r, h') ∧ driveMembersPT (lib E).recorded q xs e (h, H) = (r, (h', H')) ∧
      AtRef E T a (.builder q true fin' :: refs) (h', H')
  | [], .closed, h, H, hl, hr => by
    have hs := hr.next (.finish (q := q) (k := true) (fin := fin) (refs := refs))
    have key : ∃ fin', AtRef E T a (.builder q true fin' :: refs) ((finishB E q h).2, (finishB E q h).2 :: H) := by
      cases hf : (finishB E q h).1 with
      | ok u => rw [hf] at hs; exact ⟨true, hs⟩
      | err => rw [hf] at hs; exact ⟨fin, hs⟩
      | panic => rw [hf] at hs; exact ⟨fin, hs⟩
    obtain ⟨fin', key⟩ := key
    exact ⟨_, _, _, fin', driveMembersPT.eq_1 (lib E) q h, driveMembersPT.eq_1 (lib E).recorded q (h, H), key⟩
  | [], .stop p, h, H, hl, hr => ⟨_, _, H, fin, driveMembersPT.eq_2 (lib E) q h p, driveMembersPT.eq_2 (lib E).recorded q (h, H) p, hr⟩
  | (k, x) :: xs, e, h, H, hl, hr => by
    have hs := hr.next (.key (q := q) (fin := fin) (refs := refs) k hl.1)
    rcases hq : childB E q (some k) h with ⟨r, h1⟩
    simp only [hq] at hs
    have hq' : (lib E).key q k h = (r, h1) := hq
    cases r with
    | ok v =>
      obtain ⟨r2, h2, H1, hx, e1, h1'⟩ := rec_val v (.builder q true fin :: refs) x h1 _ hl.2.1 hs
      have hrel := h1'.same .release
      cases r2 with
      | ok u =>
        obtain ⟨r3, h3, H2, fin2, e2, e2', h2'⟩ := rec_members q fin refs xs e h2 H1 hl.2.2 hrel
        exact ⟨_, _, H2, fin2, (key_ok hq' hx).trans e2, (key_ok (P := (lib E).recorded) (note_ok hq') e1).trans e2', h2'⟩
      | err => exact ⟨_, _, _, fin, key_err' hq' hx, key_err' (P := (lib E).recorded) (note_ok hq') e1, hrel⟩
      | panic => exact ⟨_, _, _, fin, key_panic' hq' hx, key_panic' (P := (lib E).recorded) (note_ok hq') e1, hrel⟩
    | err => exact ⟨_, _, _, fin, key_err hq', key_err (P := (lib E).recorded) (note_ok hq'), hs⟩
    | panic => exact ⟨_, _, _, fin, key_panic hq', key_panic (P := (lib E).recorded) (note_ok hq'), hs⟩

end

end

/-- `from_str` is one of the programs that use visitors and builders. -/
theorem from_str_client (E : Env) {T : Ty} (hT : T.Small) {s : Bytes} (hs : ValidUtf8 s) :
    ∃ r h H, fromStrImpl (lib E) s (.place T ⟨0, 0, 0⟩) Heap.init = some (r, h) ∧
      fromStrImpl (lib E).recorded s (.place T ⟨0, 0, 0⟩) (Heap.init, []) = some (r, (h, H)) ∧
      AtRef E T 0 [.visitor (.place T ⟨0, 0, 0⟩)] (h, H) := by
  obtain ⟨t, o, p⟩ := (parse_total (initDe s).rem).1 (initDe s) (Nat.le_refl _)
  have h0 : CReach E false ⟨Heap.init, [⟨T, 0, []⟩]⟩ := .step .start (.declare T hT none (Content.none T))
  have h1 : CReach E false ⟨Heap.init, [⟨T, 0, [.visitor (.place T ⟨0, 0, 0⟩)]⟩]⟩ := .step h0 (.begin (pre := []) (post := []))
  obtain ⟨r, w', H, d1, d2, hm⟩ := rec_val (.place T ⟨0, 0, 0⟩) [] t Heap.init [] (p.legal (by simpa using hs)) ⟨h1, by simp⟩
  have e1 := (fromStrImpl_eq (lib E) p _ (Nat.lt_succ_self _) (.place T ⟨0, 0, 0⟩) Heap.init).trans (congrArg (fun z => some (outcome o z)) d1)
  have e2 := (fromStrImpl_eq (lib E).recorded p _ (Nat.lt_succ_self _) (.place T ⟨0, 0, 0⟩) (Heap.init, [])).trans (congrArg (fun z => some (outcome o z)) d2)
  cases r with
  | ok u =>
    cases o with
    | some d => exact ⟨_, _, H, e1, e2, hm⟩
    | none => exact ⟨_, _, H, e1, e2, hm⟩
  | err => exact ⟨_, _, H, e1, e2, hm⟩
  | panic => exact ⟨_, _, H, e1, e2, hm⟩

/-! ## A value that is complete, then an error -/

/-- What `out` holds when garbage follows the value. -/
theorem fromStr_garbage (E : Env) {s : Bytes} {t : Ty} {v : Val} (hv : parseAs E t s = some (.ok v)) {c : UInt8} (hc : c = 0x2C ∨ c = 0x5D ∨ c = 0x7D) (r : Bytes) :
    ∃ h, fromStr E t (s ++ c :: r) = some (.err, h) ∧ h.mem 0 = some (.slot (some v)) := by
  obtain ⟨j, ⟨w1, tx, w2, rfl, h1, hj, h2⟩, hd⟩ := (parseAs_ok E).1 hv
  have hrun := (run_decode E j t v).2 hd
  obtain ⟨pt, o, p1, p2⟩ := hj.complete (d := initDe ((w1 ++ (tx ++ w2)) ++ c :: r)) (w := w1) (r := w2 ++ c :: r) (by simp) h1 (tokEnd_ws h2 (tokEnd_cons hc))
  obtain ⟨h', e, hp⟩ := drive_place E (toPT j) (t := t) (p := ⟨0, 0, 0⟩) init_good init_valid
  have e1 : drivePT (lib E) (VH.place t ⟨0, 0, 0⟩) pt Heap.init = (.ok (), h') := by
    refine (p2.same (lib E) _ Heap.init).trans (e.trans ?_)
    rw [hrun]; rfl
  have e2 := (fromStrImpl_eq (lib E) p1 _ (Nat.lt_succ_self _) (VH.place t ⟨0, 0, 0⟩) Heap.init).trans (congrArg (fun z => some (outcome o z)) e1)
  have e3 : outcome o ((.ok (), h') : Res Unit × Heap) = (.err, h') := by
    cases o with
    | none => rfl
    | some d' =>
      obtain ⟨-, hr⟩ := p2.eats d' rfl
      simp only [outcome]
      cases ht : trailing d' with
      | err => rfl
      | panic => unfold trailing at ht; split at ht <;> cases ht
      | ok u =>
        have hw := trailing_ok ht
        rw [hr] at hw
        have := hw c (by simp)
        exfalso
        rcases hc with rfl | rfl | rfl <;> revert this <;> decide
  obtain ⟨x, hm, -, hx⟩ := post_init hp
  rw [hx v hrun] at hm
  refine ⟨h', ?_, by rw [hm]; rfl⟩
  have e4 : fromStrImpl (lib E) (w1 ++ (tx ++ w2) ++ c :: r) (VH.place t ⟨0, 0, 0⟩) Heap.init = some (.err, h') := e2.trans (congrArg some e3)
  rw [fromStr, e4]; rfl

/-! ## A linked list -/

/-- `{"next":{"next":...{}...}}` -/
def listText : Nat → Bytes
  | 0 => str! "{}"
  | n + 1 => str! "{\"next\":" ++ listText n ++ str! "}"

def listJson : Nat → Json
  | 0 => .obj []
  | n + 1 => .obj [(str! "next", listJson n)]

/-- `Node { next: Some(Box::new(Node { ... Node { next: None } ... })) }` -/
def listVal : Nat → Val
  | 0 => .strct [.optNone]
  | n + 1 => .strct [.optSome (.box (listVal n))]

theorem list_length : ∀ n, (listText n).length = 9 * n + 2
  | 0 => rfl
  | n + 1 => by
    have h1 : (str! "{\"next\":").length = 8 := rfl
    have h2 : (str! "}").length = 1 := rfl
    simp only [listText, List.length_append, list_length n, h1, h2]; omega

theorem next_string : JString (str! "\"next\"") (str! "next") :=
  JString.mk (body := str! "next") (StrBody.cons (.raw 0x6E (by decide) (by decide) (by decide)) (StrBody.cons (.raw 0x65 (by decide) (by decide) (by decide))
    (StrBody.cons (.raw 0x78 (by decide) (by decide) (by decide)) (StrBody.cons (.raw 0x74 (by decide) (by decide) (by decide)) .nil))))

theorem list_value : ∀ n, JValue (listText n) (listJson n)
  | 0 => .objEmpty (w := []) (by simp [Ws])
  | n + 1 => by
    have := JValue.obj (.one (w₁ := []) (w₂ := []) (w₃ := []) (w₄ := []) (by simp [Ws]) next_string (by simp [Ws]) (by simp [Ws]) (list_value n) (by simp [Ws]))
    have e : listText (n + 1) = 0x7B :: (([] : Bytes) ++ (str! "\"next\"" ++ (([] : Bytes) ++ 0x3A :: (([] : Bytes) ++ (listText n ++ ([] : Bytes))))) ++ [0x7D]) := by
      have h1 : (str! "{\"next\":") = 0x7B :: (str! "\"next\"" ++ [0x3A]) := rfl
      have h2 : (str! "}") = [0x7D] := rfl
      simp only [listText, h1]
      simp
    rw [e]
    exact this

section
variable {E : Env} {i : Nat} (hi : E.fields i = [(str! "next", .opt (.box (.strct i)))])
include hi

theorem list_decode : ∀ n, decode E (listJson n) (.strct i) = some (listVal n)
  | 0 => by
    unfold decode
    simp only [listJson, hi, decodeFields, Option.bind_some, fieldValues]
    rfl
  | n + 1 => by
    have ih := list_decode n
    have hn : (listJson n).isNull = false := by cases n <;> rfl
    have h1 : decode E (listJson n) (.opt (.box (.strct i))) = some (.optSome (.box (listVal n))) := by
      rw [decode, hn]
      simp only [Bool.false_eq_true, if_false]
      rw [decode, ih]
      rfl
    unfold decode
    simp only [listJson, hi, decodeFields]
    rw [show fieldIdx [(str! "next", Ty.opt (.box (.strct i)))] (str! "next") = some 0 from rfl]
    simp only [List.getElem?_cons_zero, h1]
    rfl

theorem list_parse (n : Nat) : parseAs E (.strct i) (listText n) = some (.ok (listVal n)) :=
  (parseAs_ok E).2 ⟨listJson n, ⟨[], _, [], by simp, by simp [Ws], list_value n, by simp [Ws]⟩, list_decode hi n⟩

theorem list_fits : ∀ (n d : Nat), DropFits E d (.strct i) (listVal n) → 3 * n + 2 ≤ d
  | _, 0, h => h.elim
  | 0, 1, h => (h 0 (str! "next", .opt (.box (.strct i))) .optNone (by rw [hi]; rfl) rfl).elim
  | 0, d + 2, _ => by omega
  | n + 1, 1, h => (h 0 (str! "next", .opt (.box (.strct i))) _ (by rw [hi]; rfl) rfl).elim
  | n + 1, 2, h => (h 0 (str! "next", .opt (.box (.strct i))) (.optSome (.box (listVal n))) (by rw [hi]; rfl) rfl).elim
  | n + 1, d + 3, h => by
    have h1 : DropFits E d (.strct i) (listVal n) := h 0 (str! "next", .opt (.box (.strct i))) (.optSome (.box (listVal n))) (by rw [hi]; rfl) rfl
    have := list_fits n d h1
    omega

end

end Miniserde
