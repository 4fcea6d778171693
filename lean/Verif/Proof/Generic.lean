import Verif.Spec.Generic
import Verif.Proof.Compose
import Verif.Proof.FromStr

/-!
# Proofs about the generic containers
-/

namespace Miniserde

/-! ## A place handed out by a container behaves as a place of its own -/

section
variable {σ ω ι : Type} {α : ι → Type} {I : (i : ι) → Deser σ (α i)}

/-- Laws of the places of a container. -/
structure Own.Laws (O : Own σ ω I) : Prop where
  get_put : ∀ a i t w, O.get a i (O.put a i t w) = t
  put_put : ∀ a i t t' w, O.put a i t (O.put a i t' w) = O.put a i t w

variable {O : Own σ ω I} (L : O.Laws)
include L

theorem Own.within_put {β : Type} (a : Nat) (i : ι) (f : σ × Option (α i) → Res β × (σ × Option (α i))) (t : σ × Option (α i)) (w : ω) :
    O.within a i f (O.put a i t w) = ((f t).1, O.put a i (f t).2 w) := by
  unfold Own.within
  rw [L.get_put, L.put_put]

theorem driveNum_sub (a : Nat) (i : ι) (v : (I i).P.V) (l : NumLit) (t : σ × Option (α i)) (w : ω) :
    driveNum O.proto (.sub a i v) l (O.put a i t w) = ((driveNum (I i).P v l t).1, O.put a i (driveNum (I i).P v l t).2 w) := by
  unfold driveNum
  cases numEvent l with
  | ok ev =>
    cases ev <;> first | rfl | exact Own.within_put L a i _ t w
  | err => rfl
  | panic => rfl

mutual

theorem drive_sub (a : Nat) (i : ι) (w : ω) (v : (I i).P.V) : ∀ (j : Json) (t : σ × Option (α i)),
    drive O.proto (.sub a i v) j (O.put a i t w) = ((drive (I i).P v j t).1, O.put a i (drive (I i).P v j t).2 w)
  | .null, t => by simp only [drive]; exact Own.within_put L a i _ t w
  | .bool b, t => by simp only [drive]; exact Own.within_put L a i _ t w
  | .num l, t => by simp only [drive]; exact driveNum_sub L a i v l t w
  | .str s, t => by simp only [drive]; exact Own.within_put L a i _ t w
  | .arr xs, t => by
    simp only [drive]
    have e : O.proto.seq (.sub a i v) (O.put a i t w) = (((I i).P.seq v t).1.map (NB.sub a i), O.put a i ((I i).P.seq v t).2 w) := by
      show (Res.map _ (O.within a i _ _).1, (O.within a i _ _).2) = _
      rw [Own.within_put L]
    rw [e]
    rcases hs : (I i).P.seq v t with ⟨q | _ | _, t'⟩
    · have ih := driveElems_sub a i w q xs t'
      show ((driveElems O.proto (.sub a i q) xs (O.put a i t' w)).1, O.proto.dropSeq (.sub a i q) (driveElems O.proto (.sub a i q) xs (O.put a i t' w)).2) = _
      rw [ih]
      show (_, O.put a i ((I i).P.dropSeq q (O.get a i _)) _) = _
      rw [L.get_put, L.put_put]
    · rfl
    · rfl
  | .obj ms, t => by
    simp only [drive]
    have e : O.proto.map (.sub a i v) (O.put a i t w) = (((I i).P.map v t).1.map (NB.sub a i), O.put a i ((I i).P.map v t).2 w) := by
      show (Res.map _ (O.within a i _ _).1, (O.within a i _ _).2) = _
      rw [Own.within_put L]
    rw [e]
    rcases hs : (I i).P.map v t with ⟨q | _ | _, t'⟩
    · have ih := driveMembers_sub a i w q ms t'
      show ((driveMembers O.proto (.sub a i q) ms (O.put a i t' w)).1, O.proto.dropMap (.sub a i q) (driveMembers O.proto (.sub a i q) ms (O.put a i t' w)).2) = _
      rw [ih]
      show (_, O.put a i ((I i).P.dropMap q (O.get a i _)) _) = _
      rw [L.get_put, L.put_put]
    · rfl
    · rfl

theorem driveElems_sub (a : Nat) (i : ι) (w : ω) (q : (I i).P.Q) : ∀ (xs : List Json) (t : σ × Option (α i)),
    driveElems O.proto (.sub a i q) xs (O.put a i t w) = ((driveElems (I i).P q xs t).1, O.put a i (driveElems (I i).P q xs t).2 w)
  | [], t => by simp only [driveElems]; exact Own.within_put L a i _ t w
  | x :: xs, t => by
    simp only [driveElems]
    have e : O.proto.element (.sub a i q) (O.put a i t w) = (((I i).P.element q t).1.map (NV.sub a i), O.put a i ((I i).P.element q t).2 w) := by
      show (Res.map _ (O.within a i _ _).1, (O.within a i _ _).2) = _
      rw [Own.within_put L]
    rw [e]
    rcases hs : (I i).P.element q t with ⟨v | _ | _, t'⟩
    · have ih := drive_sub a i w v x t'
      simp only [Res.map, Res.bind]
      rw [ih]
      rcases hd : drive (I i).P v x t' with ⟨_ | _ | _, t''⟩
      · exact driveElems_sub a i w q xs t''
      · rfl
      · rfl
    · rfl
    · rfl

theorem driveMembers_sub (a : Nat) (i : ι) (w : ω) (m : (I i).P.M) : ∀ (ms : List (Bytes × Json)) (t : σ × Option (α i)),
    driveMembers O.proto (.sub a i m) ms (O.put a i t w) = ((driveMembers (I i).P m ms t).1, O.put a i (driveMembers (I i).P m ms t).2 w)
  | [], t => by simp only [driveMembers]; exact Own.within_put L a i _ t w
  | (k, x) :: ms, t => by
    simp only [driveMembers]
    have e : O.proto.key (.sub a i m) k (O.put a i t w) = (((I i).P.key m k t).1.map (NV.sub a i), O.put a i ((I i).P.key m k t).2 w) := by
      show (Res.map _ (O.within a i _ _).1, (O.within a i _ _).2) = _
      rw [Own.within_put L]
    rw [e]
    rcases hs : (I i).P.key m k t with ⟨v | _ | _, t'⟩
    · have ih := drive_sub a i w v x t'
      simp only [Res.map, Res.bind]
      rw [ih]
      rcases hd : drive (I i).P v x t' with ⟨_ | _ | _, t''⟩
      · exact driveMembers_sub a i w m ms t''
      · rfl
      · rfl
    · rfl
    · rfl

end

end

/-! ## Ignored values -/

section
variable {σ ω ι : Type} {α : ι → Type} {I : (i : ι) → Deser σ (α i)} (O : Own σ ω I)

theorem driveNum_skipped (l : NumLit) (w : ω) : driveNum O.proto .ignore l w = ((driveNum skip () l ()).1, w) := by
  unfold driveNum
  cases numEvent l with
  | ok ev => cases ev <;> rfl
  | err => rfl
  | panic => rfl

mutual

theorem drive_skipped (w : ω) : ∀ j : Json, drive O.proto .ignore j w = ((drive skip () j ()).1, w)
  | .null => rfl
  | .bool b => rfl
  | .num l => by simp only [drive]; exact driveNum_skipped O l w
  | .str s => rfl
  | .arr xs => by
    have ih := driveElems_skipped w xs
    simp only [drive]
    show ((driveElems O.proto .ignore xs w).1, (driveElems O.proto .ignore xs w).2) = _
    rw [ih]; rfl
  | .obj ms => by
    have ih := driveMembers_skipped w ms
    simp only [drive]
    show ((driveMembers O.proto .ignore ms w).1, (driveMembers O.proto .ignore ms w).2) = _
    rw [ih]; rfl

theorem driveElems_skipped (w : ω) : ∀ xs : List Json, driveElems O.proto .ignore xs w = ((driveElems skip () xs ()).1, w)
  | [] => rfl
  | x :: xs => by
    have e := drive_skipped w x
    simp only [driveElems]
    have e1 : O.proto.element .ignore w = (.ok .ignore, w) := rfl
    have e2 : skip.element () () = (.ok (), ()) := rfl
    rw [e1, e2]
    simp only
    rw [e]
    rcases hd : drive skip () x () with ⟨_ | _ | _, u⟩
    · exact driveElems_skipped w xs
    · rfl
    · rfl

theorem driveMembers_skipped (w : ω) : ∀ ms : List (Bytes × Json), driveMembers O.proto .ignore ms w = ((driveMembers skip () ms ()).1, w)
  | [] => rfl
  | (k, x) :: ms => by
    have e := drive_skipped w x
    simp only [driveMembers]
    have e1 : O.proto.key .ignore k w = (.ok .ignore, w) := rfl
    have e2 : skip.key () k () = (.ok (), ()) := rfl
    rw [e1, e2]
    simp only
    rw [e]
    rcases hd : drive skip () x () with ⟨_ | _ | _, u⟩
    · exact driveMembers_skipped w ms
    · rfl
    · rfl

end

end

/-! ## `from_str` on a text -/

section
variable {σ α β κ μ : Type}

/-- The last lines of `from_str`. -/
def finalOf : Res Unit × (σ × Option α) → Res α × σ
  | (.ok _, (w, some a)) => (.ok a, w)
  | (.ok _, (w, none)) => (.err, w)
  | (.err, (w, _)) => (.err, w)
  | (.panic, (w, _)) => (.panic, w)

theorem fromStr_json (I : Deser σ α) {s : Bytes} {j : Json} (h : JText s j) (w : σ) :
    I.fromStr s w = some (finalOf (drive I.P I.begin j (w, none))) := by
  unfold Deser.fromStr
  have : fromStrImpl I.P s I.begin (w, none) = some (drive I.P I.begin j (w, none)) := fromStrImpl_text h I.P _ _ _ (by simp)
  rw [this]
  rcases drive I.P I.begin j (w, none) with ⟨_ | _ | _, w', _ | a⟩ <;> rfl

/-- A visitor of an implementation that delivers. -/
theorem delivers_drive {I : Deser σ α} (hI : I.Delivers) {s : Bytes} {j : Json} (h : JText s j) (w : σ) :
    (∃ a w', drive I.P I.begin j (w, none) = (.ok (), (w', some a)) ∧ I.fromStr s w = some (.ok a, w')) ∨
    (∃ o w', drive I.P I.begin j (w, none) = (.err, (w', o)) ∧ I.fromStr s w = some (.err, w')) ∨
    (∃ o w', drive I.P I.begin j (w, none) = (.panic, (w', o)) ∧ I.fromStr s w = some (.panic, w')) := by
  have e : fromStrImpl I.P s I.begin (w, none) = some (drive I.P I.begin j (w, none)) := fromStrImpl_text h I.P _ _ _ (by simp)
  have hf := fromStr_json I h w
  rcases hd : drive I.P I.begin j (w, none) with ⟨_ | _ | _, w', o⟩
  · rw [hd] at e hf
    cases o with
    | none => exact absurd rfl (hI _ _ _ _ e)
    | some a => exact .inl ⟨a, w', rfl, hf⟩
  · rw [hd] at hf
    exact .inr (.inl ⟨o, w', rfl, hf⟩)
  · rw [hd] at hf
    exact .inr (.inr ⟨o, w', rfl, hf⟩)

/-- The elements of an array text have texts. -/
theorem JElements.texts : ∀ {bs : Bytes} {js : List Json}, JElements bs js → ∃ ss, Each JText ss js
  | _, _, .one h1 h2 h3 => ⟨_, .cons ⟨_, _, _, rfl, h1, h2, h3⟩ .nil⟩
  | _, _, .cons h1 h2 h3 hs => by
    obtain ⟨ss, hss⟩ := JElements.texts hs
    exact ⟨_, .cons ⟨_, _, _, rfl, h1, h2, h3⟩ hss⟩

theorem JMembers.texts : ∀ {bs : Bytes} {js : List (Bytes × Json)}, JMembers bs js → ∃ ms, Each (fun (m : Bytes × Bytes) (j : Bytes × Json) => m.1 = j.1 ∧ JText m.2 j.2) ms js
  | _, _, .one _ _ _ h1 h2 h3 => ⟨[(_, _)], .cons ⟨rfl, _, _, _, rfl, h1, h2, h3⟩ .nil⟩
  | _, _, .cons _ _ _ h1 h2 h3 hs => by
    obtain ⟨ss, hss⟩ := JMembers.texts hs
    exact ⟨(_, _) :: ss, .cons ⟨rfl, _, _, _, rfl, h1, h2, h3⟩ hss⟩

theorem JText.elements {s : Bytes} {js : List Json} (h : JText s (.arr js)) : ∃ ss, Each JText ss js := by
  obtain ⟨w₁, v, w₂, rfl, -, hv, -⟩ := h
  cases hv with
  | arrEmpty _ => exact ⟨[], .nil⟩
  | arr h => exact JElements.texts h

theorem JText.members {s : Bytes} {js : List (Bytes × Json)} (h : JText s (.obj js)) :
    ∃ ms, Each (fun (m : Bytes × Bytes) (j : Bytes × Json) => m.1 = j.1 ∧ JText m.2 j.2) ms js := by
  obtain ⟨w₁, v, w₂, rfl, -, hv, -⟩ := h
  cases hv with
  | objEmpty _ => exact ⟨[], .nil⟩
  | obj h => exact JMembers.texts h

/-! ## `Vec<T>` -/

@[simp] theorem Cells.set_cell {C : Type} (cs : Cells C) (a : Nat) (c : C) : (cs.set a c).cell a = c := by simp [Cells.set]

@[simp] theorem Cells.set_next {C : Type} (cs : Cells C) (a : Nat) (c : C) : (cs.set a c).next = cs.next := rfl

@[simp] theorem Cells.set_set {C : Type} (cs : Cells C) (a : Nat) (c c' : C) : (cs.set a c).set a c' = cs.set a c' := by
  unfold Cells.set
  congr 1
  funext b
  by_cases h : b = a <;> simp [h]

@[simp] theorem Cells.alloc_cell {C : Type} (cs : Cells C) (c : C) : (cs.alloc c).cell cs.next = c := by simp [Cells.alloc]

theorem vec_laws (I : Deser σ α) : (vecOwn I).Laws where
  get_put := by intros; simp [vecOwn]
  put_put := by intros; simp [vecOwn]

/-- The outcome of reading the elements: nothing, or the list with what was there before. -/
def vecOut (pre : List α) (o : Option (List α)) : Res (List α) → Option (List α)
  | .ok l => some (pre ++ l)
  | _ => o

theorem vec_elems {I : Deser σ α} (hI : I.Delivers) (a : Nat) (o : Option (List α)) : ∀ {ss : List Bytes} {js : List Json}, Each JText ss js →
    ∀ (w : σ) (cs : Cells (VecCell α)), ∃ r w' cs', ReadsAll I ss w r w' ∧
      driveElems (vecOwn I).proto (.own a) js ((w, cs), o) = (r.map fun _ => (), ((w', cs'), vecOut (cs.cell a).shift.vec o r))
  | _, _, .nil, w, cs => by
    refine ⟨.ok [], w, cs.set a ⟨[], none⟩, .nil w, ?_⟩
    simp only [driveElems]
    show (Res.ok (), ((w, cs.set a ⟨[], none⟩), some (cs.cell a).shift.vec)) = _
    simp [vecOut]
  | s :: ss, j :: js, .cons h hs, w, cs => by
    simp only [driveElems]
    have e : (vecOwn I).proto.element (.own a) ((w, cs), o) =
        (.ok (.sub a () I.begin), (vecOwn I).put a () (w, none) ((w, cs.set a (cs.cell a).shift), o)) := by
      refine congrArg (fun z => (Res.ok (NV.sub a () I.begin : NV Unit fun _ => I.P.V), ((w, z), o))) ?_
      simp only [Cells.set_set, Cells.set_cell]
      unfold VecCell.shift
      cases (cs.cell a).element <;> rfl
    rw [e]
    simp only
    rw [drive_sub (vec_laws I)]
    rcases delivers_drive hI h w with ⟨x, w', hd, hf⟩ | ⟨o', w', hd, hf⟩ | ⟨o', w', hd, hf⟩
    · rw [hd]
      simp only
      obtain ⟨r, w₂, cs₂, hr, he⟩ := vec_elems hI a o hs w' ((cs.set a (cs.cell a).shift).set a { (cs.cell a).shift with element := some x })
      refine ⟨r.map (x :: ·), w₂, cs₂, .cons hf hr, ?_⟩
      have : (vecOwn I).put a () (w', some x) ((w, cs.set a (cs.cell a).shift), o) =
          ((w', (cs.set a (cs.cell a).shift).set a { (cs.cell a).shift with element := some x }), o) := by
        simp [vecOwn]
      rw [this, he]
      cases r <;> simp [vecOut, VecCell.shift]
    · rw [hd]
      exact ⟨.err, w', _, .err hf, rfl⟩
    · rw [hd]
      exact ⟨.panic, w', _, .panic hf, rfl⟩

theorem vec_drive {I : Deser σ α} (hI : I.Delivers) {ss : List Bytes} {js : List Json} (hs : Each JText ss js) (w : σ) (cs : Cells (VecCell α)) (o : Option (List α)) :
    ∃ r w' cs', ReadsAll I ss w r w' ∧ drive I.vec.P I.vec.begin (.arr js) ((w, cs), o) = (r.map fun _ => (), ((w', cs'), vecOut [] o r)) := by
  obtain ⟨r, w', cs', hr, he⟩ := vec_elems hI cs.next o hs w (cs.alloc ⟨[], none⟩)
  refine ⟨r, w', cs', hr, ?_⟩
  rw [drive]
  show ((driveElems (vecOwn I).proto (.own cs.next) js ((w, cs.alloc ⟨[], none⟩), o)).1, (driveElems (vecOwn I).proto (.own cs.next) js ((w, cs.alloc ⟨[], none⟩), o)).2) = _
  rw [he]
  simp [VecCell.shift]


/-! ## `[T; N]` -/

theorem arr_laws (n : Nat) (I : Deser σ α) : (arrOwn n I).Laws where
  get_put := by intros; simp [arrOwn]
  put_put := by intros; simp [arrOwn]

/-- The elements read so far. -/
def ArrCell.all (c : ArrCell α) : List α := c.init ++ c.element.toList

theorem arr_shift_ok {n : Nat} {c : ArrCell α} (h : c.all.length ≤ n) : c.shift n = (.ok (), ⟨c.all, none⟩) := by
  unfold ArrCell.shift
  rcases c with ⟨l, _ | e⟩
  · simp [ArrCell.all]
  · simp [ArrCell.all] at h ⊢
    omega

theorem arr_shift_err {n : Nat} {c : ArrCell α} (hc : c.init.length ≤ n) (h : ¬ c.all.length ≤ n) : ∃ c', c.shift n = (.err, c') := by
  unfold ArrCell.shift
  rcases c with ⟨l, _ | e⟩
  · simp [ArrCell.all] at hc h; omega
  · simp [ArrCell.all] at hc h ⊢
    exact ⟨_, if_neg (by omega)⟩

/-- The final result, when `pre` had been read before. -/
def arrRes (n : Nat) (pre : List α) : Res (List α) → Res (List α)
  | .ok l => if (pre ++ l).length = n then .ok (pre ++ l) else .err
  | .err => .err
  | .panic => .panic

theorem arr_elems {n : Nat} {I : Deser σ α} (hI : I.Delivers) (a : Nat) (o : Option (List α)) : ∀ {ss : List Bytes} {js : List Json}, Each JText ss js →
    ∀ (w : σ) (cs : Cells (ArrCell α)), (cs.cell a).init.length ≤ n → ∃ r w' cs', ReadsAll I (ss.take (n + 1 - (cs.cell a).all.length)) w r w' ∧
      driveElems (arrOwn n I).proto (.own a) js ((w, cs), o) = ((arrRes n (cs.cell a).all r).map fun _ => (), ((w', cs'), vecOut [] o (arrRes n (cs.cell a).all r)))
  | _, _, .nil, w, cs, hc => by
    simp only [driveElems]
    by_cases hl : (cs.cell a).all.length ≤ n
    · have e : (arrOwn n I).proto.seqFinish (.own a) ((w, cs), o) =
          if (cs.cell a).all.length < n then (.err, ((w, cs.set a ⟨(cs.cell a).all, none⟩), o)) else (.ok (), ((w, cs.set a ⟨[], none⟩), some (cs.cell a).all)) := by
        simp only [Own.proto, arrOwn, arr_shift_ok hl]
      rw [e]
      by_cases hn : (cs.cell a).all.length < n
      · rw [if_pos hn]
        refine ⟨.ok [], w, cs.set a ⟨(cs.cell a).all, none⟩, by simpa using .nil w, ?_⟩
        simp only [arrRes, List.append_nil]
        rw [if_neg (by omega)]
        rfl
      · rw [if_neg hn]
        refine ⟨.ok [], w, cs.set a ⟨[], none⟩, by simpa using .nil w, ?_⟩
        simp only [arrRes, List.append_nil]
        rw [if_pos (by omega)]
        rfl
    · obtain ⟨c', hs⟩ := arr_shift_err hc hl
      refine ⟨.ok [], w, cs.set a c', by simpa using .nil w, ?_⟩
      have e : (arrOwn n I).proto.seqFinish (.own a) ((w, cs), o) = (.err, ((w, cs.set a c'), o)) := by
        simp only [Own.proto, arrOwn, hs]
      rw [e]
      simp only [arrRes, List.append_nil]
      rw [if_neg (by omega)]
      rfl
  | s :: ss, j :: js, .cons h hs, w, cs, hc => by
    simp only [driveElems]
    by_cases hl : (cs.cell a).all.length ≤ n
    · have e : (arrOwn n I).proto.element (.own a) ((w, cs), o) =
          (.ok (.sub a () I.begin), (arrOwn n I).put a () (w, none) ((w, cs.set a ⟨(cs.cell a).all, none⟩), o)) := by
        simp only [Own.proto, arrOwn, arr_shift_ok hl, Cells.set_cell, Cells.set_set]
      rw [e]
      simp only
      rw [drive_sub (arr_laws n I)]
      have ht : (s :: ss).take (n + 1 - (cs.cell a).all.length) = s :: ss.take (n - (cs.cell a).all.length) := by
        rw [show n + 1 - (cs.cell a).all.length = (n - (cs.cell a).all.length) + 1 by omega, List.take_succ_cons]
      rw [ht]
      rcases delivers_drive hI h w with ⟨x, w', hd, hf⟩ | ⟨o', w', hd, hf⟩ | ⟨o', w', hd, hf⟩
      · rw [hd]
        simp only
        have hput : (arrOwn n I).put a () (w', some x) ((w, cs.set a ⟨(cs.cell a).all, none⟩), o) = ((w', cs.set a ⟨(cs.cell a).all, some x⟩), o) := by
          simp [arrOwn]
        rw [hput]
        obtain ⟨r, w₂, cs₂, hr, he⟩ := arr_elems hI a o hs w' (cs.set a ⟨(cs.cell a).all, some x⟩) (by simpa using hl)
        have hall : (cs.set a (⟨(cs.cell a).all, some x⟩ : ArrCell α)).cell a = ⟨(cs.cell a).all, some x⟩ := by simp
        rw [hall] at hr he
        have hal : (⟨(cs.cell a).all, some x⟩ : ArrCell α).all = (cs.cell a).all ++ [x] := rfl
        rw [hal] at hr he
        rw [show n + 1 - ((cs.cell a).all ++ [x]).length = n - (cs.cell a).all.length by simp] at hr
        refine ⟨r.map (x :: ·), w₂, cs₂, .cons hf hr, ?_⟩
        rw [he]
        have : arrRes n ((cs.cell a).all ++ [x]) r = arrRes n (cs.cell a).all (r.map (x :: ·)) := by
          cases r <;> simp [arrRes]
        rw [this]
      · rw [hd]
        exact ⟨.err, w', _, .err hf, rfl⟩
      · rw [hd]
        exact ⟨.panic, w', _, .panic hf, rfl⟩
    · obtain ⟨c', hs'⟩ := arr_shift_err hc hl
      have e : (arrOwn n I).proto.element (.own a) ((w, cs), o) = (.err, ((w, cs.set a c'), o)) := by
        simp only [Own.proto, arrOwn, hs']
      rw [e]
      refine ⟨.ok [], w, cs.set a c', ?_, ?_⟩
      · rw [show n + 1 - (cs.cell a).all.length = 0 by omega]
        exact .nil w
      · simp only [arrRes, List.append_nil]
        rw [if_neg (by omega)]
        rfl

theorem arr_drive {n : Nat} {I : Deser σ α} (hI : I.Delivers) {ss : List Bytes} {js : List Json} (hs : Each JText ss js) (w : σ) (cs : Cells (ArrCell α))
    (o : Option (List α)) : ∃ r w' cs', ReadsArr n I ss w r w' ∧ drive (I.arr n).P (I.arr n).begin (.arr js) ((w, cs), o) = (r.map fun _ => (), ((w', cs'), vecOut [] o r)) := by
  obtain ⟨r, w', cs', hr, he⟩ := arr_elems (n := n) hI cs.next o hs w (cs.alloc ⟨[], none⟩) (by simp)
  have hall : ((cs.alloc (⟨[], none⟩ : ArrCell α)).cell cs.next).all = [] := by simp [ArrCell.all]
  rw [hall] at hr he
  refine ⟨arrRes n [] r, w', cs', ⟨r, hr, ?_⟩, ?_⟩
  · cases r <;> simp [arrRes]
  · rw [drive]
    show ((driveElems (arrOwn n I).proto (.own cs.next) js ((w, cs.alloc ⟨[], none⟩), o)).1, (driveElems (arrOwn n I).proto (.own cs.next) js ((w, cs.alloc ⟨[], none⟩), o)).2) = _
    rw [he]

/-! ## `(A, B)` -/

@[simp] theorem Cells.set_self {C : Type} (cs : Cells C) (a : Nat) : cs.set a (cs.cell a) = cs := by
  unfold Cells.set
  cases cs with
  | mk n f =>
    congr 1
    funext b
    by_cases h : b = a <;> simp [h]

theorem pair_laws (I : Deser σ α) (J : Deser σ β) : (pairOwn I J).Laws where
  get_put := by intro a i; cases i <;> intros <;> simp [pairOwn]
  put_put := by intro a i; cases i <;> intros <;> simp [pairOwn]

theorem pair_fst (I : Deser σ α) (J : Deser σ β) (a : Nat) (j : Json) (w : σ) (cs : Cells (Option α × Option β)) (o : Option (α × β)) (y : Option β)
    (hc : cs.cell a = (none, y)) : drive (pairOwn I J).proto (.sub a false I.begin) j ((w, cs), o) =
      ((drive I.P I.begin j (w, none)).1, (((drive I.P I.begin j (w, none)).2.1, cs.set a ((drive I.P I.begin j (w, none)).2.2, y)), o)) := by
  have h := drive_sub (pair_laws I J) a false ((w, cs), o) I.begin j (w, none)
  have e : (pairOwn I J).put a false (w, none) ((w, cs), o) = ((w, cs), o) := by
    show ((w, cs.set a (none, (cs.cell a).2)), o) = _
    rw [show ((none : Option α), (cs.cell a).2) = cs.cell a by rw [hc], Cells.set_self]
  rw [e] at h
  rw [h]
  show (_, ((_, cs.set a (_, (cs.cell a).2)), o)) = _
  rw [hc]
  rfl

theorem pair_snd (I : Deser σ α) (J : Deser σ β) (a : Nat) (j : Json) (w : σ) (cs : Cells (Option α × Option β)) (o : Option (α × β)) (x : Option α)
    (hc : cs.cell a = (x, none)) : drive (pairOwn I J).proto (.sub a true J.begin) j ((w, cs), o) =
      ((drive J.P J.begin j (w, none)).1, (((drive J.P J.begin j (w, none)).2.1, cs.set a (x, (drive J.P J.begin j (w, none)).2.2)), o)) := by
  have h := drive_sub (pair_laws I J) a true ((w, cs), o) J.begin j (w, none)
  have e : (pairOwn I J).put a true (w, none) ((w, cs), o) = ((w, cs), o) := by
    show ((w, cs.set a ((cs.cell a).1, none)), o) = _
    rw [show ((cs.cell a).1, (none : Option β)) = cs.cell a by rw [hc], Cells.set_self]
  rw [e] at h
  rw [h]
  show (_, ((_, cs.set a ((cs.cell a).1, _)), o)) = _
  rw [hc]
  rfl

/-- The content of the place afterwards. -/
def pairOut {ρ : Type} (o : Option ρ) : Res ρ → Option ρ
  | .ok l => some l
  | _ => o

theorem pair_elems {I : Deser σ α} {J : Deser σ β} (hI : I.Delivers) (hJ : J.Delivers) (a : Nat) (o : Option (α × β)) {ss : List Bytes} {js : List Json}
    (hs : Each JText ss js) (w : σ) (cs : Cells (Option α × Option β)) (hc : cs.cell a = (none, none)) : ∃ r w' cs', ReadsPair I J ss w r w' ∧
      driveElems (pairOwn I J).proto (.own a) js ((w, cs), o) = (r.map fun _ => (), ((w', cs'), pairOut o r)) := by
  cases hs with
  | nil =>
    refine ⟨.err, w, cs.set a (none, none), .none w, ?_⟩
    simp only [driveElems, Own.proto, pairOwn, hc]
    rfl
  | @cons s j ss js h hs =>
    simp only [driveElems]
    have e : (pairOwn I J).proto.element (.own a) ((w, cs), o) = (.ok (.sub a false I.begin), ((w, cs), o)) := by
      simp only [Own.proto, pairOwn, hc]
    rw [e]
    simp only
    rw [pair_fst I J a j w cs o none hc]
    rcases delivers_drive hI h w with ⟨x, w', hd, hf⟩ | ⟨o', w', hd, hf⟩ | ⟨o', w', hd, hf⟩
    · rw [hd]
      simp only
      have hc1 : (cs.set a (some x, (none : Option β))).cell a = (some x, none) := by simp
      cases hs with
      | nil =>
        refine ⟨.err, w', (cs.set a (some x, none)).set a (none, none), .one hf, ?_⟩
        simp only [driveElems, Own.proto, pairOwn, hc1]
        rfl
      | @cons s2 j2 ss js h2 hs =>
        simp only [driveElems]
        have e : (pairOwn I J).proto.element (.own a) ((w', cs.set a (some x, none)), o) = (.ok (.sub a true J.begin), ((w', cs.set a (some x, none)), o)) := by
          simp only [Own.proto, pairOwn, hc1]
        rw [e]
        simp only
        rw [pair_snd I J a j2 w' _ o (some x) hc1]
        rcases delivers_drive hJ h2 w' with ⟨y, w₂, hd2, hf2⟩ | ⟨o', w₂, hd2, hf2⟩ | ⟨o', w₂, hd2, hf2⟩
        · rw [hd2]
          simp only
          have hc2 : ((cs.set a (some x, (none : Option β))).set a (some x, some y)).cell a = (some x, some y) := by simp
          cases hs with
          | nil =>
            refine ⟨.ok (x, y), w₂, ((cs.set a (some x, none)).set a (some x, some y)).set a (none, none), .two hf hf2, ?_⟩
            simp only [driveElems, Own.proto, pairOwn, hc2]
            rfl
          | cons h3 hs =>
            refine ⟨.err, w₂, (cs.set a (some x, none)).set a (some x, some y), .more hf hf2, ?_⟩
            simp only [driveElems, Own.proto, pairOwn, hc2]
            rfl
        · rw [hd2]
          exact ⟨.err, w₂, _, .failSnd hf hf2 (by simp), rfl⟩
        · rw [hd2]
          exact ⟨.panic, w₂, _, .failSnd hf hf2 (by simp), rfl⟩
    · rw [hd]
      exact ⟨.err, w', _, .failFst hf (by simp), rfl⟩
    · rw [hd]
      exact ⟨.panic, w', _, .failFst hf (by simp), rfl⟩

theorem pair_drive {I : Deser σ α} {J : Deser σ β} (hI : I.Delivers) (hJ : J.Delivers) {ss : List Bytes} {js : List Json} (hs : Each JText ss js) (w : σ)
    (cs : Cells (Option α × Option β)) (o : Option (α × β)) : ∃ r w' cs', ReadsPair I J ss w r w' ∧
      drive (I.pair J).P (I.pair J).begin (.arr js) ((w, cs), o) = (r.map fun _ => (), ((w', cs'), pairOut o r)) := by
  obtain ⟨r, w', cs', hr, he⟩ := pair_elems hI hJ cs.next o hs w (cs.alloc (none, none)) (by simp)
  refine ⟨r, w', cs', hr, ?_⟩
  rw [drive]
  show ((driveElems (pairOwn I J).proto (.own cs.next) js ((w, cs.alloc (none, none)), o)).1, (driveElems (pairOwn I J).proto (.own cs.next) js ((w, cs.alloc (none, none)), o)).2) = _
  rw [he]

/-! ## Maps -/

theorem map_laws (ops : MapOps κ α μ) (I : Deser σ α) : (mapOwn ops I).Laws where
  get_put := by intros; simp [mapOwn]
  put_put := by intros; simp [mapOwn]

/-- The map afterwards. -/
def mapRes (ops : MapOps κ α μ) (m : μ) (r : Res (List (κ × α))) : Res μ := r.map fun l => l.foldl (fun m e => ops.insert e.1 e.2 m) m

theorem map_members {ops : MapOps κ α μ} {I : Deser σ α} (hI : I.Delivers) (a : Nat) (o : Option μ) : ∀ {ms : List (Bytes × Bytes)} {js : List (Bytes × Json)},
    Each (fun (m : Bytes × Bytes) (j : Bytes × Json) => m.1 = j.1 ∧ JText m.2 j.2) ms js → ∀ (w : σ) (cs : Cells (MapCell κ α μ)),
    ∃ r w' cs', ReadsEntries ops.parse I ms w r w' ∧
      driveMembers (mapOwn ops I).proto (.own a) js ((w, cs), o) =
        (r.map fun _ => (), ((w', cs'), pairOut o (mapRes ops ((cs.cell a).shift ops).map r)))
  | _, _, .nil, w, cs => by
    refine ⟨.ok [], w, cs.set a ⟨ops.empty, none, none⟩, .nil w, ?_⟩
    simp only [driveMembers]
    rfl
  | (k, s) :: ms, (k', j) :: js, .cons h hs, w, cs => by
    obtain ⟨hk, h⟩ := h
    simp only at hk h
    subst hk
    simp only [driveMembers]
    cases hp : ops.parse k with
    | none =>
      refine ⟨.err, w, cs.set a ((cs.cell a).shift ops), .badKey hp, ?_⟩
      simp only [Own.proto, mapOwn, hp]
      rfl
    | some x =>
      have hv : ((cs.cell a).shift ops).value = none := by
        unfold MapCell.shift
        cases (cs.cell a).key <;> cases (cs.cell a).value <;> rfl
      have e : (mapOwn ops I).proto.key (.own a) k ((w, cs), o) =
          (.ok (.sub a () I.begin), (mapOwn ops I).put a () (w, none) ((w, cs.set a { (cs.cell a).shift ops with key := some x }), o)) := by
        simp only [Own.proto, mapOwn, hp, Cells.set_cell, Cells.set_set, hv]
      rw [e]
      simp only
      rw [drive_sub (map_laws ops I)]
      rcases delivers_drive hI h w with ⟨v, w', hd, hf⟩ | ⟨o', w', hd, hf⟩ | ⟨o', w', hd, hf⟩
      · rw [hd]
        simp only
        have hput : (mapOwn ops I).put a () (w', some v) ((w, cs.set a { (cs.cell a).shift ops with key := some x }), o) =
            ((w', cs.set a ⟨((cs.cell a).shift ops).map, some x, some v⟩), o) := by
          simp [mapOwn]
        rw [hput]
        obtain ⟨r, w₂, cs₂, hr, he⟩ := map_members (ops := ops) hI a o hs w' (cs.set a ⟨((cs.cell a).shift ops).map, some x, some v⟩)
        refine ⟨r.map ((x, v) :: ·), w₂, cs₂, .cons hp hf hr, ?_⟩
        rw [he]
        cases r <;> simp [mapRes, MapCell.shift]
      · rw [hd]
        exact ⟨.err, w', _, .fail hp hf (by simp), rfl⟩
      · rw [hd]
        exact ⟨.panic, w', _, .fail hp hf (by simp), rfl⟩

theorem map_drive {ops : MapOps κ α μ} {I : Deser σ α} (hI : I.Delivers) {ms : List (Bytes × Bytes)} {js : List (Bytes × Json)}
    (hs : Each (fun (m : Bytes × Bytes) (j : Bytes × Json) => m.1 = j.1 ∧ JText m.2 j.2) ms js) (w : σ) (cs : Cells (MapCell κ α μ)) (o : Option μ) :
    ∃ r w' cs', ReadsEntries ops.parse I ms w r w' ∧
      drive (I.map ops).P (I.map ops).begin (.obj js) ((w, cs), o) = (r.map fun _ => (), ((w', cs'), pairOut o (mapRes ops ops.empty r))) := by
  obtain ⟨r, w', cs', hr, he⟩ := map_members (ops := ops) hI cs.next o hs w (cs.alloc ⟨ops.empty, none, none⟩)
  refine ⟨r, w', cs', hr, ?_⟩
  rw [drive]
  show ((driveMembers (mapOwn ops I).proto (.own cs.next) js ((w, cs.alloc ⟨ops.empty, none, none⟩), o)).1,
    (driveMembers (mapOwn ops I).proto (.own cs.next) js ((w, cs.alloc ⟨ops.empty, none, none⟩), o)).2) = _
  rw [he]
  simp [MapCell.shift]

/-! ## `Option<T>` -/

theorem opt_laws (I : Deser σ α) : (optOwn I).Laws where
  get_put := by intros; rfl
  put_put := by intros; rfl

/-- Same outcome, same state, and after success the second place is `Some` of the first. -/
def OptLike (x : Res Unit × (σ × Option α)) (y : Res Unit × (σ × Option (Option α))) : Prop :=
  y.1 = x.1 ∧ y.2.1 = x.2.1 ∧ (x.1 = .ok () → y.2.2 = some x.2.2)

theorem opt_drive (I : Deser σ α) (j : Json) (hj : j ≠ .null) (w : σ) (o : Option (Option α)) :
    OptLike (drive I.P I.begin j (w, none)) (drive I.opt.P I.opt.begin j (w, o)) := by
  cases j with
  | null => exact absurd rfl hj
  | bool b => exact ⟨rfl, rfl, fun _ => rfl⟩
  | str s => exact ⟨rfl, rfl, fun _ => rfl⟩
  | num l =>
    simp only [drive]
    unfold driveNum
    cases numEvent l with
    | ok ev => cases ev <;> first | exact ⟨rfl, rfl, fun _ => rfl⟩ | exact ⟨rfl, rfl, by simp⟩
    | err => exact ⟨rfl, rfl, by simp⟩
    | panic => exact ⟨rfl, rfl, by simp⟩
  | arr xs =>
    simp only [drive]
    have e : I.opt.P.seq I.opt.begin (w, o) = ((I.P.seq I.begin (w, none)).1.map (fun q => (NB.sub 0 () q : NB Empty Unit fun _ => I.P.Q)), (optOwn I).put 0 () (I.P.seq I.begin (w, none)).2 (w, o)) := rfl
    rw [e]
    rcases hs : I.P.seq I.begin (w, none) with ⟨q | _ | _, t⟩
    · simp only [Res.map_ok]
      have := driveElems_sub (opt_laws I) 0 () (w, o) q xs t
      have e2 := congrArg (fun z : Res Unit × (σ × Option (Option α)) => OptLike ((driveElems I.P q xs t).1, I.P.dropSeq q (driveElems I.P q xs t).2)
        (z.1, I.opt.P.dropSeq (NB.sub 0 () q : NB Empty Unit fun _ => I.P.Q) z.2)) this
      exact Eq.mpr e2 ⟨rfl, rfl, fun _ => rfl⟩
    · exact ⟨rfl, rfl, by simp⟩
    · exact ⟨rfl, rfl, by simp⟩
  | obj ms =>
    simp only [drive]
    have e : I.opt.P.map I.opt.begin (w, o) = ((I.P.map I.begin (w, none)).1.map (fun q => (NB.sub 0 () q : NB Empty Unit fun _ => I.P.M)), (optOwn I).put 0 () (I.P.map I.begin (w, none)).2 (w, o)) := rfl
    rw [e]
    rcases hs : I.P.map I.begin (w, none) with ⟨q | _ | _, t⟩
    · simp only [Res.map_ok]
      have := driveMembers_sub (opt_laws I) 0 () (w, o) q ms t
      have e2 := congrArg (fun z : Res Unit × (σ × Option (Option α)) => OptLike ((driveMembers I.P q ms t).1, I.P.dropMap q (driveMembers I.P q ms t).2)
        (z.1, I.opt.P.dropMap (NB.sub 0 () q : NB Empty Unit fun _ => I.P.M) z.2)) this
      exact Eq.mpr e2 ⟨rfl, rfl, fun _ => rfl⟩
    · exact ⟨rfl, rfl, by simp⟩
    · exact ⟨rfl, rfl, by simp⟩

/-! ## `Box<T>` -/

theorem box_laws (I : Deser σ α) : (boxOwn I).Laws where
  get_put := by intros; simp [boxOwn, boxPut]
  put_put := by intros; simp [boxOwn, boxPut]

/-- What the builder of a box does after its content was built. -/
def boxEnd (a : Nat) (W : World σ (BoxCell α) α) (d : σ × Option α → σ × Option α) : Res Unit × (σ × Option α) → Res Unit × World σ (BoxCell α) α
  | (.ok _, t) => boxTake a (boxPut a (d t) W)
  | (r, t) => (r, boxPut a t W)

theorem box_elems (I : Deser σ α) (a : Nat) (q : I.P.Q) (W : World σ (BoxCell α) α) (hW : (W.1.2.cell a).ignore = false) : ∀ (xs : List Json) (t : σ × Option α),
    driveElems (boxOwn I).proto (.own (a, q)) xs (boxPut a t W) = boxEnd a W (I.P.dropSeq q) (driveElems I.P q xs t)
  | [], t => by
    simp only [driveElems, Own.proto, boxOwn]
    have h1 : ((boxPut a t W).1.2.cell a) = ⟨t.2, false⟩ := by simp [boxPut, hW]
    have h2 : (boxPut a t W).1.1 = t.1 := rfl
    have h3 : ∀ t', boxPut a t' (boxPut a t W) = boxPut a t' W := fun t' => (box_laws I).put_put a () t' t W
    rw [h1, h2]
    simp only [h3]
    rcases hs : I.P.seqFinish q t with ⟨_ | _ | _, t'⟩ <;> rfl
  | x :: xs, t => by
    simp only [driveElems]
    have e : (boxOwn I).proto.element (.own (a, q)) (boxPut a t W) = ((I.P.element q t).1.map (fun v => (NV.sub a () v : NV Unit fun _ => I.P.V)), boxPut a (I.P.element q t).2 W) := by
      have h1 : ((boxPut a t W).1.2.cell a) = ⟨t.2, false⟩ := by simp [boxPut, hW]
      have h2 : (boxPut a t W).1.1 = t.1 := rfl
      have h3 : ∀ t', boxPut a t' (boxPut a t W) = boxPut a t' W := fun t' => (box_laws I).put_put a () t' t W
      simp only [Own.proto, boxOwn, h1, h2, h3]
      rfl
    rw [e]
    rcases hs : I.P.element q t with ⟨v | _ | _, t'⟩
    · simp only [Res.map_ok]
      have := drive_sub (box_laws I) a () W v x t'
      have e2 : drive (boxOwn I).proto (.sub a () v) x (boxPut a t' W) = ((drive I.P v x t').1, boxPut a (drive I.P v x t').2 W) := this
      rw [e2]
      rcases hd : drive I.P v x t' with ⟨_ | _ | _, t''⟩
      · exact box_elems I a q W hW xs t''
      · rfl
      · rfl
    · rfl
    · rfl

theorem box_members (I : Deser σ α) (a : Nat) (m : I.P.M) (W : World σ (BoxCell α) α) (hW : (W.1.2.cell a).ignore = false) : ∀ (ms : List (Bytes × Json)) (t : σ × Option α),
    driveMembers (boxOwn I).proto (.own (a, m)) ms (boxPut a t W) = boxEnd a W (I.P.dropMap m) (driveMembers I.P m ms t)
  | [], t => by
    simp only [driveMembers, Own.proto, boxOwn]
    have h1 : ((boxPut a t W).1.2.cell a) = ⟨t.2, false⟩ := by simp [boxPut, hW]
    have h2 : (boxPut a t W).1.1 = t.1 := rfl
    have h3 : ∀ t', boxPut a t' (boxPut a t W) = boxPut a t' W := fun t' => (box_laws I).put_put a () t' t W
    rw [h1, h2]
    simp only [h3]
    rcases hs : I.P.mapFinish m t with ⟨_ | _ | _, t'⟩ <;> rfl
  | (k, x) :: ms, t => by
    simp only [driveMembers]
    have e : (boxOwn I).proto.key (.own (a, m)) k (boxPut a t W) = ((I.P.key m k t).1.map (fun v => (NV.sub a () v : NV Unit fun _ => I.P.V)), boxPut a (I.P.key m k t).2 W) := by
      have h1 : ((boxPut a t W).1.2.cell a) = ⟨t.2, false⟩ := by simp [boxPut, hW]
      have h2 : (boxPut a t W).1.1 = t.1 := rfl
      have h3 : ∀ t', boxPut a t' (boxPut a t W) = boxPut a t' W := fun t' => (box_laws I).put_put a () t' t W
      simp only [Own.proto, boxOwn, h1, h2, h3]
      rfl
    rw [e]
    rcases hs : I.P.key m k t with ⟨v | _ | _, t'⟩
    · simp only [Res.map_ok]
      have := drive_sub (box_laws I) a () W v x t'
      have e2 : drive (boxOwn I).proto (.sub a () v) x (boxPut a t' W) = ((drive I.P v x t').1, boxPut a (drive I.P v x t').2 W) := this
      rw [e2]
      rcases hd : drive I.P v x t' with ⟨_ | _ | _, t''⟩
      · exact box_members I a m W hW ms t''
      · rfl
      · rfl
    · rfl
    · rfl

/-- Same outcome, same state, and after success the same content; success without content becomes a panic (`unwrap`). -/
def BoxLike (o : Option α) (x : Res Unit × (σ × Option α)) (y : Res Unit × World σ (BoxCell α) α) : Prop :=
  y.2.1.1 = x.2.1 ∧ match x.1, x.2.2 with
    | .ok _, some v => y.1 = .ok () ∧ y.2.2 = some v
    | .ok _, none => y.1 = .panic ∧ y.2.2 = o
    | .err, _ => y.1 = .err ∧ y.2.2 = o
    | .panic, _ => y.1 = .panic ∧ y.2.2 = o

theorem box_take_like (a : Nat) (t : σ × Option α) (W : World σ (BoxCell α) α) : BoxLike W.2 (.ok (), t) (boxTake a (boxPut a t W)) := by
  unfold boxTake
  have h1 : ((boxPut a t W).1.2.cell a).value = t.2 := by simp [boxPut]
  rw [h1]
  rcases t with ⟨s, _ | v⟩
  · exact ⟨rfl, rfl, rfl⟩
  · exact ⟨rfl, rfl, rfl⟩

theorem box_drive (I : Deser σ α) (j : Json) (w : σ) (cs : Cells (BoxCell α)) (o : Option α) :
    BoxLike o (drive I.P I.begin j (w, none)) (drive I.box.P I.box.begin j ((w, cs), o)) := by
  have leaf : ∀ ev, BoxLike o (I.P.leaf I.begin ev (w, none)) ((boxOwn I).leaf ev ((w, cs), o)) := by
    intro ev
    simp only [boxOwn]
    rcases I.P.leaf I.begin ev (w, none) with ⟨_ | _ | _, s, _ | v⟩ <;> exact ⟨rfl, rfl, rfl⟩
  cases j with
  | null => exact leaf .null
  | bool b => exact leaf (.bool b)
  | str s => exact leaf (.str s)
  | num l =>
    simp only [drive]
    unfold driveNum
    cases numEvent l with
    | ok ev => cases ev <;> first | exact leaf (.negative _) | exact leaf (.nonnegative _) | exact leaf (.float _) | exact ⟨rfl, rfl, rfl⟩
    | err => exact ⟨rfl, rfl, rfl⟩
    | panic => exact ⟨rfl, rfl, rfl⟩
  | arr xs =>
    simp only [drive]
    rcases hs : I.P.seq I.begin (w, none) with ⟨q | _ | _, t⟩
    · obtain ⟨s, v⟩ := t
      have e : I.box.P.seq I.box.begin ((w, cs), o) = (.ok (.own (cs.next, q)), boxPut cs.next (s, v) ((s, cs.alloc ⟨v, false⟩), o)) := by
        have : boxPut cs.next (s, v) ((s, cs.alloc ⟨v, false⟩), o) = ((s, cs.alloc ⟨v, false⟩), o) := by
          unfold boxPut
          simp only [Cells.alloc_cell]
          have := Cells.set_self (cs.alloc (⟨v, false⟩ : BoxCell α)) cs.next
          rw [Cells.alloc_cell] at this
          rw [this]
        rw [this]
        simp only [Deser.box, Own.proto, boxOwn, hs]
      rw [e]
      have hW : (((s, cs.alloc (⟨v, false⟩ : BoxCell α)), o) : World σ (BoxCell α) α).1.2.cell cs.next = ⟨v, false⟩ := Cells.alloc_cell ..
      have := box_elems I cs.next q ((s, cs.alloc ⟨v, false⟩), o) (by rw [hW]) xs (s, v)
      have e2 : driveElems I.box.P (.own (cs.next, q)) xs (boxPut cs.next (s, v) ((s, cs.alloc ⟨v, false⟩), o)) = _ := this
      simp only
      rw [e2]
      rcases hd : driveElems I.P q xs (s, v) with ⟨_ | _ | _, t'⟩
      · have hl := box_take_like cs.next (I.P.dropSeq q t') ((s, cs.alloc ⟨v, false⟩), o)
        have hdrop : ∀ W : World σ (BoxCell α) α, (W.1.2.cell cs.next).ignore = true → I.box.P.dropSeq (.own (cs.next, q)) W = W := by
          intro W h
          simp only [Deser.box, Own.proto, boxOwn, h, if_true]
        simp only [boxEnd]
        rw [hdrop]
        · exact hl
        · unfold boxTake
          split <;> simp
      · refine ⟨?_, rfl, ?_⟩ <;>
        simp only [boxEnd, Deser.box, Own.proto, boxOwn, boxPut, Cells.set_cell, Cells.alloc_cell, Bool.false_eq_true, if_false]
      · refine ⟨?_, rfl, ?_⟩ <;>
        simp only [boxEnd, Deser.box, Own.proto, boxOwn, boxPut, Cells.set_cell, Cells.alloc_cell, Bool.false_eq_true, if_false]
    · have e : I.box.P.seq I.box.begin ((w, cs), o) = (.err, ((t.1, cs), o)) := by
        simp only [Deser.box, Own.proto, boxOwn, hs]; rfl
      rw [e]
      exact ⟨rfl, rfl, rfl⟩
    · have e : I.box.P.seq I.box.begin ((w, cs), o) = (.panic, ((t.1, cs), o)) := by
        simp only [Deser.box, Own.proto, boxOwn, hs]; rfl
      rw [e]
      exact ⟨rfl, rfl, rfl⟩
  | obj ms =>
    simp only [drive]
    rcases hs : I.P.map I.begin (w, none) with ⟨q | _ | _, t⟩
    · obtain ⟨s, v⟩ := t
      have e : I.box.P.map I.box.begin ((w, cs), o) = (.ok (.own (cs.next, q)), boxPut cs.next (s, v) ((s, cs.alloc ⟨v, false⟩), o)) := by
        have : boxPut cs.next (s, v) ((s, cs.alloc ⟨v, false⟩), o) = ((s, cs.alloc ⟨v, false⟩), o) := by
          unfold boxPut
          simp only [Cells.alloc_cell]
          have := Cells.set_self (cs.alloc (⟨v, false⟩ : BoxCell α)) cs.next
          rw [Cells.alloc_cell] at this
          rw [this]
        rw [this]
        simp only [Deser.box, Own.proto, boxOwn, hs]
      rw [e]
      have hW : (((s, cs.alloc (⟨v, false⟩ : BoxCell α)), o) : World σ (BoxCell α) α).1.2.cell cs.next = ⟨v, false⟩ := Cells.alloc_cell ..
      have := box_members I cs.next q ((s, cs.alloc ⟨v, false⟩), o) (by rw [hW]) ms (s, v)
      have e2 : driveMembers I.box.P (.own (cs.next, q)) ms (boxPut cs.next (s, v) ((s, cs.alloc ⟨v, false⟩), o)) = _ := this
      simp only
      rw [e2]
      rcases hd : driveMembers I.P q ms (s, v) with ⟨_ | _ | _, t'⟩
      · have hl := box_take_like cs.next (I.P.dropMap q t') ((s, cs.alloc ⟨v, false⟩), o)
        have hdrop : ∀ W : World σ (BoxCell α) α, (W.1.2.cell cs.next).ignore = true → I.box.P.dropMap (.own (cs.next, q)) W = W := by
          intro W h
          simp only [Deser.box, Own.proto, boxOwn, h, if_true]
        simp only [boxEnd]
        rw [hdrop]
        · exact hl
        · unfold boxTake
          split <;> simp
      · refine ⟨?_, rfl, ?_⟩ <;>
        simp only [boxEnd, Deser.box, Own.proto, boxOwn, boxPut, Cells.set_cell, Cells.alloc_cell, Bool.false_eq_true, if_false]
      · refine ⟨?_, rfl, ?_⟩ <;>
        simp only [boxEnd, Deser.box, Own.proto, boxOwn, boxPut, Cells.set_cell, Cells.alloc_cell, Bool.false_eq_true, if_false]
    · have e : I.box.P.map I.box.begin ((w, cs), o) = (.err, ((t.1, cs), o)) := by
        simp only [Deser.box, Own.proto, boxOwn, hs]; rfl
      rw [e]
      exact ⟨rfl, rfl, rfl⟩
    · have e : I.box.P.map I.box.begin ((w, cs), o) = (.panic, ((t.1, cs), o)) := by
        simp only [Deser.box, Own.proto, boxOwn, hs]; rfl
      rw [e]
      exact ⟨rfl, rfl, rfl⟩

/-! ## Derived structs -/

theorem fieldNamed_some {n : Nat} {names : Fin n → Bytes} {k : Bytes} {i : Fin n} (h : fieldNamed names k = some i) : Named names k i := by
  unfold fieldNamed at h
  rw [List.find?_eq_some_iff_getElem] at h
  obtain ⟨h1, m, hm, rfl, h2⟩ := h
  refine ⟨by simpa using h1, fun j hj => ?_⟩
  have := h2 j.1 (by simpa [Fin.lt_def] using hj)
  simpa using this

theorem fieldNamed_none {n : Nat} {names : Fin n → Bytes} {k : Bytes} (h : fieldNamed names k = none) : ∀ i, names i ≠ k := by
  intro i
  unfold fieldNamed at h
  rw [List.find?_eq_none] at h
  simpa using h i (List.mem_finRange i)

variable {n : Nat} {τ : Fin n → Type}

theorem struct_laws (names : Fin n → Bytes) (I : (i : Fin n) → Deser σ (τ i)) : (structOwn names I).Laws where
  get_put := by intros; simp [structOwn]
  put_put := by
    intro a i t t' w
    simp only [structOwn, Cells.set_set, Cells.set_cell]
    congr 3
    funext j
    by_cases h : j = i <;> simp [h]

/-- The content of the place after the last member. -/
def structRes (r : Res ((i : Fin n) → Option (τ i))) : Res ((i : Fin n) → τ i) :=
  match r with
  | .ok c =>
    match fieldsTaken c with
    | some v => .ok v
    | none => .err
  | .err => .err
  | .panic => .panic

theorem overwrites_drive {I : Deser σ α} (hI : I.Delivers) (hO : I.Overwrites) {s : Bytes} {j : Json} (h : JText s j) (w : σ) (c : Option α) :
    (∃ a w', drive I.P I.begin j (w, c) = (.ok (), (w', some a)) ∧ I.fromStr s w = some (.ok a, w')) ∨
    (∃ o w', drive I.P I.begin j (w, c) = (.err, (w', o)) ∧ I.fromStr s w = some (.err, w')) ∨
    (∃ o w', drive I.P I.begin j (w, c) = (.panic, (w', o)) ∧ I.fromStr s w = some (.panic, w')) := by
  obtain ⟨r, w', o₁, o₂, h1, h2, h3⟩ := hO s ⟨j, h⟩ w c
  have e1 : fromStrImpl I.P s I.begin (w, c) = some (drive I.P I.begin j (w, c)) := fromStrImpl_text h I.P _ _ _ (by simp)
  have e2 : fromStrImpl I.P s I.begin (w, none) = some (drive I.P I.begin j (w, none)) := fromStrImpl_text h I.P _ _ _ (by simp)
  rw [e1] at h1
  rw [e2] at h2
  rw [Option.some.inj h1]
  have hd := Option.some.inj h2
  rcases delivers_drive hI h w with ⟨x, w', hd', hf⟩ | ⟨o', w', hd', hf⟩ | ⟨o', w', hd', hf⟩
  · rw [hd] at hd'
    cases hd'
    rw [h3 rfl]
    exact .inl ⟨x, w', rfl, hf⟩
  · rw [hd] at hd'
    cases hd'
    exact .inr (.inl ⟨o₁, w', rfl, hf⟩)
  · rw [hd] at hd'
    cases hd'
    exact .inr (.inr ⟨o₁, w', rfl, hf⟩)

theorem struct_members {names : Fin n → Bytes} {I : (i : Fin n) → Deser σ (τ i)} (hI : ∀ i, (I i).Delivers) (hO : ∀ i, (I i).Overwrites) (a : Nat)
    (o : Option ((i : Fin n) → τ i)) : ∀ {ms : List (Bytes × Bytes)} {js : List (Bytes × Json)},
    Each (fun (m : Bytes × Bytes) (j : Bytes × Json) => m.1 = j.1 ∧ JText m.2 j.2) ms js → ∀ (w : σ) (cs : Cells ((i : Fin n) → Option (τ i))),
    ∃ r w' cs', ReadsFields names I (cs.cell a) ms w r w' ∧
      driveMembers (structOwn names I).proto (.own a) js ((w, cs), o) = ((structRes r).map fun _ => (), ((w', cs'), pairOut o (structRes r)))
  | _, _, .nil, w, cs => by
    refine ⟨.ok (cs.cell a), w, cs.set a (fieldsLeft (cs.cell a)), .nil _ w, ?_⟩
    simp only [driveMembers, Own.proto, structOwn, structRes]
    cases fieldsTaken (cs.cell a) <;> rfl
  | (k, s) :: ms, (k', j) :: js, .cons h hs, w, cs => by
    obtain ⟨hk, h⟩ := h
    simp only at hk h
    subst hk
    simp only [driveMembers]
    cases hp : fieldNamed names k with
    | none =>
      have e : (structOwn names I).proto.key (.own a) k ((w, cs), o) = (.ok .ignore, ((w, cs), o)) := by
        simp only [Own.proto, structOwn, hp]
      rw [e]
      simp only
      rw [drive_skipped]
      have e2 : fromStrImpl skip s () () = some (drive skip () j ()) := fromStrImpl_text h skip _ _ _ (by simp)
      have hn := fieldNamed_none hp
      rcases hd : drive skip () j () with ⟨_ | _ | _, u⟩
      · rw [hd] at e2
        simp only
        obtain ⟨r, w', cs', hr, he⟩ := struct_members hI hO a o hs w cs
        exact ⟨r, w', cs', .unknown hn e2 hr, he⟩
      · rw [hd] at e2
        exact ⟨.err, w, cs, .unknownFail hn e2 (by simp), rfl⟩
      · rw [hd] at e2
        exact ⟨.panic, w, cs, .unknownFail hn e2 (by simp), rfl⟩
    | some i =>
      have hn := fieldNamed_some hp
      have hself : (fun j => if h : j = i then h ▸ cs.cell a i else cs.cell a j) = cs.cell a := by
        funext j
        by_cases h : j = i
        · subst h; simp
        · simp [h]
      have e : (structOwn names I).proto.key (.own a) k ((w, cs), o) = (.ok (.sub a i (I i).begin), (structOwn names I).put a i (w, cs.cell a i) ((w, cs), o)) := by
        simp only [Own.proto, structOwn, hp, hself, Cells.set_self]
      rw [e]
      simp only
      rw [drive_sub (struct_laws names I)]
      rcases overwrites_drive (hI i) (hO i) h w (cs.cell a i) with ⟨x, w', hd, hf⟩ | ⟨o', w', hd, hf⟩ | ⟨o', w', hd, hf⟩
      · rw [hd]
        simp only
        have hput : (structOwn names I).put a i (w', some x) ((w, cs), o) = ((w', cs.set a (assign (cs.cell a) i x)), o) := by
          have : (fun j => if h : j = i then h ▸ some x else cs.cell a j) = assign (cs.cell a) i x := by
            funext j
            unfold assign
            by_cases h : j = i
            · subst h; simp
            · simp [h]
          simp only [structOwn, this]
        rw [hput]
        obtain ⟨r, w₂, cs₂, hr, he⟩ := struct_members hI hO a o hs w' (cs.set a (assign (cs.cell a) i x))
        rw [Cells.set_cell] at hr
        exact ⟨r, w₂, cs₂, .field hn hf hr, he⟩
      · rw [hd]
        exact ⟨.err, w', _, .fail hn hf (by simp), rfl⟩
      · rw [hd]
        exact ⟨.panic, w', _, .fail hn hf (by simp), rfl⟩

theorem struct_drive {names : Fin n → Bytes} {I : (i : Fin n) → Deser σ (τ i)} (hI : ∀ i, (I i).Delivers) (hO : ∀ i, (I i).Overwrites)
    {ms : List (Bytes × Bytes)} {js : List (Bytes × Json)} (hs : Each (fun (m : Bytes × Bytes) (j : Bytes × Json) => m.1 = j.1 ∧ JText m.2 j.2) ms js)
    (w : σ) (cs : Cells ((i : Fin n) → Option (τ i))) (o : Option ((i : Fin n) → τ i)) : ∃ r w' cs', ReadsStruct names I ms w r w' ∧
      drive (Deser.struct names I).P (Deser.struct names I).begin (.obj js) ((w, cs), o) = (r.map fun _ => (), ((w', cs'), pairOut o r)) := by
  obtain ⟨r, w', cs', hr, he⟩ := struct_members (names := names) hI hO cs.next o hs w (cs.alloc fun i => (I i).default)
  rw [Cells.alloc_cell] at hr
  refine ⟨structRes r, w', cs', ⟨r, hr, ?_⟩, ?_⟩
  · cases r with
    | ok c =>
      simp only [structRes]
      unfold fieldsTaken
      by_cases h : ∀ i, (c i).isSome = true
      · rw [dif_pos h]
        exact .inl ⟨_, fun i => by simp, rfl⟩
      · rw [dif_neg h]
        refine .inr ⟨?_, rfl⟩
        obtain ⟨i, hi⟩ := Classical.not_forall.1 h
        exact ⟨i, by simpa using hi⟩
    | err => rfl
    | panic => rfl
  · rw [drive]
    show ((driveMembers (structOwn names I).proto (.own cs.next) js ((w, cs.alloc fun i => (I i).default), o)).1,
      (driveMembers (structOwn names I).proto (.own cs.next) js ((w, cs.alloc fun i => (I i).default), o)).2) = _
    rw [he]

end

end Miniserde
