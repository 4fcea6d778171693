import Verif.Spec.Encode
import Verif.Model.SerLib

/-!
# Library and derived values stream their encoding

Every value of a type streams a finite tree which is one of its encodings, without touching a dead stream; afterwards the heap of streams is what it
was before.
-/

namespace Miniserde
section
variable (E : Env) (order : Nat → List (Bytes × Val) → List (Bytes × Val))

/-- No live cell beyond the allocation counter. -/
def SHeap.Fresh (h : SHeap) : Prop := ∀ n, h.next ≤ n → h.cells n = none

/-- Same live streams, no new fault. -/
structure SHeap.Same (h h' : SHeap) : Prop where
  cells : h'.cells = h.cells
  next : h.next ≤ h'.next
  fault : h'.fault = h.fault

theorem SHeap.Same.refl (h : SHeap) : SHeap.Same h h := ⟨rfl, Nat.le_refl _, rfl⟩

theorem SHeap.Same.fresh {h h' : SHeap} (s : SHeap.Same h h') (f : h.Fresh) : h'.Fresh := by
  intro n hn; rw [s.cells]; exact f n (Nat.le_trans s.next hn)

theorem SHeap.lt_of_some {h : SHeap} (f : h.Fresh) {q : Nat} {s : Stream} (hq : h.cells q = some s) : q < h.next := by
  rcases Nat.lt_or_ge q h.next with hl | hl
  · exact hl
  · rw [f q hl] at hq; cases hq

theorem SHeap.Fresh.set {h : SHeap} (f : h.Fresh) {q : Nat} {s : Stream} (hq : h.cells q = some s) (s' : Stream) : (h.set q s').Fresh := by
  intro n hn
  have := SHeap.lt_of_some f hq
  have hn' : h.next ≤ n := hn
  simp only [SHeap.set]
  rw [if_neg (by omega)]
  exact f n hn'

theorem SHeap.set_set (h : SHeap) (q : Nat) (s s' : Stream) : (h.set q s).set q s' = h.set q s' := by
  simp only [SHeap.set, SHeap.mk.injEq, true_and, and_true]
  funext n; split <;> rfl

theorem SHeap.Same.set {h h' : SHeap} (s : SHeap.Same h h') (q : Nat) (x : Stream) : SHeap.Same (h.set q x) (h'.set q x) :=
  ⟨by simp only [SHeap.set, s.cells], s.next, s.fault⟩

theorem SHeap.Same.trans {a b c : SHeap} (h : SHeap.Same a b) (k : SHeap.Same b c) : SHeap.Same a c :=
  ⟨k.cells.trans h.cells, Nat.le_trans h.next k.next, k.fault.trans h.fault⟩

theorem SHeap.alloc_fresh {h : SHeap} (f : h.Fresh) (s : Stream) : (h.alloc s).2.Fresh := by
  intro n hn
  have hn' : h.next + 1 ≤ n := hn
  simp only [SHeap.alloc]
  rw [if_neg (by omega)]
  exact f n (by omega)

theorem SHeap.alloc_cell (h : SHeap) (s : Stream) : (h.alloc s).2.cells h.next = some s := by simp [SHeap.alloc]

theorem SHeap.free_same {h h' : SHeap} (f : h.Fresh) {s s' : Stream} (k : SHeap.Same ((h.alloc s).2.set h.next s') h') :
    SHeap.Same h (h'.free h.next) := by
  have hc : h'.cells h.next = some s' := by rw [k.cells]; simp [SHeap.set]
  unfold SHeap.free
  rw [hc]
  refine ⟨?_, Nat.le_trans (Nat.le_succ _) k.next, k.fault⟩
  funext n
  simp only [k.cells, SHeap.set, SHeap.alloc]
  by_cases hn : n = h.next
  · rw [if_pos hn, hn, f _ (Nat.le_refl _)]
  · simp [hn]

/-- The claim for one value. -/
def Good (t : Ty) (v : Val) : Prop :=
  ∀ h : SHeap, h.Fresh → ∃ x h', Streams (serLib E order) (t, v) h x h' ∧ SHeap.Same h h' ∧ Encodes E t v x

variable {E order}

/-- Two values with the same `begin` stream the same. -/
theorem streams_congr {σ : Type} {P : SProto σ} {s s' : P.S} {w : σ} (e : P.begin s w = P.begin s' w) {x : FTree} {w' : σ}
    (h : Streams P s w x w') : Streams P s' w x w' := by
  cases h with
  | leaf h hl => exact .leaf (e ▸ h) hl
  | seq h hs => exact .seq (e ▸ h) hs
  | map h hs => exact .map (e ▸ h) hs

theorem good_leaf {t : Ty} {v : Val} {f : Frag Nat Nat} {x : FTree} (hb : ∀ h, beginVal E order t v h = (some f, h)) (hl : LeafFrag f x)
    (he : Encodes E t v x) : Good E order t v :=
  fun h _ => ⟨x, h, .leaf (P := serLib E order) (hb h) hl, .refl h, he⟩

theorem good_seq {t : Ty} {v : Val} {s : Stream} (hb : ∀ h, beginVal E order t v h = newSeq s h)
    (hs : ∀ (h : SHeap) (q : Nat), h.Fresh → h.cells q = some s → ∃ xs h' s', StreamsSeq (serLib E order) q h xs h' ∧ SHeap.Same (h.set q s') h' ∧
      Encodes E t v (.seq xs)) : Good E order t v := by
  intro h f
  obtain ⟨xs, h', s', h1, h2, h3⟩ := hs (h.alloc s).2 h.next (SHeap.alloc_fresh f s) (SHeap.alloc_cell h s)
  exact ⟨.seq xs, h'.free h.next, .seq (P := serLib E order) (hb h) h1, SHeap.free_same f h2, h3⟩

theorem good_map {t : Ty} {v : Val} {s : SHeap → Stream} (hb : ∀ h, beginVal E order t v h = newMap (s h) h)
    (hs : ∀ (h0 h : SHeap) (q : Nat), h.Fresh → h.cells q = some (s h0) → ∃ xs h' s', StreamsMap (serLib E order) q h xs h' ∧
      SHeap.Same (h.set q s') h' ∧ Encodes E t v (.map xs)) : Good E order t v := by
  intro h f
  obtain ⟨xs, h', s', h1, h2, h3⟩ := hs h (h.alloc (s h)).2 h.next (SHeap.alloc_fresh f _) (SHeap.alloc_cell h _)
  exact ⟨.map xs, h'.free h.next, .map (P := serLib E order) (hb h) h1, SHeap.free_same f h2, h3⟩

/-- `SliceStream`. -/
theorem slice_streams {t : Ty} : ∀ (rest : List Val) (h : SHeap) (q : Nat), (∀ v ∈ rest, Good E order t v) → h.Fresh →
    h.cells q = some (.slice t rest) → ∃ xs h', StreamsSeq (serLib E order) q h xs h' ∧ SHeap.Same (h.set q (.slice t [])) h' ∧
      EncodesAll E t rest xs
  | [], h, q, _, f, hq => by
    refine ⟨[], h.set q (.slice t []), .nil (P := serLib E order) ?_, .refl _, .nil t⟩
    show seqNextLib q h = _
    rw [seqNextLib, hq]; rfl
  | v :: rest, h, q, hg, f, hq => by
    have hn : seqNextLib q h = (some (some (t, v)), h.set q (.slice t rest)) := by rw [seqNextLib, hq]
    have f1 := f.set hq (.slice t rest)
    obtain ⟨x, h2, hx, s2, e2⟩ := hg v (by simp) _ f1
    have hc : h2.cells q = some (.slice t rest) := by rw [s2.cells]; simp [SHeap.set]
    obtain ⟨xs, h3, hxs, s3, e3⟩ := slice_streams rest h2 q (fun u hu => hg u (by simp [hu])) (s2.fresh f1) hc
    refine ⟨x :: xs, h3, .cons (P := serLib E order) hn hx hxs, ?_, .cons e2 e3⟩
    have := s2.set q (.slice t [])
    rw [SHeap.set_set] at this
    exact this.trans s3

/-- `HashMapStream`, `BTreeMapStream`. -/
theorem map_streams {k : Nat} {t : Ty} : ∀ (rest : List (Bytes × Val)) (h : SHeap) (q : Nat), (∀ m ∈ rest, Good E order t m.2) → h.Fresh →
    h.cells q = some (.map k t rest) → ∃ xs h', StreamsMap (serLib E order) q h xs h' ∧ SHeap.Same (h.set q (.map k t [])) h' ∧
      EncodesEntries E (E.keyShow k) t rest xs
  | [], h, q, _, f, hq => by
    refine ⟨[], h.set q (.map k t []), .nil (P := serLib E order) ?_, .refl _, .nil _ t⟩
    show mapNextLib E q h = _
    rw [mapNextLib, hq]; rfl
  | (key, v) :: rest, h, q, hg, f, hq => by
    have hn : mapNextLib E q h = (some (some (E.keyShow k key, (t, v))), h.set q (.map k t rest)) := by rw [mapNextLib, hq]
    have f1 := f.set hq (.map k t rest)
    obtain ⟨x, h2, hx, s2, e2⟩ := hg (key, v) (by simp) _ f1
    have hc : h2.cells q = some (.map k t rest) := by rw [s2.cells]; simp [SHeap.set]
    obtain ⟨xs, h3, hxs, s3, e3⟩ := map_streams rest h2 q (fun u hu => hg u (by simp [hu])) (s2.fresh f1) hc
    refine ⟨(E.keyShow k key, x) :: xs, h3, .cons (P := serLib E order) hn hx hxs, ?_, .cons e2 e3⟩
    have := s2.set q (.map k t [])
    rw [SHeap.set_set] at this
    exact this.trans s3

/-- `ObjectIter`. -/
theorem object_streams : ∀ (rest : List (Bytes × Val)) (h : SHeap) (q : Nat), (∀ m ∈ rest, Good E order .value m.2) → h.Fresh →
    h.cells q = some (.object rest) → ∃ xs h', StreamsMap (serLib E order) q h xs h' ∧ SHeap.Same (h.set q (.object [])) h' ∧
      EncodesEntries E (fun k => k) .value rest xs
  | [], h, q, _, f, hq => by
    refine ⟨[], h.set q (.object []), .nil (P := serLib E order) ?_, .refl _, .nil _ _⟩
    show mapNextLib E q h = _
    rw [mapNextLib, hq]; rfl
  | (key, v) :: rest, h, q, hg, f, hq => by
    have hn : mapNextLib E q h = (some (some (key, (.value, v))), h.set q (.object rest)) := by rw [mapNextLib, hq]
    have f1 := f.set hq (.object rest)
    obtain ⟨x, h2, hx, s2, e2⟩ := hg (key, v) (by simp) _ f1
    have hc : h2.cells q = some (.object rest) := by rw [s2.cells]; simp [SHeap.set]
    obtain ⟨xs, h3, hxs, s3, e3⟩ := object_streams rest h2 q (fun u hu => hg u (by simp [hu])) (s2.fresh f1) hc
    refine ⟨(key, x) :: xs, h3, .cons (P := serLib E order) hn hx hxs, ?_, .cons e2 e3⟩
    have := s2.set q (.object [])
    rw [SHeap.set_set] at this
    exact this.trans s3

/-- Derived `__Map`, from field number `state` on. -/
theorem strct_streams {i : Nat} {data : List Val} : ∀ (fs : List (Bytes × Ty)) (vs : List Val) (state : Nat) (h : SHeap) (q : Nat),
    (E.fields i).drop state = fs → data.drop state = vs → vs.length = fs.length →
    (∀ (j : Nat) (f : Bytes × Ty) (v : Val), (E.fields i)[j]? = some f → data[j]? = some v → Good E order f.2 v) → h.Fresh →
    h.cells q = some (.strct i data state) → ∃ xs h' s', StreamsMap (serLib E order) q h xs h' ∧ SHeap.Same (h.set q s') h' ∧
      EncodesFields E fs vs xs
  | [], vs, state, h, q, hf, hv, hl, hg, f, hq => by
    have e : vs = [] := List.length_eq_zero_iff.1 hl
    subst e
    refine ⟨[], h.set q (.strct i data (state + 1)), _, .nil (P := serLib E order) ?_, .refl _, .nil⟩
    show mapNextLib E q h = _
    have : (E.fields i)[state]? = none := by
      rw [List.getElem?_eq_none_iff]; exact List.drop_eq_nil_iff.1 hf
    rw [mapNextLib, hq]; simp only [this]; rfl
  | (name, t) :: fs, [], state, h, q, hf, hv, hl, hg, f, hq => by simp at hl
  | (name, t) :: fs, v :: vs, state, h, q, hf, hv, hl, hg, f, hq => by
    have h1 : (E.fields i)[state]? = some (name, t) := by
      have := congrArg (·[0]?) hf; simpa using this
    have h2 : data[state]? = some v := by
      have := congrArg (·[0]?) hv; simpa using this
    have hn : mapNextLib E q h = (some (some (name, (t, v))), h.set q (.strct i data (state + 1))) := by
      rw [mapNextLib, hq]; simp only [h1, h2]
    have f1 := f.set hq (.strct i data (state + 1))
    obtain ⟨x, h2, hx, s2, e2⟩ := hg state _ v h1 h2 _ f1
    have hc : h2.cells q = some (.strct i data (state + 1)) := by rw [s2.cells]; simp [SHeap.set]
    obtain ⟨xs, h3, s', hxs, s3, e3⟩ := strct_streams fs vs (state + 1) h2 q
      (by rw [← List.drop_drop, hf]; rfl) (by rw [← List.drop_drop, hv]; rfl) (by simpa using hl) hg (s2.fresh f1) hc
    refine ⟨(name, x) :: xs, h3, s', .cons (P := serLib E order) hn hx hxs, ?_, .cons e2 e3⟩
    have := s2.set q s'
    rw [SHeap.set_set] at this
    exact this.trans s3

/-- Every value of a type streams one of its encodings. -/
theorem hasTy_good (ho : ∀ n ms, (order n ms).Perm ms) {t : Ty} {v : Val} (h : HasTy E t v) : Good E order t v := by
  induction h with
  | unit => exact good_leaf (fun _ => rfl) .null .unit
  | bool b => exact good_leaf (fun _ => rfl) (.bool b) (.bool b)
  | string h => exact good_leaf (fun _ => rfl) (.str _) (.string _)
  | @int signed bits z hb hz =>
    cases signed with
    | true => exact good_leaf (fun _ => rfl) (.i64 z) (.signed bits z)
    | false =>
      have : 0 ≤ z := by simpa [lowest] using hz.1
      obtain ⟨n, rfl⟩ := Int.eq_ofNat_of_zero_le this
      exact good_leaf (fun _ => rfl) (.u64 n) (.unsigned bits n)
  | f32 h => exact good_leaf (fun _ => rfl) (.f64 _) (.f32 _)
  | f64 h => exact good_leaf (fun _ => rfl) (.f64 _) (.f64 _)
  | numU ht h => rcases ht with rfl | rfl <;> exact good_leaf (fun _ => rfl) (.u64 _) (.numU _ _ (by simp))
  | numI ht h => rcases ht with rfl | rfl <;> exact good_leaf (fun _ => rfl) (.i64 _) (.numI _ _ (by simp))
  | numF ht h => rcases ht with rfl | rfl <;> exact good_leaf (fun _ => rfl) (.f64 _) (.numF _ _ (by simp))
  | vNull => exact good_leaf (fun _ => rfl) .null .vNull
  | vBool b => exact good_leaf (fun _ => rfl) (.bool b) (.vBool b)
  | vStr h => exact good_leaf (fun _ => rfl) (.str _) (.vStr _)
  | @array t vs ht h ih =>
    rcases ht with rfl | rfl <;>
    · refine good_seq (s := .slice .value vs) (fun _ => rfl) fun h q f hq => ?_
      obtain ⟨xs, h', h1, h2, h3⟩ := slice_streams vs h q ih f hq
      exact ⟨xs, h', _, h1, h2, .array (by simp) h3⟩
  | @object t ms ht hk hs h ih =>
    rcases ht with rfl | rfl <;>
    · refine good_map (s := fun _ => .object ms) (fun _ => rfl) fun _ h q f hq => ?_
      obtain ⟨xs, h', h1, h2, h3⟩ := object_streams ms h q ih f hq
      exact ⟨xs, h', _, h1, h2, .object (by simp) h3⟩
  | @box t v h ih =>
    intro h f
    obtain ⟨x, h', h1, h2, h3⟩ := ih h f
    exact ⟨x, h', streams_congr (P := serLib E order) (s := (t, v)) (s' := (.box t, .box v)) (by simp [serLib, beginVal]) h1, h2, .box h3⟩
  | none t => exact good_leaf (fun _ => rfl) .null (.none t)
  | @some t v h ih =>
    intro h f
    obtain ⟨x, h', h1, h2, h3⟩ := ih h f
    exact ⟨x, h', streams_congr (P := serLib E order) (s := (t, v)) (s' := (.opt t, .optSome v)) (by simp [serLib, beginVal]) h1, h2, .some h3⟩
  | @tup a b x y hx hy ihx ihy =>
    refine good_seq (s := .tuple a b x y 0) (fun _ => rfl) fun h q f hq => ?_
    have n1 : seqNextLib q h = (some (some (a, x)), h.set q (.tuple a b x y 1)) := by rw [seqNextLib, hq]; rfl
    have f1 := f.set hq (.tuple a b x y 1)
    obtain ⟨tx, h2, hx, s2, e2⟩ := ihx _ f1
    have c2 : h2.cells q = some (.tuple a b x y 1) := by rw [s2.cells]; simp [SHeap.set]
    have n2 : seqNextLib q h2 = (some (some (b, y)), h2.set q (.tuple a b x y 2)) := by rw [seqNextLib, c2]; rfl
    have f2 := (s2.fresh f1).set c2 (.tuple a b x y 2)
    obtain ⟨ty, h3, hy, s3, e3⟩ := ihy _ f2
    have c3 : h3.cells q = some (.tuple a b x y 2) := by rw [s3.cells]; simp [SHeap.set]
    have n3 : seqNextLib q h3 = (some none, h3.set q (.tuple a b x y 3)) := by rw [seqNextLib, c3]; rfl
    refine ⟨[tx, ty], h3.set q (.tuple a b x y 3), .tuple a b x y 3,
      .cons (P := serLib E order) n1 hx (.cons (P := serLib E order) n2 hy (.nil (P := serLib E order) n3)), ?_, .tup e2 e3⟩
    have k1 := s2.set q (.tuple a b x y 3)
    rw [SHeap.set_set] at k1
    have k2 := s3.set q (.tuple a b x y 3)
    rw [SHeap.set_set] at k2
    exact k1.trans k2
  | @vec t vs h ih =>
    refine good_seq (s := .slice t vs) (fun _ => rfl) fun h q f hq => ?_
    obtain ⟨xs, h', h1, h2, h3⟩ := slice_streams vs h q ih f hq
    exact ⟨xs, h', _, h1, h2, .vec h3⟩
  | @arr t n vs hn h ih =>
    refine good_seq (s := .slice t vs) (fun _ => rfl) fun h q f hq => ?_
    obtain ⟨xs, h', h1, h2, h3⟩ := slice_streams vs h q ih f hq
    exact ⟨xs, h', _, h1, h2, .arr h3⟩
  | @hmap k t ms hk hu h ih =>
    refine good_map (s := fun h => .map k t (order h.next ms)) (fun _ => rfl) fun h0 h q f hq => ?_
    obtain ⟨xs, h', h1, h2, h3⟩ := map_streams _ h q (fun m hm => ih m ((ho _ _).mem_iff.1 hm)) f hq
    exact ⟨xs, h', _, h1, h2, .hmap (ho _ _) h3⟩
  | @bmap k t ms hs hu h ih =>
    refine good_map (s := fun _ => .map k t ms) (fun _ => rfl) fun _ h q f hq => ?_
    obtain ⟨xs, h', h1, h2, h3⟩ := map_streams ms h q ih f hq
    exact ⟨xs, h', _, h1, h2, .bmap h3⟩
  | @strct i vs hn h ih =>
    refine good_map (s := fun _ => .strct i vs 0) (fun _ => rfl) fun _ h q f hq => ?_
    obtain ⟨xs, h', s', h1, h2, h3⟩ := strct_streams (E.fields i) vs 0 h q rfl rfl hn ih f hq
    exact ⟨xs, h', s', h1, h2, .strct h3⟩
  | @enm i j h =>
    have hj : (E.variants i)[j]? = some (E.variants i)[j] := List.getElem?_eq_getElem h
    exact good_leaf (f := .str (E.variants i)[j]) (fun _ => by simp only [beginVal, hj]; rfl) (.str _) (.enm hj)

end
end Miniserde
