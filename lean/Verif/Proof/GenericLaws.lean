import Verif.Proof.Generic

/-!
# Containers of well-behaved types are well-behaved
-/

namespace Miniserde

/-! ## Traversals that do not look at part of the world -/

section
variable {ω π : Type}

/-- Same result, and the same visible part of the world. -/
def Agree {β : Type} (f : ω → π) (x y : Res β × ω) : Prop := x.1 = y.1 ∧ f x.2 = f y.2

/-- The results and the visible part (`f`) of the world depend on the visible part only. -/
structure Proto.Through (P : Proto ω) (f : ω → π) : Prop where
  null : ∀ v w w', f w = f w' → Agree f (P.null v w) (P.null v w')
  boolean : ∀ v b w w', f w = f w' → Agree f (P.boolean v b w) (P.boolean v b w')
  string : ∀ v b w w', f w = f w' → Agree f (P.string v b w) (P.string v b w')
  negative : ∀ v b w w', f w = f w' → Agree f (P.negative v b w) (P.negative v b w')
  nonnegative : ∀ v b w w', f w = f w' → Agree f (P.nonnegative v b w) (P.nonnegative v b w')
  float : ∀ v b w w', f w = f w' → Agree f (P.float v b w) (P.float v b w')
  seq : ∀ v w w', f w = f w' → Agree f (P.seq v w) (P.seq v w')
  map : ∀ v w w', f w = f w' → Agree f (P.map v w) (P.map v w')
  element : ∀ v w w', f w = f w' → Agree f (P.element v w) (P.element v w')
  seqFinish : ∀ v w w', f w = f w' → Agree f (P.seqFinish v w) (P.seqFinish v w')
  key : ∀ v k w w', f w = f w' → Agree f (P.key v k w) (P.key v k w')
  mapFinish : ∀ v w w', f w = f w' → Agree f (P.mapFinish v w) (P.mapFinish v w')
  dropSeq : ∀ v w w', f w = f w' → f (P.dropSeq v w) = f (P.dropSeq v w')
  dropMap : ∀ v w w', f w = f w' → f (P.dropMap v w) = f (P.dropMap v w')

variable {P : Proto ω} {f : ω → π} (T : P.Through f)
include T

theorem driveNum_through (v : P.V) (l : NumLit) (w w' : ω) (h : f w = f w') : Agree f (driveNum P v l w) (driveNum P v l w') := by
  unfold driveNum
  cases numEvent l with
  | ok ev =>
    cases ev <;> first | exact T.negative _ _ _ _ h | exact T.nonnegative _ _ _ _ h | exact T.float _ _ _ _ h | exact ⟨rfl, h⟩
  | err => exact ⟨rfl, h⟩
  | panic => exact ⟨rfl, h⟩

mutual

theorem drive_through (v : P.V) : ∀ (j : Json) (w w' : ω), f w = f w' → Agree f (drive P v j w) (drive P v j w')
  | .null, w, w', h => T.null _ _ _ h
  | .bool b, w, w', h => T.boolean _ _ _ _ h
  | .str s, w, w', h => T.string _ _ _ _ h
  | .num l, w, w', h => by simp only [drive]; exact driveNum_through T v l w w' h
  | .arr xs, w, w', h => by
    simp only [drive]
    have e := T.seq v w w' h
    rcases h1 : P.seq v w with ⟨r, u⟩
    rcases h2 : P.seq v w' with ⟨r', u'⟩
    rw [h1, h2] at e
    obtain ⟨e1, e2⟩ := e
    simp only at e1 e2
    subst e1
    cases r with
    | ok q =>
      have ih := driveElems_through q xs u u' e2
      exact ⟨ih.1, T.dropSeq q _ _ ih.2⟩
    | err => exact ⟨rfl, e2⟩
    | panic => exact ⟨rfl, e2⟩
  | .obj ms, w, w', h => by
    simp only [drive]
    have e := T.map v w w' h
    rcases h1 : P.map v w with ⟨r, u⟩
    rcases h2 : P.map v w' with ⟨r', u'⟩
    rw [h1, h2] at e
    obtain ⟨e1, e2⟩ := e
    simp only at e1 e2
    subst e1
    cases r with
    | ok q =>
      have ih := driveMembers_through q ms u u' e2
      exact ⟨ih.1, T.dropMap q _ _ ih.2⟩
    | err => exact ⟨rfl, e2⟩
    | panic => exact ⟨rfl, e2⟩

theorem driveElems_through (q : P.Q) : ∀ (xs : List Json) (w w' : ω), f w = f w' → Agree f (driveElems P q xs w) (driveElems P q xs w')
  | [], w, w', h => T.seqFinish _ _ _ h
  | x :: xs, w, w', h => by
    simp only [driveElems]
    have e := T.element q w w' h
    rcases h1 : P.element q w with ⟨r, u⟩
    rcases h2 : P.element q w' with ⟨r', u'⟩
    rw [h1, h2] at e
    obtain ⟨e1, e2⟩ := e
    simp only at e1 e2
    subst e1
    cases r with
    | ok v =>
      have ih := drive_through v x u u' e2
      simp only
      rcases h3 : drive P v x u with ⟨r, z⟩
      rcases h4 : drive P v x u' with ⟨r', z'⟩
      rw [h3, h4] at ih
      obtain ⟨e3, e4⟩ := ih
      simp only at e3 e4
      subst e3
      cases r with
      | ok _ => exact driveElems_through q xs z z' e4
      | err => exact ⟨rfl, e4⟩
      | panic => exact ⟨rfl, e4⟩
    | err => exact ⟨rfl, e2⟩
    | panic => exact ⟨rfl, e2⟩

theorem driveMembers_through (m : P.M) : ∀ (ms : List (Bytes × Json)) (w w' : ω), f w = f w' → Agree f (driveMembers P m ms w) (driveMembers P m ms w')
  | [], w, w', h => T.mapFinish _ _ _ h
  | (k, x) :: ms, w, w', h => by
    simp only [driveMembers]
    have e := T.key m k w w' h
    rcases h1 : P.key m k w with ⟨r, u⟩
    rcases h2 : P.key m k w' with ⟨r', u'⟩
    rw [h1, h2] at e
    obtain ⟨e1, e2⟩ := e
    simp only at e1 e2
    subst e1
    cases r with
    | ok v =>
      have ih := drive_through v x u u' e2
      simp only
      rcases h3 : drive P v x u with ⟨r, z⟩
      rcases h4 : drive P v x u' with ⟨r', z'⟩
      rw [h3, h4] at ih
      obtain ⟨e3, e4⟩ := ih
      simp only at e3 e4
      subst e3
      cases r with
      | ok _ => exact driveMembers_through m ms z z' e4
      | err => exact ⟨rfl, e4⟩
      | panic => exact ⟨rfl, e4⟩
    | err => exact ⟨rfl, e2⟩
    | panic => exact ⟨rfl, e2⟩

end

end

/-! ## The place of a container is not looked at -/

section
variable {σ ι C ρ : Type} {α : ι → Type} {I : (i : ι) → Deser σ (α i)}

/-- The same for the container's own part. -/
structure Own.Blind (O : Own σ (World σ C ρ) I) : Prop where
  get : ∀ a i x o o', O.get a i (x, o) = O.get a i (x, o')
  put : ∀ a i t x o o', (O.put a i t (x, o)).1 = (O.put a i t (x, o')).1
  leaf : ∀ ev x o o', Agree Prod.fst (O.leaf ev (x, o)) (O.leaf ev (x, o'))
  seq : ∀ x o o', Agree Prod.fst (O.seq (x, o)) (O.seq (x, o'))
  map : ∀ x o o', Agree Prod.fst (O.map (x, o)) (O.map (x, o'))
  element : ∀ q x o o', Agree Prod.fst (O.element q (x, o)) (O.element q (x, o'))
  seqFinish : ∀ q x o o', Agree Prod.fst (O.seqFinish q (x, o)) (O.seqFinish q (x, o'))
  key : ∀ m k x o o', Agree Prod.fst (O.key m k (x, o)) (O.key m k (x, o'))
  mapFinish : ∀ m x o o', Agree Prod.fst (O.mapFinish m (x, o)) (O.mapFinish m (x, o'))
  dropSeq : ∀ q x o o', (O.dropSeq q (x, o)).1 = (O.dropSeq q (x, o')).1
  dropMap : ∀ m x o o', (O.dropMap m (x, o)).1 = (O.dropMap m (x, o')).1

theorem Own.through {O : Own σ (World σ C ρ) I} (B : O.Blind) : O.proto.Through Prod.fst := by
  have within : ∀ {β : Type} (a : Nat) (i : ι) (f : σ × Option (α i) → Res β × (σ × Option (α i))) (w w' : World σ C ρ), w.1 = w'.1 →
      Agree Prod.fst (O.within a i f w) (O.within a i f w') := by
    intro β a i f w w' h
    obtain ⟨x, o⟩ := w
    obtain ⟨x', o'⟩ := w'
    simp only at h
    subst h
    unfold Own.within
    rw [B.get a i x o o']
    exact ⟨rfl, B.put _ _ _ _ _ _⟩
  have withinMap : ∀ {β γ : Type} (a : Nat) (i : ι) (f : σ × Option (α i) → Res β × (σ × Option (α i))) (g : β → γ) (w w' : World σ C ρ), w.1 = w'.1 →
      Agree Prod.fst ((O.within a i f w).1.map g, (O.within a i f w).2) ((O.within a i f w').1.map g, (O.within a i f w').2) := by
    intro β γ a i f g w w' h
    have := within a i f w w' h
    refine ⟨?_, this.2⟩
    simp only
    rw [this.1]
  have visit : ∀ ev v (w w' : World σ C ρ), w.1 = w'.1 → Agree Prod.fst (O.visit ev v w) (O.visit ev v w') := by
    intro ev v w w' h
    cases v with
    | place => obtain ⟨x, o⟩ := w; obtain ⟨x', o'⟩ := w'; simp only at h; subst h; exact B.leaf ..
    | ignore => exact ⟨rfl, h⟩
    | sub a i v => exact within _ _ _ _ _ h
  constructor
  · exact visit _
  · exact fun v b => visit _ v
  · exact fun v b => visit _ v
  · exact fun v b => visit _ v
  · exact fun v b => visit _ v
  · exact fun v b => visit _ v
  · intro v w w' h
    cases v with
    | place => obtain ⟨x, o⟩ := w; obtain ⟨x', o'⟩ := w'; simp only at h; subst h; exact B.seq ..
    | ignore => exact ⟨rfl, h⟩
    | sub a i v => exact withinMap _ _ _ _ _ _ h
  · intro v w w' h
    cases v with
    | place => obtain ⟨x, o⟩ := w; obtain ⟨x', o'⟩ := w'; simp only at h; subst h; exact B.map ..
    | ignore => exact ⟨rfl, h⟩
    | sub a i v => exact withinMap _ _ _ _ _ _ h
  · intro v w w' h
    cases v with
    | own q => obtain ⟨x, o⟩ := w; obtain ⟨x', o'⟩ := w'; simp only at h; subst h; exact B.element ..
    | ignore => exact ⟨rfl, h⟩
    | sub a i v => exact withinMap _ _ _ _ _ _ h
  · intro v w w' h
    cases v with
    | own q => obtain ⟨x, o⟩ := w; obtain ⟨x', o'⟩ := w'; simp only at h; subst h; exact B.seqFinish ..
    | ignore => exact ⟨rfl, h⟩
    | sub a i v => exact within _ _ _ _ _ h
  · intro v k w w' h
    cases v with
    | own q => obtain ⟨x, o⟩ := w; obtain ⟨x', o'⟩ := w'; simp only at h; subst h; exact B.key ..
    | ignore => exact ⟨rfl, h⟩
    | sub a i v => exact withinMap _ _ _ _ _ _ h
  · intro v w w' h
    cases v with
    | own q => obtain ⟨x, o⟩ := w; obtain ⟨x', o'⟩ := w'; simp only at h; subst h; exact B.mapFinish ..
    | ignore => exact ⟨rfl, h⟩
    | sub a i v => exact within _ _ _ _ _ h
  · intro v w w' h
    obtain ⟨x, o⟩ := w
    obtain ⟨x', o'⟩ := w'
    simp only at h
    subst h
    cases v with
    | own q => exact B.dropSeq ..
    | ignore => rfl
    | sub a i v =>
      show (O.put a i ((I i).P.dropSeq v (O.get a i (x, o))) (x, o)).1 = (O.put a i ((I i).P.dropSeq v (O.get a i (x, o'))) (x, o')).1
      rw [B.get a i x o o']
      exact B.put ..
  · intro v w w' h
    obtain ⟨x, o⟩ := w
    obtain ⟨x', o'⟩ := w'
    simp only at h
    subst h
    cases v with
    | own q => exact B.dropMap ..
    | ignore => rfl
    | sub a i v =>
      show (O.put a i ((I i).P.dropMap v (O.get a i (x, o))) (x, o)).1 = (O.put a i ((I i).P.dropMap v (O.get a i (x, o'))) (x, o')).1
      rw [B.get a i x o o']
      exact B.put ..

end

section
variable {σ α β κ μ : Type}

theorem vec_blind (I : Deser σ α) : (vecOwn I).Blind := by
  constructor <;> intros <;> first | rfl | exact ⟨rfl, rfl⟩ | exact Empty.elim ‹_›

theorem arr_blind (n : Nat) (I : Deser σ α) : (arrOwn n I).Blind := by
  constructor <;> intros <;> first | rfl | exact ⟨rfl, rfl⟩ | exact Empty.elim ‹_› | skip
  · simp only [arrOwn]
    split <;> exact ⟨rfl, rfl⟩
  · simp only [arrOwn]
    split
    · split <;> exact ⟨rfl, rfl⟩
    · exact ⟨rfl, rfl⟩

theorem pair_blind (I : Deser σ α) (J : Deser σ β) : (pairOwn I J).Blind := by
  constructor <;> intros <;> first | rfl | exact ⟨rfl, rfl⟩ | exact Empty.elim ‹_› | skip
  · rename_i a i x o o'; cases i <;> rfl
  · rename_i a i t x o o'; cases i <;> rfl
  · simp only [pairOwn]
    split <;> exact ⟨rfl, rfl⟩
  · simp only [pairOwn]
    split <;> exact ⟨rfl, rfl⟩

theorem map_blind (ops : MapOps κ α μ) (I : Deser σ α) : (mapOwn ops I).Blind := by
  constructor <;> intros <;> first | rfl | exact ⟨rfl, rfl⟩ | exact Empty.elim ‹_› | skip
  · simp only [mapOwn]
    split <;> exact ⟨rfl, rfl⟩

theorem struct_blind {n : Nat} {τ : Fin n → Type} (names : Fin n → Bytes) (I : (i : Fin n) → Deser σ (τ i)) : (structOwn names I).Blind := by
  constructor <;> intros <;> first | rfl | exact ⟨rfl, rfl⟩ | exact Empty.elim ‹_› | skip
  · simp only [structOwn]
    split <;> exact ⟨rfl, rfl⟩
  · simp only [structOwn]
    split <;> exact ⟨rfl, rfl⟩

theorem boxTake_blind (a : Nat) (x : σ × Cells (BoxCell α)) (o o' : Option α) : Agree Prod.fst (boxTake a (x, o)) (boxTake a (x, o')) := by
  simp only [boxTake]
  split <;> exact ⟨rfl, rfl⟩

theorem box_blind (I : Deser σ α) : (boxOwn I).Blind := by
  constructor <;> intros <;> first | rfl | exact ⟨rfl, rfl⟩ | skip
  · simp only [boxOwn]
    split <;> exact ⟨rfl, rfl⟩
  · simp only [boxOwn]
    split <;> exact ⟨rfl, rfl⟩
  · simp only [boxOwn]
    split <;> exact ⟨rfl, rfl⟩
  · simp only [boxOwn]
    split <;> exact ⟨rfl, rfl⟩
  · simp only [boxOwn]
    split
    · exact boxTake_blind ..
    · split
      · exact boxTake_blind ..
      · exact ⟨rfl, rfl⟩
  · simp only [boxOwn]
    split <;> exact ⟨rfl, rfl⟩
  · simp only [boxOwn]
    split
    · exact boxTake_blind ..
    · split
      · exact boxTake_blind ..
      · exact ⟨rfl, rfl⟩
  · simp only [boxOwn]
    split <;> rfl
  · simp only [boxOwn]
    split <;> rfl

end

/-! ## The specification determines the outcome -/

section
variable {σ α β κ : Type}

theorem ReadsAll.unique {I : Deser σ α} : ∀ {ss : List Bytes} {w : σ} {r r' : Res (List α)} {w₁ w₂ : σ}, ReadsAll I ss w r w₁ → ReadsAll I ss w r' w₂ → r = r' ∧ w₁ = w₂
  | _, _, _, _, _, _, .nil _, h => by cases h; exact ⟨rfl, rfl⟩
  | _, _, _, _, _, _, .cons h1 hs1, h => by
    cases h with
    | cons h2 hs2 =>
      rw [h1] at h2
      cases h2
      obtain ⟨rfl, rfl⟩ := ReadsAll.unique hs1 hs2
      exact ⟨rfl, rfl⟩
    | err h2 => rw [h1] at h2; cases h2
    | panic h2 => rw [h1] at h2; cases h2
  | _, _, _, _, _, _, .err h1, h => by
    cases h with
    | cons h2 hs2 => rw [h1] at h2; cases h2
    | err h2 => rw [h1] at h2; cases h2; exact ⟨rfl, rfl⟩
    | panic h2 => rw [h1] at h2; cases h2
  | _, _, _, _, _, _, .panic h1, h => by
    cases h with
    | cons h2 hs2 => rw [h1] at h2; cases h2
    | err h2 => rw [h1] at h2; cases h2
    | panic h2 => rw [h1] at h2; cases h2; exact ⟨rfl, rfl⟩

theorem ReadsArr.unique {n : Nat} {I : Deser σ α} {ss : List Bytes} {w : σ} {r r' : Res (List α)} {w₁ w₂ : σ} (h : ReadsArr n I ss w r w₁) (h' : ReadsArr n I ss w r' w₂) :
    r = r' ∧ w₁ = w₂ := by
  obtain ⟨q, h1, rfl⟩ := h
  obtain ⟨q', h2, rfl⟩ := h'
  obtain ⟨rfl, rfl⟩ := h1.unique h2
  exact ⟨rfl, rfl⟩

theorem ReadsPair.unique {I : Deser σ α} {J : Deser σ β} {ss : List Bytes} {w : σ} {r r' : Res (α × β)} {w₁ w₂ : σ} (h : ReadsPair I J ss w r w₁)
    (h' : ReadsPair I J ss w r' w₂) : r = r' ∧ w₁ = w₂ := by
  cases h <;> cases h' <;> grind

theorem ReadsEntries.unique {parse : Bytes → Option κ} {I : Deser σ α} : ∀ {ms : List (Bytes × Bytes)} {w : σ} {r r' : Res (List (κ × α))} {w₁ w₂ : σ},
    ReadsEntries parse I ms w r w₁ → ReadsEntries parse I ms w r' w₂ → r = r' ∧ w₁ = w₂
  | _, _, _, _, _, _, .nil _, h => by cases h; exact ⟨rfl, rfl⟩
  | _, _, _, _, _, _, .badKey h1, h => by cases h <;> simp_all
  | _, _, _, _, _, _, .fail h1 h2 hr, h => by cases h <;> grind
  | _, _, _, _, _, _, .cons h1 h2 hs, h => by
    cases h with
    | badKey h3 => simp_all
    | fail h3 h4 hr => simp_all
    | cons h3 h4 hs' =>
      rw [h1] at h3
      cases h3
      rw [h2] at h4
      cases h4
      obtain ⟨rfl, rfl⟩ := ReadsEntries.unique hs hs'
      exact ⟨rfl, rfl⟩

theorem Named.unique {n : Nat} {names : Fin n → Bytes} {k : Bytes} {i j : Fin n} (h : Named names k i) (h' : Named names k j) : i = j := by
  rcases Nat.lt_trichotomy i.1 j.1 with hl | he | hl
  · exact absurd h.1 (h'.2 i hl)
  · exact Fin.ext he
  · exact absurd h'.1 (h.2 j hl)

theorem ReadsFields.unique {n : Nat} {τ : Fin n → Type} {names : Fin n → Bytes} {I : (i : Fin n) → Deser σ (τ i)} :
    ∀ {c : (i : Fin n) → Option (τ i)} {ms : List (Bytes × Bytes)} {w : σ} {r r' : Res ((i : Fin n) → Option (τ i))} {w₁ w₂ : σ},
    ReadsFields names I c ms w r w₁ → ReadsFields names I c ms w r' w₂ → r = r' ∧ w₁ = w₂
  | _, _, _, _, _, _, _, .nil _ _, h => by cases h; exact ⟨rfl, rfl⟩
  | _, _, _, _, _, _, _, .field h1 h2 hs, h => by
    cases h with
    | field h3 h4 hs' =>
      cases h1.unique h3
      rw [h2] at h4
      cases h4
      exact ReadsFields.unique hs hs'
    | fail h3 h4 hr =>
      cases h1.unique h3
      rw [h2] at h4
      cases h4
      exact absurd rfl (hr _)
    | unknown h3 h4 hs' => exact absurd h1.1 (h3 _)
    | unknownFail h3 h4 hr => exact absurd h1.1 (h3 _)
  | _, _, _, _, _, _, _, .fail h1 h2 hr, h => by
    cases h with
    | field h3 h4 hs' =>
      cases h1.unique h3
      rw [h2] at h4
      cases h4
      exact absurd rfl (hr _)
    | fail h3 h4 hr =>
      cases h1.unique h3
      rw [h2] at h4
      cases h4
      exact ⟨rfl, rfl⟩
    | unknown h3 h4 hs' => exact absurd h1.1 (h3 _)
    | unknownFail h3 h4 hr => exact absurd h1.1 (h3 _)
  | _, _, _, _, _, _, _, .unknown h1 h2 hs, h => by
    cases h with
    | field h3 h4 hs' => exact absurd h3.1 (h1 _)
    | fail h3 h4 hr => exact absurd h3.1 (h1 _)
    | unknown h3 h4 hs' => exact ReadsFields.unique hs hs'
    | unknownFail h3 h4 hr => rw [h2] at h4; cases h4; exact absurd rfl hr
  | _, _, _, _, _, _, _, .unknownFail h1 h2 hr, h => by
    cases h with
    | field h3 h4 hs' => exact absurd h3.1 (h1 _)
    | fail h3 h4 hr => exact absurd h3.1 (h1 _)
    | unknown h3 h4 hs' => rw [h2] at h4; cases h4; exact absurd rfl hr
    | unknownFail h3 h4 hr => rw [h2] at h4; cases h4; exact ⟨rfl, rfl⟩

theorem ReadsStruct.unique {n : Nat} {τ : Fin n → Type} {names : Fin n → Bytes} {I : (i : Fin n) → Deser σ (τ i)} {ms : List (Bytes × Bytes)} {w : σ}
    {r r' : Res ((i : Fin n) → τ i)} {w₁ w₂ : σ} (h : ReadsStruct names I ms w r w₁) (h' : ReadsStruct names I ms w r' w₂) : r = r' ∧ w₁ = w₂ := by
  obtain ⟨q, h1, h2⟩ := h
  obtain ⟨q', h3, h4⟩ := h'
  obtain ⟨rfl, rfl⟩ := h1.unique h3
  refine ⟨?_, rfl⟩
  cases q with
  | ok c =>
    rcases h2 with ⟨v, hv, rfl⟩ | ⟨⟨i, hi⟩, rfl⟩ <;> rcases h4 with ⟨v', hv', rfl⟩ | ⟨⟨i', hi'⟩, rfl⟩
    · refine congrArg Res.ok (funext fun i => ?_)
      have := hv i
      rw [hv' i] at this
      exact (Option.some.inj this).symm
    · rw [hv i'] at hi'; cases hi'
    · rw [hv' i] at hi; cases hi
    · rfl
  | err => rw [h2, h4]
  | panic => rw [h2, h4]

end

/-! ## Closure -/

section
variable {σ α β κ μ : Type}

/-- Not an array and not an object. -/
def Json.scalar : Json → Bool
  | .arr _ => false
  | .obj _ => false
  | _ => true

theorem leaf_err_drive {ω ι : Type} {α : ι → Type} {I : (i : ι) → Deser σ (α i)} {O : Own σ ω I} (hl : ∀ ev w, O.leaf ev w = (.err, w)) {j : Json}
    (hj : j.scalar = true) (w : ω) : drive O.proto .place j w = (.err, w) ∨ drive O.proto .place j w = (.panic, w) := by
  cases j with
  | null => exact .inl (hl _ _)
  | bool b => exact .inl (hl _ _)
  | str s => exact .inl (hl _ _)
  | num l =>
    simp only [drive]
    unfold driveNum
    cases numEvent l with
    | ok ev => cases ev <;> first | exact .inl (hl _ _) | exact .inr rfl
    | err => exact .inl rfl
    | panic => exact .inr rfl
  | arr xs => cases hj
  | obj ms => cases hj

theorem seq_err_drive {ω ι : Type} {α : ι → Type} {I : (i : ι) → Deser σ (α i)} {O : Own σ ω I} (hl : ∀ w, O.seq w = (.err, w)) (xs : List Json) (w : ω) :
    drive O.proto .place (.arr xs) w = (.err, w) := by
  simp only [drive]
  have : O.proto.seq .place w = (.err, w) := hl w
  rw [this]

theorem map_err_drive {ω ι : Type} {α : ι → Type} {I : (i : ι) → Deser σ (α i)} {O : Own σ ω I} (hl : ∀ w, O.map w = (.err, w)) (ms : List (Bytes × Json)) (w : ω) :
    drive O.proto .place (.obj ms) w = (.err, w) := by
  simp only [drive]
  have : O.proto.map .place w = (.err, w) := hl w
  rw [this]

/-- A container whose place is only written at the end, with a value that is independent of the place. -/
theorem lawful_of {C ρ : Type} {J : Deser (σ × Cells C) ρ} (hT : J.P.Through Prod.fst)
    (h : ∀ s j, JText s j → ∀ x o, (drive J.P J.begin j (x, o)).1 = .ok () → ∃ a, (drive J.P J.begin j (x, o)).2.2 = some a ∧
      (drive J.P J.begin j (x, none)).2.2 = some a) : J.Delivers ∧ J.Overwrites := by
  constructor
  · intro s w w' o he
    obtain ⟨j, hj⟩ := fromStrImpl_ok (by simp) he
    have e : fromStrImpl J.P s J.begin (w, none) = some (drive J.P J.begin j (w, none)) := fromStrImpl_text hj J.P _ _ _ (by simp)
    rw [he] at e
    have e := Option.some.inj e
    obtain ⟨a, ha, -⟩ := h s j hj w none (by rw [← e])
    rw [← e] at ha
    simp only at ha
    rw [ha]
    simp
  · rintro s ⟨j, hj⟩ w o
    have e1 : fromStrImpl J.P s J.begin (w, o) = some (drive J.P J.begin j (w, o)) := fromStrImpl_text hj J.P _ _ _ (by simp)
    have e2 : fromStrImpl J.P s J.begin (w, none) = some (drive J.P J.begin j (w, none)) := fromStrImpl_text hj J.P _ _ _ (by simp)
    have ht := drive_through hT J.begin j (w, o) (w, none) rfl
    have hh := h s j hj w o
    rw [e1, e2]
    rcases h1 : drive J.P J.begin j (w, o) with ⟨r, x, o₁⟩
    rcases h2 : drive J.P J.begin j (w, none) with ⟨r', x', o₂⟩
    rw [h1, h2] at ht hh
    obtain ⟨ht1, ht2⟩ := ht
    simp only at ht1 ht2 hh
    subst ht1
    subst ht2
    refine ⟨r, x, o₁, o₂, rfl, rfl, fun hr => ?_⟩
    obtain ⟨a, rfl, rfl⟩ := hh hr
    rfl

theorem map_unit_ok {γ : Type} {r : Res γ} (h : r.map (fun _ => ()) = .ok ()) : ∃ x, r = .ok x := by
  cases r with
  | ok x => exact ⟨x, rfl⟩
  | err => cases h
  | panic => cases h

theorem not_ok_of {γ : Type} {P : Prop} {x : Res Unit × γ} {w : γ} (h : x = (.err, w) ∨ x = (.panic, w)) (hx : x.1 = .ok ()) : P := by
  rcases h with rfl | rfl <;> cases hx

/-- **C72.** `Vec<T>` of a well-behaved `T` is well-behaved. -/
theorem vec_lawful {I : Deser σ α} (hI : I.Delivers) : I.vec.Delivers ∧ I.vec.Overwrites := by
  refine lawful_of (Own.through (vec_blind I)) fun s j hj x o hok => ?_
  cases j with
  | arr js =>
    obtain ⟨ss, hss⟩ := hj.elements
    obtain ⟨w, cs⟩ := x
    obtain ⟨r, w', cs', hr, he⟩ := vec_drive hI hss w cs o
    obtain ⟨r', w'', cs'', hr', he'⟩ := vec_drive hI hss w cs none
    obtain ⟨rfl, rfl⟩ := hr.unique hr'
    rw [he] at hok ⊢
    rw [he']
    obtain ⟨l, rfl⟩ := map_unit_ok hok
    exact ⟨l, rfl, rfl⟩
  | obj ms => exact not_ok_of (.inl (map_err_drive (O := vecOwn I) (fun _ => rfl) ms _)) hok
  | null => exact not_ok_of (leaf_err_drive (O := vecOwn I) (fun _ _ => rfl) rfl _) hok
  | bool b => exact not_ok_of (leaf_err_drive (O := vecOwn I) (fun _ _ => rfl) rfl _) hok
  | str s => exact not_ok_of (leaf_err_drive (O := vecOwn I) (fun _ _ => rfl) rfl _) hok
  | num l => exact not_ok_of (leaf_err_drive (O := vecOwn I) (fun _ _ => rfl) (j := .num l) rfl _) hok

/-- **C72.** The same for `[T; N]`. -/
theorem arr_lawful {n : Nat} {I : Deser σ α} (hI : I.Delivers) : (I.arr n).Delivers ∧ (I.arr n).Overwrites := by
  refine lawful_of (Own.through (arr_blind n I)) fun s j hj x o hok => ?_
  cases j with
  | arr js =>
    obtain ⟨ss, hss⟩ := hj.elements
    obtain ⟨w, cs⟩ := x
    obtain ⟨r, w', cs', hr, he⟩ := arr_drive (n := n) hI hss w cs o
    obtain ⟨r', w'', cs'', hr', he'⟩ := arr_drive (n := n) hI hss w cs none
    obtain ⟨rfl, rfl⟩ := hr.unique hr'
    rw [he] at hok ⊢
    rw [he']
    obtain ⟨l, rfl⟩ := map_unit_ok hok
    exact ⟨l, rfl, rfl⟩
  | obj ms => exact not_ok_of (.inl (map_err_drive (O := arrOwn n I) (fun _ => rfl) ms _)) hok
  | null => exact not_ok_of (leaf_err_drive (O := arrOwn n I) (fun _ _ => rfl) rfl _) hok
  | bool b => exact not_ok_of (leaf_err_drive (O := arrOwn n I) (fun _ _ => rfl) rfl _) hok
  | str s => exact not_ok_of (leaf_err_drive (O := arrOwn n I) (fun _ _ => rfl) rfl _) hok
  | num l => exact not_ok_of (leaf_err_drive (O := arrOwn n I) (fun _ _ => rfl) (j := .num l) rfl _) hok

/-- **C72.** The same for `(A, B)`. -/
theorem pair_lawful {I : Deser σ α} {J : Deser σ β} (hI : I.Delivers) (hJ : J.Delivers) : (I.pair J).Delivers ∧ (I.pair J).Overwrites := by
  refine lawful_of (Own.through (pair_blind I J)) fun s j hj x o hok => ?_
  cases j with
  | arr js =>
    obtain ⟨ss, hss⟩ := hj.elements
    obtain ⟨w, cs⟩ := x
    obtain ⟨r, w', cs', hr, he⟩ := pair_drive hI hJ hss w cs o
    obtain ⟨r', w'', cs'', hr', he'⟩ := pair_drive hI hJ hss w cs none
    obtain ⟨rfl, rfl⟩ := hr.unique hr'
    rw [he] at hok ⊢
    rw [he']
    obtain ⟨l, rfl⟩ := map_unit_ok hok
    exact ⟨l, rfl, rfl⟩
  | obj ms => exact not_ok_of (.inl (map_err_drive (O := pairOwn I J) (fun _ => rfl) ms _)) hok
  | null => exact not_ok_of (leaf_err_drive (O := pairOwn I J) (fun _ _ => rfl) rfl _) hok
  | bool b => exact not_ok_of (leaf_err_drive (O := pairOwn I J) (fun _ _ => rfl) rfl _) hok
  | str s => exact not_ok_of (leaf_err_drive (O := pairOwn I J) (fun _ _ => rfl) rfl _) hok
  | num l => exact not_ok_of (leaf_err_drive (O := pairOwn I J) (fun _ _ => rfl) (j := .num l) rfl _) hok

/-- **C72.** The same for maps. -/
theorem map_lawful {ops : MapOps κ α μ} {I : Deser σ α} (hI : I.Delivers) : (I.map ops).Delivers ∧ (I.map ops).Overwrites := by
  refine lawful_of (Own.through (map_blind ops I)) fun s j hj x o hok => ?_
  cases j with
  | obj js =>
    obtain ⟨ss, hss⟩ := hj.members
    obtain ⟨w, cs⟩ := x
    obtain ⟨r, w', cs', hr, he⟩ := map_drive (ops := ops) hI hss w cs o
    obtain ⟨r', w'', cs'', hr', he'⟩ := map_drive (ops := ops) hI hss w cs none
    obtain ⟨rfl, rfl⟩ := hr.unique hr'
    rw [he] at hok ⊢
    rw [he']
    obtain ⟨l, rfl⟩ := map_unit_ok hok
    exact ⟨_, rfl, rfl⟩
  | arr ms => exact not_ok_of (.inl (seq_err_drive (O := mapOwn ops I) (fun _ => rfl) ms _)) hok
  | null => exact not_ok_of (leaf_err_drive (O := mapOwn ops I) (fun _ _ => rfl) rfl _) hok
  | bool b => exact not_ok_of (leaf_err_drive (O := mapOwn ops I) (fun _ _ => rfl) rfl _) hok
  | str s => exact not_ok_of (leaf_err_drive (O := mapOwn ops I) (fun _ _ => rfl) rfl _) hok
  | num l => exact not_ok_of (leaf_err_drive (O := mapOwn ops I) (fun _ _ => rfl) (j := .num l) rfl _) hok

/-- **C72.** The same for derived structs. -/
theorem struct_lawful {n : Nat} {τ : Fin n → Type} {names : Fin n → Bytes} {I : (i : Fin n) → Deser σ (τ i)} (hI : ∀ i, (I i).Delivers)
    (hO : ∀ i, (I i).Overwrites) : (Deser.struct names I).Delivers ∧ (Deser.struct names I).Overwrites := by
  refine lawful_of (Own.through (struct_blind names I)) fun s j hj x o hok => ?_
  cases j with
  | obj js =>
    obtain ⟨ss, hss⟩ := hj.members
    obtain ⟨w, cs⟩ := x
    obtain ⟨r, w', cs', hr, he⟩ := struct_drive (names := names) hI hO hss w cs o
    obtain ⟨r', w'', cs'', hr', he'⟩ := struct_drive (names := names) hI hO hss w cs none
    obtain ⟨rfl, rfl⟩ := hr.unique hr'
    rw [he] at hok ⊢
    rw [he']
    obtain ⟨l, rfl⟩ := map_unit_ok hok
    exact ⟨_, rfl, rfl⟩
  | arr ms => exact not_ok_of (.inl (seq_err_drive (O := structOwn names I) (fun _ => rfl) ms _)) hok
  | null => exact not_ok_of (leaf_err_drive (O := structOwn names I) (fun _ _ => rfl) rfl _) hok
  | bool b => exact not_ok_of (leaf_err_drive (O := structOwn names I) (fun _ _ => rfl) rfl _) hok
  | str s => exact not_ok_of (leaf_err_drive (O := structOwn names I) (fun _ _ => rfl) rfl _) hok
  | num l => exact not_ok_of (leaf_err_drive (O := structOwn names I) (fun _ _ => rfl) (j := .num l) rfl _) hok

/-- **C72.** `Box<T>` is well-behaved in any case. -/
theorem box_lawful (I : Deser σ α) : I.box.Delivers ∧ I.box.Overwrites := by
  refine lawful_of (Own.through (box_blind I)) fun s j hj x o hok => ?_
  obtain ⟨w, cs⟩ := x
  have h1 := box_drive I j w cs o
  have h2 := box_drive I j w cs none
  rcases hd : drive I.P I.begin j (w, none) with ⟨_ | _ | _, w', _ | v⟩ <;> rw [hd] at h1 h2
  · obtain ⟨-, h, -⟩ := h1; rw [h] at hok; cases hok
  · exact ⟨v, h1.2.2, h2.2.2⟩
  all_goals (obtain ⟨-, h, -⟩ := h1; rw [h] at hok; cases hok)

/-- **C72.** `Option<T>` is well-behaved in any case. -/
theorem opt_lawful (I : Deser σ α) : I.opt.Delivers ∧ I.opt.Overwrites := by
  have key : ∀ j w o, ∃ r w' o', drive I.opt.P I.opt.begin j (w, o) = (r, (w', o')) ∧ ∃ o'', drive I.opt.P I.opt.begin j (w, none) = (r, (w', o'')) ∧
      (r = .ok () → o' = o'' ∧ o' ≠ none) := by
    intro j w o
    by_cases hj : j = .null
    · subst hj
      exact ⟨.ok (), w, some none, rfl, some none, rfl, fun _ => ⟨rfl, by simp⟩⟩
    · have h1 := opt_drive I j hj w o
      have h2 := opt_drive I j hj w none
      rcases e1 : drive I.opt.P I.opt.begin j (w, o) with ⟨r, w', o'⟩
      rcases e2 : drive I.opt.P I.opt.begin j (w, none) with ⟨r', w'', o''⟩
      rw [e1] at h1
      rw [e2] at h2
      obtain ⟨a1, a2, a3⟩ := h1
      obtain ⟨b1, b2, b3⟩ := h2
      simp only at a1 a2 a3 b1 b2 b3
      rw [← b1] at a1
      rw [← b2] at a2
      subst a1
      subst a2
      refine ⟨r, w', o', rfl, o'', rfl, fun hr => ?_⟩
      rw [a3 (b1 ▸ hr), b3 (b1 ▸ hr)]
      exact ⟨rfl, by simp⟩
  constructor
  · intro s w w' o he
    obtain ⟨j, hj⟩ := fromStrImpl_ok (by simp) he
    have e : fromStrImpl I.opt.P s I.opt.begin (w, none) = some (drive I.opt.P I.opt.begin j (w, none)) := fromStrImpl_text hj I.opt.P _ _ _ (by simp)
    rw [he] at e
    have e := Option.some.inj e
    obtain ⟨r, w₁, o', h1, o'', h2, h3⟩ := key j w none
    rw [h1] at e
    cases e
    exact (h3 rfl).2
  · rintro s ⟨j, hj⟩ w o
    have e1 : fromStrImpl I.opt.P s I.opt.begin (w, o) = some (drive I.opt.P I.opt.begin j (w, o)) := fromStrImpl_text hj I.opt.P _ _ _ (by simp)
    have e2 : fromStrImpl I.opt.P s I.opt.begin (w, none) = some (drive I.opt.P I.opt.begin j (w, none)) := fromStrImpl_text hj I.opt.P _ _ _ (by simp)
    obtain ⟨r, w₁, o', h1, o'', h2, h3⟩ := key j w o
    rw [e1, e2, h1, h2]
    exact ⟨r, w₁, o', o'', rfl, rfl, fun hr => (h3 hr).1⟩

end

end Miniserde
