import Verif.Proof.GenericLaws

/-!
# C72: containers of user-defined types

`T` may have any hand-written `Deserialize`; what a container of `T` reads is determined by what `from_str::<T>` does on the texts of its parts.
-/

namespace Miniserde
variable {σ α β κ μ : Type}

theorem finalOf_vec {ρ C : Type} {r : Res ρ} {w : σ} {cs : C} {o : Option ρ} (h : ∀ x, r = .ok x → o = some x) :
    finalOf (r.map fun _ => (), ((w, cs), o)) = (r, (w, cs)) := by
  cases r with
  | ok x => rw [h x rfl]; rfl
  | err => rfl
  | panic => rfl

/-- **C72, `Vec<T>`.** The elements are read one after the other by `from_str::<T>`; the first failure is the result. -/
theorem C72_vec (I : Deser σ α) (hI : I.Delivers) (s : Bytes) (js : List Json) (h : JText s (.arr js)) (ss : List Bytes) (hs : Each JText ss js)
    (w : σ) (cs : Cells (VecCell α)) : ∃ r w' cs', I.vec.fromStr s (w, cs) = some (r, (w', cs')) ∧ ReadsAll I ss w r w' := by
  obtain ⟨r, w', cs', hr, he⟩ := vec_drive hI hs w cs none
  refine ⟨r, w', cs', ?_, hr⟩
  rw [fromStr_json I.vec h, he, finalOf_vec]
  rintro x rfl
  rfl

/-- **C72, `[T; N]`.** -/
theorem C72_arr (n : Nat) (I : Deser σ α) (hI : I.Delivers) (s : Bytes) (js : List Json) (h : JText s (.arr js)) (ss : List Bytes) (hs : Each JText ss js)
    (w : σ) (cs : Cells (ArrCell α)) : ∃ r w' cs', (I.arr n).fromStr s (w, cs) = some (r, (w', cs')) ∧ ReadsArr n I ss w r w' := by
  obtain ⟨r, w', cs', hr, he⟩ := arr_drive (n := n) hI hs w cs none
  refine ⟨r, w', cs', ?_, hr⟩
  rw [fromStr_json (I.arr n) h, he, finalOf_vec]
  rintro x rfl
  rfl

/-- **C72, `(A, B)`.** -/
theorem C72_pair (I : Deser σ α) (J : Deser σ β) (hI : I.Delivers) (hJ : J.Delivers) (s : Bytes) (js : List Json) (h : JText s (.arr js)) (ss : List Bytes)
    (hs : Each JText ss js) (w : σ) (cs : Cells (Option α × Option β)) :
    ∃ r w' cs', (I.pair J).fromStr s (w, cs) = some (r, (w', cs')) ∧ ReadsPair I J ss w r w' := by
  obtain ⟨r, w', cs', hr, he⟩ := pair_drive hI hJ hs w cs none
  refine ⟨r, w', cs', ?_, hr⟩
  rw [fromStr_json (I.pair J) h, he, finalOf_vec]
  rintro x rfl
  rfl

/-- **C72, maps.** The keys are parsed, the values read by `from_str::<T>`, and the entries inserted in order. -/
theorem C72_map (ops : MapOps κ α μ) (I : Deser σ α) (hI : I.Delivers) (s : Bytes) (js : List (Bytes × Json)) (h : JText s (.obj js)) (ms : List (Bytes × Bytes))
    (hs : Each (fun m j => m.1 = j.1 ∧ JText m.2 j.2) ms js) (w : σ) (cs : Cells (MapCell κ α μ)) :
    ∃ r w' cs', (I.map ops).fromStr s (w, cs) = some (r.map (fun es => es.foldl (fun m e => ops.insert e.1 e.2 m) ops.empty), (w', cs')) ∧
      ReadsEntries ops.parse I ms w r w' := by
  obtain ⟨r, w', cs', hr, he⟩ := map_drive (ops := ops) hI hs w cs none
  refine ⟨r, w', cs', ?_, hr⟩
  rw [fromStr_json (I.map ops) h, he]
  cases r <;> rfl

/-- **C72, `Option<T>`.** `null` is `None`; every other text is read as a `T`. -/
theorem C72_opt (I : Deser σ α) (hI : I.Delivers) (s : Bytes) (hs : ∃ j, JText s j) (w : σ) : ∃ r w', I.opt.fromStr s w = some (r, w') ∧ ReadsOpt I s w r w' := by
  obtain ⟨j, h⟩ := hs
  rw [fromStr_json I.opt h]
  by_cases hj : j = .null
  · subst hj
    exact ⟨_, _, rfl, .inl ⟨h, rfl, rfl⟩⟩
  · have hn : ¬ JText s .null := fun h' => hj (JText.unique h h')
    have hd := opt_drive I j hj w none
    have hf := fromStr_json I h w
    refine ⟨_, _, rfl, .inr ⟨hn, ?_⟩⟩
    rcases delivers_drive hI h w with ⟨a, w', h1, h2⟩ | ⟨o, w', h1, h2⟩ | ⟨o, w', h1, h2⟩ <;> rw [h1] at hd <;> rw [h2] <;>
      rcases e : drive I.opt.P I.opt.begin j (w, none) with ⟨r, u, o'⟩ <;> rw [e] at hd <;> obtain ⟨d1, d2, d3⟩ := hd <;> simp only at d1 d2 d3 <;> subst d1 <;> subst d2
    · rw [d3 trivial]
      exact ⟨_, rfl, rfl⟩
    · exact ⟨_, rfl, rfl⟩
    · exact ⟨_, rfl, rfl⟩

/-- **C72, `Box<T>`.** Exactly what `T` does. -/
theorem C72_box (I : Deser σ α) (hI : I.Delivers) (s : Bytes) (hs : ∃ j, JText s j) (w : σ) (cs : Cells (BoxCell α)) :
    ∃ r w' cs', I.box.fromStr s (w, cs) = some (r, (w', cs')) ∧ I.fromStr s w = some (r, w') := by
  obtain ⟨j, h⟩ := hs
  rw [fromStr_json I.box h]
  have hd := box_drive I j w cs none
  rcases delivers_drive hI h w with ⟨a, w', h1, h2⟩ | ⟨o, w', h1, h2⟩ | ⟨o, w', h1, h2⟩ <;> rw [h1] at hd <;> rw [h2] <;>
    rcases e : drive I.box.P I.box.begin j ((w, cs), none) with ⟨r, ⟨u, cs'⟩, o'⟩ <;> rw [e] at hd
  · obtain ⟨d1, d2, d3⟩ := hd
    simp only at d1 d2 d3
    subst d1 d2 d3
    exact ⟨_, _, _, rfl, rfl⟩
  · obtain ⟨d1, d2, d3⟩ := hd
    simp only at d1 d2 d3
    subst d1 d2
    exact ⟨_, _, _, rfl, rfl⟩
  · obtain ⟨d1, d2, d3⟩ := hd
    simp only at d1 d2 d3
    subst d1 d2
    exact ⟨_, _, _, rfl, rfl⟩

/-- **C72, derived structs.** Members in any order, unknown, repeated and missing ones included. -/
theorem C72_struct {n : Nat} {τ : Fin n → Type} (names : Fin n → Bytes) (I : (i : Fin n) → Deser σ (τ i)) (hI : ∀ i, (I i).Delivers) (hO : ∀ i, (I i).Overwrites)
    (s : Bytes) (js : List (Bytes × Json)) (h : JText s (.obj js)) (ms : List (Bytes × Bytes)) (hs : Each (fun m j => m.1 = j.1 ∧ JText m.2 j.2) ms js)
    (w : σ) (cs : Cells ((i : Fin n) → Option (τ i))) :
    ∃ r w' cs', (Deser.struct names I).fromStr s (w, cs) = some (r, (w', cs')) ∧ ReadsStruct names I ms w r w' := by
  obtain ⟨r, w', cs', hr, he⟩ := struct_drive (names := names) hI hO hs w cs none
  refine ⟨r, w', cs', ?_, hr⟩
  rw [fromStr_json (Deser.struct names I) h, he, finalOf_vec]
  rintro x rfl
  rfl

/-- **C72, `finish` of a derived struct.** It is `Ok` exactly if all fields have a content, which is then the value; the fields are taken one by one up to the first empty one, so a second `finish` is an
error if there is a field at all. -/
theorem C72_struct_finish {n : Nat} {τ : Fin n → Type} (names : Fin n → Bytes) (I : (i : Fin n) → Deser σ (τ i)) (a : Nat) (w : World σ ((i : Fin n) → Option (τ i)) ((i : Fin n) → τ i)) :
    ∃ r w', (Deser.struct names I).P.mapFinish (.own a) w = (r, w') ∧
      ((r = .ok () ∧ ∃ v, w'.2 = some v ∧ ∀ i, w.1.2.cell a i = some (v i)) ∨ (r = .err ∧ w'.2 = w.2 ∧ ∃ i, w.1.2.cell a i = none)) ∧
      (∀ i, (∀ j, j ≤ i → w.1.2.cell a j ≠ none) → w'.1.2.cell a i = none) ∧ (∀ i j, j ≤ i → w.1.2.cell a j = none → w'.1.2.cell a i = w.1.2.cell a i) ∧
      w'.1.1 = w.1.1 ∧ (∀ b, b ≠ a → w'.1.2.cell b = w.1.2.cell b) ∧
      (0 < n → ((Deser.struct names I).P.mapFinish (.own a) w').1 = .err) := by
  have hf : ∀ w : World σ ((i : Fin n) → Option (τ i)) ((i : Fin n) → τ i), (Deser.struct names I).P.mapFinish (.own a) w = match fieldsTaken (w.1.2.cell a) with
      | some v => (.ok (), ((w.1.1, w.1.2.set a (fieldsLeft (w.1.2.cell a))), some v))
      | none => (.err, ((w.1.1, w.1.2.set a (fieldsLeft (w.1.2.cell a))), w.2)) := fun _ => rfl
  have hc : ∀ c : (i : Fin n) → Option (τ i), (∃ v, fieldsTaken c = some v ∧ ∀ i, c i = some (v i)) ∨ (fieldsTaken c = none ∧ ∃ i, c i = none) := by
    intro c
    unfold fieldsTaken
    by_cases h : ∀ i, (c i).isSome = true
    · rw [dif_pos h]
      exact .inl ⟨_, rfl, fun i => (Option.some_get (h i)).symm⟩
    · rw [dif_neg h]
      obtain ⟨i, hi⟩ := Classical.not_forall.1 h
      exact .inr ⟨rfl, i, by simpa using hi⟩
  have hs : ∀ c : (i : Fin n) → Option (τ i), ∀ i, (∀ j, j ≤ i → c j ≠ none) → fieldsLeft c i = none := by
    intro c i h
    unfold fieldsLeft
    rw [if_pos fun j hj => Option.isSome_iff_ne_none.2 (h j hj)]
  have hn : ∀ c : (i : Fin n) → Option (τ i), ∀ i j, j ≤ i → c j = none → fieldsLeft c i = c i := by
    intro c i j hj e
    unfold fieldsLeft
    rw [if_neg]
    intro h
    have := h j hj
    rw [e] at this
    cases this
  have h2 : ∀ w : World σ ((i : Fin n) → Option (τ i)) ((i : Fin n) → τ i), (∃ i, w.1.2.cell a i = none) → ((Deser.struct names I).P.mapFinish (.own a) w).1 = .err := by
    rintro w ⟨i, hi⟩
    rw [hf]
    rcases hc (w.1.2.cell a) with ⟨v, -, h⟩ | ⟨h, -⟩
    · rw [h i] at hi
      cases hi
    · rw [h]
  have hset : ∀ c, (w.1.2.set a c).cell a = c := fun c => by simp [Cells.set]
  have hoth : ∀ c b, b ≠ a → (w.1.2.set a c).cell b = w.1.2.cell b := fun c b h => by simp [Cells.set, h]
  rw [hf]
  rcases hc (w.1.2.cell a) with ⟨v, e, h⟩ | ⟨e, i, h⟩
  · rw [e]
    refine ⟨_, _, rfl, .inl ⟨rfl, v, rfl, h⟩, ?_, ?_, rfl, fun b hb => hoth _ b hb, fun h0 => h2 _ ⟨⟨0, h0⟩, ?_⟩⟩
    · intro i hi
      rw [hset, hs _ _ hi]
    · intro i j hj hi
      rw [hset, hn _ _ _ hj hi]
    · rw [hset, hs]
      intro j _
      rw [h j]
      simp
  · rw [e]
    refine ⟨_, _, rfl, .inr ⟨rfl, rfl, i, h⟩, ?_, ?_, rfl, fun b hb => hoth _ b hb, fun h0 => h2 _ ⟨i, ?_⟩⟩
    · intro i hi
      rw [hset, hs _ _ hi]
    · intro i j hj hi
      rw [hset, hn _ _ _ hj hi]
    · rw [hset, hn _ _ _ (Nat.le_refl _) h, h]

theorem readsFields_absent {n : Nat} {τ : Fin n → Type} {names : Fin n → Bytes} {I : (i : Fin n) → Deser σ (τ i)} {i : Fin n} {c : (i : Fin n) → Option (τ i)}
    {ms : List (Bytes × Bytes)} {w w' : σ} {r : Res ((i : Fin n) → Option (τ i))} (h : ReadsFields names I c ms w r w') :
    (∀ m ∈ ms, m.1 ≠ names i) → ∀ c', r = .ok c' → c' i = c i := by
  induction h with
  | nil c w => rintro - c' h; cases h; rfl
  | @field c k s ms w w₁ w₂ i' x r hk h hs ih =>
    intro hm c' hc
    have hne : i ≠ i' := by rintro rfl; exact hm (k, s) (by simp) hk.1.symm
    rw [ih (fun m h => hm m (List.mem_cons_of_mem _ h)) c' hc]
    simp [assign, hne]
  | @fail c k s ms w w₁ i' r hk h hr => intro hm c' hc; cases r <;> simp [Res.fail] at hc
  | unknown hk h hs ih => intro hm c' hc; exact ih (fun m h => hm m (List.mem_cons_of_mem _ h)) c' hc
  | @unknownFail c k s ms w r hk h hr => intro hm c' hc; cases r <;> simp [Res.fail] at hc

theorem readsFields_skips {n : Nat} {τ : Fin n → Type} {names : Fin n → Bytes} {I : (i : Fin n) → Deser σ (τ i)} {c : (i : Fin n) → Option (τ i)}
    {ms : List (Bytes × Bytes)} {w w' : σ} {r : Res ((i : Fin n) → Option (τ i))} (h : ReadsFields names I c ms w r w') :
    (∀ m ∈ ms, (∀ i, names i ≠ m.1) ∧ fromStrImpl skip m.2 () () = some (.ok (), ())) → r = .ok c ∧ w' = w := by
  induction h with
  | nil c w => exact fun _ => ⟨rfl, rfl⟩
  | @field c k s ms w w₁ w₂ i' x r hk h hs ih => exact fun hm => absurd hk.1 ((hm (k, s) (by simp)).1 i')
  | @fail c k s ms w w₁ i' r hk h hr => exact fun hm => absurd hk.1 ((hm (k, s) (by simp)).1 i')
  | unknown hk h hs ih => exact fun hm => ih fun m h => hm m (List.mem_cons_of_mem _ h)
  | @unknownFail c k s ms w r hk h hr =>
    intro hm
    have := (hm (k, s) (by simp)).2
    simp only at this
    rw [h] at this
    cases this
    exact absurd rfl hr

theorem required_field {I : Deser σ α} (hd : I.default = none) (hI : I.Delivers ∧ I.Overwrites) (name s : Bytes) {js : List (Bytes × Json)} (h : JText s (.obj js))
    (hname : ∀ j ∈ js, j.1 ≠ name) (w : σ) (cs : Cells ((i : Fin 1) → Option α)) (v : Fin 1 → α) (u : σ × Cells ((i : Fin 1) → Option α)) :
    (Deser.struct (fun _ : Fin 1 => name) fun _ => I).fromStr s (w, cs) ≠ some (.ok v, u) := by
  obtain ⟨ms, hs⟩ := JText.members h
  obtain ⟨r, w', cs', he, r₀, hf, hr⟩ := C72_struct (fun _ : Fin 1 => name) (fun _ => I) (fun _ => hI.1) (fun _ => hI.2) s js h ms hs w cs
  rw [he]
  intro e
  cases e
  have hm : ∀ m ∈ ms, m.1 ≠ name := by
    intro m hm
    clear he hf h
    induction hs with
    | nil => cases hm
    | cons h1 h2 ih =>
      rcases List.mem_cons.1 hm with rfl | hm
      · rw [h1.1]; exact hname _ (by simp)
      · exact ih (fun j hj => hname j (List.mem_cons_of_mem _ hj)) hm
  cases r₀ with
  | ok c =>
    have := readsFields_absent (i := 0) hf hm c rfl
    simp only at this hr
    rcases hr with ⟨v', h1, h2⟩ | ⟨_, h2⟩
    · rw [h1 0, hd] at this
      cases this
    · cases h2
  | err => cases hr
  | panic => cases hr

/-- **C72, absent members.** A field of type `Option<T>` that no member names is `None`, and `T` is not involved; a field of any other container type must be present. -/
theorem C72_absent (n m : Nat) {τ : Fin m → Type} (names : Fin m → Bytes) (ops : MapOps κ α μ) (I : Deser σ α) (J : Deser σ β) (F : (i : Fin m) → Deser σ (τ i))
    (hI : I.Delivers) (hJ : J.Delivers) (hF : ∀ i, (F i).Delivers ∧ (F i).Overwrites) (name s : Bytes) (js : List (Bytes × Json)) (h : JText s (.obj js))
    (hname : ∀ j ∈ js, j.1 ≠ name) (ms : List (Bytes × Bytes)) (hs : Each (fun m j => m.1 = j.1 ∧ JText m.2 j.2) ms js) :
    ((∀ m ∈ ms, fromStrImpl skip m.2 () () = some (.ok (), ())) → ∀ w cs, ∃ cs',
      (Deser.struct (fun _ : Fin 1 => name) fun _ => I.opt).fromStr s (w, cs) = some (.ok fun _ => none, (w, cs'))) ∧
    (∀ w cs v u, (Deser.struct (fun _ : Fin 1 => name) fun _ => I.vec).fromStr s (w, cs) ≠ some (.ok v, u)) ∧
    (∀ w cs v u, (Deser.struct (fun _ : Fin 1 => name) fun _ => I.arr n).fromStr s (w, cs) ≠ some (.ok v, u)) ∧
    (∀ w cs v u, (Deser.struct (fun _ : Fin 1 => name) fun _ => I.pair J).fromStr s (w, cs) ≠ some (.ok v, u)) ∧
    (∀ w cs v u, (Deser.struct (fun _ : Fin 1 => name) fun _ => I.map ops).fromStr s (w, cs) ≠ some (.ok v, u)) ∧
    (∀ w cs v u, (Deser.struct (fun _ : Fin 1 => name) fun _ => I.box).fromStr s (w, cs) ≠ some (.ok v, u)) ∧
    (∀ w cs v u, (Deser.struct (fun _ : Fin 1 => name) fun _ => Deser.struct names F).fromStr s (w, cs) ≠ some (.ok v, u)) := by
  refine ⟨fun hskip w cs => ?_, required_field rfl (vec_lawful hI) name s h hname, required_field rfl (arr_lawful hI) name s h hname,
    required_field rfl (pair_lawful hI hJ) name s h hname, required_field rfl (map_lawful hI) name s h hname, required_field rfl (box_lawful I) name s h hname,
    required_field rfl (struct_lawful (fun i => (hF i).1) fun i => (hF i).2) name s h hname⟩
  obtain ⟨r, w', cs', he, r₀, hf, hr⟩ := C72_struct (fun _ : Fin 1 => name) (fun _ => I.opt) (fun _ => (opt_lawful I).1) (fun _ => (opt_lawful I).2) s js h ms hs w cs
  have hm : ∀ m ∈ ms, m.1 ≠ name := by
    intro m hm
    clear he hf h hskip
    induction hs with
    | nil => cases hm
    | cons h1 h2 ih =>
      rcases List.mem_cons.1 hm with rfl | hm
      · rw [h1.1]; exact hname _ (by simp)
      · exact ih (fun j hj => hname j (List.mem_cons_of_mem _ hj)) hm
  obtain ⟨e1, e2⟩ := readsFields_skips hf fun m h => ⟨fun _ => (hm m h).symm, hskip m h⟩
  subst e1 e2
  refine ⟨cs', ?_⟩
  rw [he]
  rcases hr with ⟨v, h1, h2⟩ | ⟨⟨i, h1⟩, h2⟩
  · rw [h2]
    have : v = fun _ => none := by
      funext i
      have := h1 i
      exact (Option.some.inj this).symm
    rw [this]
  · cases h1

/-- **C72, wrong kind.** Of a JSON text that is not an array (not an object), no `Vec`, array or pair (no map or struct) is read, and `T` is not involved. -/
theorem C72_wrong_kind (n m : Nat) {τ : Fin m → Type} (names : Fin m → Bytes) (ops : MapOps κ α μ) (I : Deser σ α) (J : Deser σ β) (F : (i : Fin m) → Deser σ (τ i))
    (s : Bytes) (j : Json) (h : JText s j) (w : σ) :
    ((∀ xs, j ≠ .arr xs) →
      (∀ cs, ∃ r, I.vec.fromStr s (w, cs) = some (r, (w, cs)) ∧ ∀ v, r ≠ .ok v) ∧
      (∀ cs, ∃ r, (I.arr n).fromStr s (w, cs) = some (r, (w, cs)) ∧ ∀ v, r ≠ .ok v) ∧
      (∀ cs, ∃ r, (I.pair J).fromStr s (w, cs) = some (r, (w, cs)) ∧ ∀ v, r ≠ .ok v)) ∧
    ((∀ ms, j ≠ .obj ms) →
      (∀ cs, ∃ r, (I.map ops).fromStr s (w, cs) = some (r, (w, cs)) ∧ ∀ v, r ≠ .ok v) ∧
      (∀ cs, ∃ r, (Deser.struct names F).fromStr s (w, cs) = some (r, (w, cs)) ∧ ∀ v, r ≠ .ok v)) := by
  have key : ∀ {C ρ : Type} (K : Deser (σ × Cells C) ρ) (cs : Cells C),
      (drive K.P K.begin j ((w, cs), none) = (.err, ((w, cs), none)) ∨ drive K.P K.begin j ((w, cs), none) = (.panic, ((w, cs), none))) →
      ∃ r, K.fromStr s (w, cs) = some (r, (w, cs)) ∧ ∀ v, r ≠ .ok v := by
    intro C ρ K cs hk
    rw [fromStr_json K h]
    rcases hk with e | e <;> rw [e]
    · exact ⟨_, rfl, by simp⟩
    · exact ⟨_, rfl, by simp⟩
  have noArr : ∀ {ω ι : Type} {α : ι → Type} {I : (i : ι) → Deser σ (α i)} {O : Own σ ω I}, (∀ ev w, O.leaf ev w = (.err, w)) → (∀ w, O.map w = (.err, w)) →
      (∀ xs, j ≠ .arr xs) → ∀ w, drive O.proto .place j w = (.err, w) ∨ drive O.proto .place j w = (.panic, w) := by
    intro ω ι α I O hl hm hj w
    cases j with
    | arr xs => exact absurd rfl (hj xs)
    | obj ms => exact .inl (map_err_drive hm ms w)
    | null => exact leaf_err_drive hl rfl w
    | bool b => exact leaf_err_drive hl rfl w
    | str s => exact leaf_err_drive hl rfl w
    | num l => exact leaf_err_drive hl (j := .num l) rfl w
  have noObj : ∀ {ω ι : Type} {α : ι → Type} {I : (i : ι) → Deser σ (α i)} {O : Own σ ω I}, (∀ ev w, O.leaf ev w = (.err, w)) → (∀ w, O.seq w = (.err, w)) →
      (∀ xs, j ≠ .obj xs) → ∀ w, drive O.proto .place j w = (.err, w) ∨ drive O.proto .place j w = (.panic, w) := by
    intro ω ι α I O hl hm hj w
    cases j with
    | obj xs => exact absurd rfl (hj xs)
    | arr ms => exact .inl (seq_err_drive hm ms w)
    | null => exact leaf_err_drive hl rfl w
    | bool b => exact leaf_err_drive hl rfl w
    | str s => exact leaf_err_drive hl rfl w
    | num l => exact leaf_err_drive hl (j := .num l) rfl w
  refine ⟨fun hj => ⟨fun cs => ?_, fun cs => ?_, fun cs => ?_⟩, fun hj => ⟨fun cs => ?_, fun cs => ?_⟩⟩
  · exact key I.vec cs (noArr (O := vecOwn I) (fun _ _ => rfl) (fun _ => rfl) hj _)
  · exact key (I.arr n) cs (noArr (O := arrOwn n I) (fun _ _ => rfl) (fun _ => rfl) hj _)
  · exact key (I.pair J) cs (noArr (O := pairOwn I J) (fun _ _ => rfl) (fun _ => rfl) hj _)
  · exact key (I.map ops) cs (noObj (O := mapOwn ops I) (fun _ _ => rfl) (fun _ => rfl) hj _)
  · exact key (Deser.struct names F) cs (noObj (O := structOwn names F) (fun _ _ => rfl) (fun _ => rfl) hj _)

/-- **C72, nesting.** Every container of well-behaved types is well-behaved, so the theorems above apply to it in turn. -/
theorem C72_nests (n m : Nat) {τ : Fin m → Type} (names : Fin m → Bytes) (ops : MapOps κ α μ) (I : Deser σ α) (J : Deser σ β) (F : (i : Fin m) → Deser σ (τ i))
    (hI : I.Delivers) (hJ : J.Delivers) (hF : ∀ i, (F i).Delivers ∧ (F i).Overwrites) :
    (I.vec.Delivers ∧ I.vec.Overwrites) ∧ ((I.arr n).Delivers ∧ (I.arr n).Overwrites) ∧ ((I.pair J).Delivers ∧ (I.pair J).Overwrites) ∧
    ((I.map ops).Delivers ∧ (I.map ops).Overwrites) ∧ (I.opt.Delivers ∧ I.opt.Overwrites) ∧ (I.box.Delivers ∧ I.box.Overwrites) ∧
    ((Deser.struct names F).Delivers ∧ (Deser.struct names F).Overwrites) :=
  ⟨vec_lawful hI, arr_lawful hI, pair_lawful hI hJ, map_lawful hI, opt_lawful I, box_lawful I, struct_lawful (fun i => (hF i).1) fun i => (hF i).2⟩

theorem part_laws {ρ : Type} (p : Part ρ σ) (I : Deser σ α) : (partOwn p I).Laws where
  get_put := by intro a i t w; simp [partOwn, p.get_put]
  put_put := by intro a i t t' w; simp [partOwn, p.put_put]

theorem part_drive {ρ : Type} (p : Part ρ σ) (I : Deser σ α) (j : Json) (w : ρ) (o : Option α) :
    drive (I.inside p).P (I.inside p).begin j (w, o) = ((drive I.P I.begin j (p.get w, o)).1, (p.put (drive I.P I.begin j (p.get w, o)).2.1 w, (drive I.P I.begin j (p.get w, o)).2.2)) := by
  have := drive_sub (part_laws p I) 0 () (w, o) I.begin j (p.get w, o)
  have e : (partOwn p I).put 0 () (p.get w, o) (w, o) = (w, o) := by simp [partOwn, p.put_get]
  rw [e] at this
  exact this

/-- **C72, sharing a state.** A type whose builders live in part of a bigger state reads the same texts, and is as well-behaved: so a struct can have any containers as fields. -/
theorem C72_inside {ρ : Type} (p : Part ρ σ) (I : Deser σ α) :
    (∀ s, (∃ j, JText s j) → ∀ w, (I.inside p).fromStr s w = (I.fromStr s (p.get w)).map fun r => (r.1, p.put r.2 w)) ∧
    (I.Delivers → (I.inside p).Delivers) ∧ (I.Overwrites → (I.inside p).Overwrites) := by
  refine ⟨?_, fun hI => ?_, fun hI => ?_⟩
  · rintro s ⟨j, h⟩ w
    rw [fromStr_json (I.inside p) h, fromStr_json I h, part_drive]
    rcases drive I.P I.begin j (p.get w, none) with ⟨_ | _ | _, w', _ | a⟩ <;> rfl
  · intro s w w' o he
    obtain ⟨j, hj⟩ := fromStrImpl_ok (by simp) he
    have e : fromStrImpl (I.inside p).P s (I.inside p).begin (w, none) = some (drive (I.inside p).P (I.inside p).begin j (w, none)) := fromStrImpl_text hj _ _ _ _ (by simp)
    have e2 : fromStrImpl I.P s I.begin (p.get w, none) = some (drive I.P I.begin j (p.get w, none)) := fromStrImpl_text hj _ _ _ _ (by simp)
    rw [he, part_drive] at e
    have e := Option.some.inj e
    rcases hd : drive I.P I.begin j (p.get w, none) with ⟨r, u, o'⟩
    rw [hd] at e e2
    cases e
    exact hI _ _ _ _ e2
  · rintro s ⟨j, hj⟩ w o
    obtain ⟨r, w', o₁, o₂, h1, h2, h3⟩ := hI s ⟨j, hj⟩ (p.get w) o
    have e1 : ∀ o, fromStrImpl (I.inside p).P s (I.inside p).begin (w, o) = some (drive (I.inside p).P (I.inside p).begin j (w, o)) := fun o => fromStrImpl_text hj _ _ _ _ (by simp)
    have e2 : ∀ o, fromStrImpl I.P s I.begin (p.get w, o) = some (drive I.P I.begin j (p.get w, o)) := fun o => fromStrImpl_text hj _ _ _ _ (by simp)
    rw [e2] at h1 h2
    rw [e1, e1, part_drive, part_drive, Option.some.inj h1, Option.some.inj h2]
    exact ⟨r, p.put w' w, o₁, o₂, rfl, rfl, h3⟩

/-! ## A user-defined type -/

/-- A hand-written implementation: an even number below 256, counting how often it was asked. -/
def exEven : Deser Nat Nat where
  P := {
    V := Unit
    Q := Empty
    M := Empty
    null _ w := (.err, w)
    boolean _ _ w := (.err, w)
    string _ _ w := (.err, w)
    negative _ _ w := (.err, w)
    nonnegative _ n w := if n % 2 = 0 ∧ n < 256 then (.ok (), (w.1 + 1, some n)) else (.err, (w.1 + 1, w.2))
    float _ _ w := (.err, w)
    seq _ w := (.err, w)
    map _ w := (.err, w)
    element q := q.elim
    seqFinish q := q.elim
    key m := m.elim
    mapFinish m := m.elim
    dropSeq q := q.elim
    dropMap m := m.elim }
  begin := ()
  default := none

theorem exEven_drive (j : Json) (w : Nat) (o : Option Nat) : ∃ r w' o', drive exEven.P exEven.begin j (w, o) = (r, (w', o')) ∧ (r = .ok () → o' ≠ none) ∧
    ∃ o'', drive exEven.P exEven.begin j (w, none) = (r, (w', o'')) ∧ (r = .ok () → o' = o'') := by
  cases j with
  | num l =>
    simp only [drive]
    unfold driveNum
    cases numEvent l with
    | ok ev =>
      cases ev with
      | nonnegative n =>
        simp only [exEven]
        by_cases hn : n % 2 = 0 ∧ n < 256
        · exact ⟨.ok (), w + 1, some n, by simp [hn], by simp, some n, by simp [hn], fun _ => rfl⟩
        · exact ⟨.err, w + 1, o, by simp [hn], by simp, none, by simp [hn], by simp⟩
      | negative n => exact ⟨.err, w, o, rfl, by simp, none, rfl, by simp⟩
      | float n => exact ⟨.err, w, o, rfl, by simp, none, rfl, by simp⟩
      | null => exact ⟨.panic, w, o, rfl, by simp, none, rfl, by simp⟩
      | bool n => exact ⟨.panic, w, o, rfl, by simp, none, rfl, by simp⟩
      | str n => exact ⟨.panic, w, o, rfl, by simp, none, rfl, by simp⟩
      | seqStart => exact ⟨.panic, w, o, rfl, by simp, none, rfl, by simp⟩
      | mapStart => exact ⟨.panic, w, o, rfl, by simp, none, rfl, by simp⟩
    | err => exact ⟨.err, w, o, rfl, by simp, none, rfl, by simp⟩
    | panic => exact ⟨.panic, w, o, rfl, by simp, none, rfl, by simp⟩
  | null => exact ⟨.err, w, o, rfl, by simp, none, rfl, by simp⟩
  | bool b => exact ⟨.err, w, o, rfl, by simp, none, rfl, by simp⟩
  | str b => exact ⟨.err, w, o, rfl, by simp, none, rfl, by simp⟩
  | arr b => exact ⟨.err, w, o, by simp [drive, exEven], by simp, none, by simp [drive, exEven], by simp⟩
  | obj b => exact ⟨.err, w, o, by simp [drive, exEven], by simp, none, by simp [drive, exEven], by simp⟩

/-- It meets the hypotheses. -/
theorem exEven_lawful : exEven.Delivers ∧ exEven.Overwrites := by
  constructor
  · intro s w w' o he
    obtain ⟨j, hj⟩ := fromStrImpl_ok (by simp) he
    have e : fromStrImpl exEven.P s exEven.begin (w, none) = some (drive exEven.P exEven.begin j (w, none)) := fromStrImpl_text hj _ _ _ _ (by simp)
    obtain ⟨r, u, o', h1, h2, -⟩ := exEven_drive j w none
    rw [he, h1] at e
    cases e
    exact h2 rfl
  · rintro s ⟨j, hj⟩ w o
    have e : ∀ o, fromStrImpl exEven.P s exEven.begin (w, o) = some (drive exEven.P exEven.begin j (w, o)) := fun o => fromStrImpl_text hj _ _ _ _ (by simp)
    obtain ⟨r, u, o', h1, -, o'', h2, h3⟩ := exEven_drive j w o
    rw [e, e, h1, h2]
    exact ⟨r, u, o', o'', rfl, rfl, h3⟩

/-- No cells yet. -/
def Cells.fresh {C : Type} (c : C) : Cells C := ⟨0, fun _ => c⟩

/-- The result and the number of questions. -/
def shown {C ρ : Type} (x : Option (Res ρ × (Nat × C))) : Option (Res ρ × Nat) := x.map fun r => (r.1, r.2.1)

example : shown (exEven.vec.fromStr (str! "[2, 4, 6]") (0, .fresh ⟨[], none⟩)) = some (.ok [2, 4, 6], 3) := by decide +kernel
example : shown (exEven.vec.fromStr (str! "[2, 5, 6]") (0, .fresh ⟨[], none⟩)) = some (.err, 2) := by decide +kernel
example : shown ((exEven.arr 2).fromStr (str! "[2, 4, 6, 8]") (0, .fresh ⟨[], none⟩)) = some (.err, 3) := by decide +kernel
example : shown ((exEven.arr 2).fromStr (str! "[2, 4]") (0, .fresh ⟨[], none⟩)) = some (.ok [2, 4], 2) := by decide +kernel
example : shown ((exEven.pair exEven).fromStr (str! "[2, 4]") (0, .fresh (none, none))) = some (.ok (2, 4), 2) := by decide +kernel
example : exEven.opt.fromStr (str! "null") 0 = some (.ok none, 0) ∧ exEven.opt.fromStr (str! "8") 0 = some (.ok (some 8), 1) := by decide +kernel

/-- Two fields `a` and `b`. -/
def exNames : Fin 2 → Bytes := fun i => if i = 0 then str! "a" else str! "b"

example : (shown ((Deser.struct exNames fun _ => exEven).fromStr (str! "{\"b\": 2, \"x\": [1], \"a\": 4, \"b\": 6}") (0, .fresh fun _ => none))).map
    (fun r => (r.1.map fun v => (v 0, v 1), r.2)) = some (.ok (4, 6), 3) := by decide +kernel
example : (shown ((Deser.struct exNames fun _ => exEven).fromStr (str! "{\"b\": 2}") (0, .fresh fun _ => none))).map
    (fun r => (r.1.map fun v => (v 0, v 1), r.2)) = some (.err, 1) := by decide +kernel

example : ((Deser.struct exNames fun _ => exEven.opt).fromStr (str! "{\"b\": 2, \"x\": [1]}") (0, .fresh fun _ => none)).map
    (fun r => (r.1.map fun v => (v 0, v 1), r.2.1)) = some (.ok (none, some 2), 1) := by decide +kernel

/-- Entries in a list. -/
def exOps : MapOps Bytes Nat (List (Bytes × Nat)) := ⟨some, [], fun k v m => m ++ [(k, v)]⟩

example : shown ((exEven.map exOps).fromStr (str! "{\"b\": 2, \"x\": 4}") (0, .fresh ⟨[], none, none⟩)) = some (.ok [(str! "b", 2), (str! "x", 4)], 2) := by decide +kernel
example : shown (exEven.box.fromStr (str! " 8") (0, .fresh ⟨none, false⟩)) = some (.ok 8, 1) := by decide +kernel

/-- Containers of containers: the theorems apply to `Vec<Vec<Even>>`. -/
example : exEven.vec.vec.Delivers := (vec_lawful (vec_lawful exEven_lawful.1).1).1

/-- The hypothesis `Delivers` is needed: a visitor that reports success without filling its place makes `from_str::<T>` fail, but a `Vec<T>` silently leaves the element out. -/
def exIdle : Deser Unit Nat where
  P := {
    V := Unit
    Q := Empty
    M := Empty
    null _ w := (.ok (), w)
    boolean _ _ w := (.ok (), w)
    string _ _ w := (.ok (), w)
    negative _ _ w := (.ok (), w)
    nonnegative _ _ w := (.ok (), w)
    float _ _ w := (.ok (), w)
    seq _ w := (.err, w)
    map _ w := (.err, w)
    element q := q.elim
    seqFinish q := q.elim
    key m := m.elim
    mapFinish m := m.elim
    dropSeq q := q.elim
    dropMap m := m.elim }
  begin := ()
  default := none

/-- **C72, an implementation that does not deliver.** -/
theorem C72_idle : exIdle.fromStr (str! "1") () = some (.err, ()) ∧
    (exIdle.vec.fromStr (str! "[1]") ((), .fresh ⟨[], none⟩)).map (fun r => r.1) = some (.ok []) ∧
    (exIdle.box.fromStr (str! "1") ((), .fresh ⟨none, false⟩)).map (fun r => r.1) = some .panic := by decide +kernel

end Miniserde
