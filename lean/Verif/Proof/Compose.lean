import Verif.Props.Ser
import Verif.Props.Typed
import Verif.Spec.Compose
import Verif.Proof.Prefix

/-!
# Encodings without hash maps are unique; texts compose
-/

namespace Miniserde

mutual

theorem Encodes.unique {E : Env} (hf : ∀ i, ∀ f ∈ E.fields i, f.2.noHash = true) :
    ∀ {t : Ty} {v : Val} {x y : FTree}, t.noHash = true → Encodes E t v x → Encodes E t v y → x = y
  | _, _, _, _, _, .unit, h => by cases h; rfl
  | _, _, _, _, _, .bool _, h => by cases h; rfl
  | _, _, _, _, _, .string _, h => by cases h; rfl
  | _, _, _, _, _, .unsigned bits n, h => by
    generalize hz : (n : Int) = z at h
    cases h
    rw [Int.ofNat.inj hz]
  | _, _, _, _, _, .signed _ _, h => by cases h; rfl
  | _, _, _, _, _, .f32 _, h => by cases h; rfl
  | _, _, _, _, _, .f64 _, h => by cases h; rfl
  | _, _, _, _, _, .numU t n ht, h => by rcases ht with rfl | rfl <;> (cases h; rfl)
  | _, _, _, _, _, .numI t z ht, h => by rcases ht with rfl | rfl <;> (cases h; rfl)
  | _, _, _, _, _, .numF t x ht, h => by rcases ht with rfl | rfl <;> (cases h; rfl)
  | _, _, _, _, _, .vNull, h => by cases h; rfl
  | _, _, _, _, _, .vBool _, h => by cases h; rfl
  | _, _, _, _, _, .vStr _, h => by cases h; rfl
  | _, _, _, _, _, .array ht h1, h => by
    rcases ht with rfl | rfl <;> (cases h with | array _ h2 => rw [EncodesAll.unique hf rfl h1 h2])
  | _, _, _, _, _, .object ht h1, h => by
    rcases ht with rfl | rfl <;> (cases h with | object _ h2 => rw [EncodesEntries.unique hf rfl h1 h2])
  | _, _, _, _, hn, .box h1, h => by cases h with | box h2 => exact Encodes.unique hf (by simpa [Ty.noHash] using hn) h1 h2
  | _, _, _, _, _, .none _, h => by cases h; rfl
  | _, _, _, _, hn, .some h1, h => by cases h with | some h2 => exact Encodes.unique hf (by simpa [Ty.noHash] using hn) h1 h2
  | _, _, _, _, hn, .tup h1 h1', h => by
    simp only [Ty.noHash, Bool.and_eq_true] at hn
    cases h with
    | array ht _ => rcases ht with e | e <;> cases e
    | tup h2 h2' => rw [Encodes.unique hf hn.1 h1 h2, Encodes.unique hf hn.2 h1' h2']
  | _, _, _, _, hn, .vec h1, h => by
    have hn' := (by simpa [Ty.noHash] using hn : Ty.noHash _ = true)
    cases h with
    | array ht _ => rcases ht with e | e <;> cases e
    | vec h2 => rw [EncodesAll.unique hf hn' h1 h2]
  | _, _, _, _, hn, .arr h1, h => by
    have hn' := (by simpa [Ty.noHash] using hn : Ty.noHash _ = true)
    cases h with
    | array ht _ => rcases ht with e | e <;> cases e
    | arr h2 => rw [EncodesAll.unique hf hn' h1 h2]
  | _, _, _, _, hn, .hmap _ _, _ => by cases hn
  | _, _, _, _, hn, .bmap h1, h => by
    have hn' := (by simpa [Ty.noHash] using hn : Ty.noHash _ = true)
    cases h with
    | object ht _ => rcases ht with e | e <;> cases e
    | bmap h2 => rw [EncodesEntries.unique hf hn' h1 h2]
  | _, _, _, _, _, .strct h1, h => by
    cases h with
    | strct h2 => rw [EncodesFields.unique hf (hf _) h1 h2]
  | _, _, _, _, _, .enm h1, h => by
    cases h with
    | enm h2 => rw [h1] at h2; cases h2; rfl

theorem EncodesAll.unique {E : Env} (hf : ∀ i, ∀ f ∈ E.fields i, f.2.noHash = true) :
    ∀ {t : Ty} {vs : List Val} {xs ys : List FTree}, t.noHash = true → EncodesAll E t vs xs → EncodesAll E t vs ys → xs = ys
  | _, _, _, _, _, .nil _, h => by cases h; rfl
  | _, _, _, _, hn, .cons h1 hs1, h => by
    cases h with
    | cons h2 hs2 => rw [Encodes.unique hf hn h1 h2, EncodesAll.unique hf hn hs1 hs2]

theorem EncodesEntries.unique {E : Env} (hf : ∀ i, ∀ f ∈ E.fields i, f.2.noHash = true) :
    ∀ {g : Bytes → Bytes} {t : Ty} {ms : List (Bytes × Val)} {xs ys : List (Bytes × FTree)}, t.noHash = true →
    EncodesEntries E g t ms xs → EncodesEntries E g t ms ys → xs = ys
  | _, _, _, _, _, _, .nil _ _, h => by cases h; rfl
  | _, _, _, _, _, hn, .cons h1 hs1, h => by
    cases h with
    | cons h2 hs2 => rw [Encodes.unique hf hn h1 h2, EncodesEntries.unique hf hn hs1 hs2]

theorem EncodesFields.unique {E : Env} (hf : ∀ i, ∀ f ∈ E.fields i, f.2.noHash = true) :
    ∀ {fs : List (Bytes × Ty)} {vs : List Val} {xs ys : List (Bytes × FTree)}, (∀ f ∈ fs, f.2.noHash = true) →
    EncodesFields E fs vs xs → EncodesFields E fs vs ys → xs = ys
  | _, _, _, _, _, .nil, h => by cases h; rfl
  | _, _, _, _, hn, .cons h1 hs1, h => by
    cases h with
    | cons h2 hs2 =>
      rw [Encodes.unique hf (hn _ List.mem_cons_self) h1 h2, EncodesFields.unique hf (fun f hm => hn f (List.mem_cons_of_mem _ hm)) hs1 hs2]

end

/-! ## Texts -/

theorem Each.length {α β : Type} {R : α → β → Prop} {as : List α} {bs : List β} (h : Each R as bs) : as.length = bs.length := by
  induction h with
  | nil => rfl
  | cons _ _ ih => simp [ih]

theorem Each.imp {α β : Type} {R S : α → β → Prop} (hi : ∀ a b, R a b → S a b) {as : List α} {bs : List β} (h : Each R as bs) : Each S as bs := by
  induction h with
  | nil => exact .nil
  | cons h _ ih => exact .cons (hi _ _ h) ih

/-- The elements of an array text. -/
theorem joined_elements : ∀ {ss : List Bytes} {js : List Json}, Each JText ss js → ss ≠ [] → JElements (joined ss) js
  | [s], [j], .cons h .nil, _ => by
    obtain ⟨w₁, v, w₂, rfl, h1, h2, h3⟩ := h
    exact .one h1 h2 h3
  | s :: s' :: ss, j :: js, .cons h hs, _ => by
    obtain ⟨w₁, v, w₂, rfl, h1, h2, h3⟩ := h
    have := joined_elements hs (by simp)
    show JElements ((w₁ ++ (v ++ w₂)) ++ 0x2C :: joined (s' :: ss)) _
    rw [List.append_assoc, List.append_assoc]
    exact .cons h1 h2 h3 this

theorem arrayText_text {ss : List Bytes} {js : List Json} (h : Each JText ss js) : JText (arrayText ss) (.arr js) := by
  refine ⟨[], arrayText ss, [], by simp, (by intro c hc; cases hc), ?_, (by intro c hc; cases hc)⟩
  cases ss with
  | nil => cases h; exact .arrEmpty (w := []) (by intro c hc; cases hc)
  | cons s ss => exact .arr (joined_elements h (by simp))

/-- The members of an object text. -/
theorem joined_members : ∀ {ms : List (Bytes × Bytes)} {js : List (Bytes × Json)}, Each (fun m j => m.1 = j.1 ∧ JText m.2 j.2) ms js → ms ≠ [] →
    JMembers (joined (ms.map memberText)) js
  | [m], [(k, j)], .cons h .nil, _ => by
    obtain ⟨k', s⟩ := m
    obtain ⟨rfl, w₁, v, w₂, rfl, h1, h2, h3⟩ := h
    exact .one (w₁ := []) (w₂ := []) (by intro c hc; cases hc) (quoted_string k') (by intro c hc; cases hc) h1 h2 h3
  | m :: m' :: ms, (k, j) :: js, .cons h hs, _ => by
    obtain ⟨k', s⟩ := m
    obtain ⟨rfl, w₁, v, w₂, rfl, h1, h2, h3⟩ := h
    have := joined_members hs (by simp)
    show JMembers (memberText (k', w₁ ++ (v ++ w₂)) ++ 0x2C :: joined ((m' :: ms).map memberText)) _
    have e : memberText (k', w₁ ++ (v ++ w₂)) ++ 0x2C :: joined ((m' :: ms).map memberText) =
        [] ++ (quoted k' ++ ([] ++ 0x3A :: (w₁ ++ (v ++ (w₂ ++ 0x2C :: joined ((m' :: ms).map memberText)))))) := by
      simp [memberText]
    rw [e]
    exact .cons (w₂ := []) (by intro c hc; cases hc) (quoted_string k') (by intro c hc; cases hc) h1 h2 h3 this

theorem objectText_text {ms : List (Bytes × Bytes)} {js : List (Bytes × Json)} (h : Each (fun m j => m.1 = j.1 ∧ JText m.2 j.2) ms js) :
    JText (objectText ms) (.obj js) := by
  refine ⟨[], objectText ms, [], by simp, (by intro c hc; cases hc), ?_, (by intro c hc; cases hc)⟩
  cases ms with
  | nil => cases h; exact .objEmpty (w := []) (by intro c hc; cases hc)
  | cons m ms => exact .obj (joined_members h (by simp))

/-- Every one of the texts has a tree. -/
theorem each_text : ∀ {ss : List Bytes}, (∀ s ∈ ss, ∃ j, JText s j) → ∃ js, Each JText ss js
  | [], _ => ⟨[], .nil⟩
  | s :: ss, h => by
    obtain ⟨j, hj⟩ := h s List.mem_cons_self
    obtain ⟨js, hjs⟩ := each_text fun s hs => h s (List.mem_cons_of_mem _ hs)
    exact ⟨j :: js, .cons hj hjs⟩

theorem compactElems_joined : ∀ xs : List Json, compactElems xs = joined (xs.map compact)
  | [] => rfl
  | [x] => rfl
  | x :: y :: xs => by
    show compact x ++ 0x2C :: compactElems (y :: xs) = compact x ++ 0x2C :: joined ((y :: xs).map compact)
    rw [compactElems_joined (y :: xs)]

theorem compactMembers_joined : ∀ ms : List (Bytes × Json), compactMembers ms = joined ((ms.map fun m => (m.1, compact m.2)).map memberText)
  | [] => rfl
  | [(k, x)] => rfl
  | (k, x) :: m :: ms => by
    show quoted k ++ 0x3A :: (compact x ++ 0x2C :: compactMembers (m :: ms)) = memberText (k, compact x) ++ 0x2C :: joined (((m :: ms).map fun m => (m.1, compact m.2)).map memberText)
    rw [compactMembers_joined (m :: ms)]
    simp [memberText]

end Miniserde
