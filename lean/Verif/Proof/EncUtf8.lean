import Verif.Spec.Encode

/-!
# Encodings of well-typed values contain only well-formed strings
-/

namespace Miniserde
section
variable {E : Env}

theorem encAll_utf8 {t : Ty} : ∀ {vs : List Val} {xs : List FTree}, EncodesAll E t vs xs →
    (∀ v ∈ vs, ∀ x, Encodes E t v x → x.AllStr ValidUtf8) → FTree.AllStrs ValidUtf8 xs
  | _, _, .nil _, _ => trivial
  | _, _, .cons h hs, hv => ⟨hv _ (by simp) _ h, encAll_utf8 hs fun v hm => hv v (by simp [hm])⟩

theorem encEntries_utf8 {f : Bytes → Bytes} {t : Ty} : ∀ {ms : List (Bytes × Val)} {xs : List (Bytes × FTree)}, EncodesEntries E f t ms xs →
    (∀ m ∈ ms, ValidUtf8 (f m.1)) → (∀ m ∈ ms, ∀ x, Encodes E t m.2 x → x.AllStr ValidUtf8) → FTree.AllStrMembers ValidUtf8 xs
  | _, _, .nil _ _, _, _ => trivial
  | _, _, .cons h hs, hk, hv =>
    ⟨hk _ List.mem_cons_self, hv _ List.mem_cons_self _ h, encEntries_utf8 hs (fun m hm => hk m (by simp [hm])) fun m hm => hv m (by simp [hm])⟩

theorem encFields_utf8 : ∀ {fs : List (Bytes × Ty)} {vs : List Val} {xs : List (Bytes × FTree)}, EncodesFields E fs vs xs →
    (∀ f ∈ fs, ValidUtf8 f.1) →
    (∀ (j : Nat) (f : Bytes × Ty) (v : Val), fs[j]? = some f → vs[j]? = some v → ∀ x, Encodes E f.2 v x → x.AllStr ValidUtf8) →
    FTree.AllStrMembers ValidUtf8 xs
  | _, _, _, .nil, _, _ => trivial
  | _, _, _, .cons h hs, hk, hv =>
    ⟨hk _ List.mem_cons_self, hv 0 (_, _) _ rfl rfl _ h, encFields_utf8 hs (fun f hf => hk f (by simp [hf])) fun j f v hf hv' => hv (j + 1) f v hf hv'⟩

/-- Every string in an encoding of a well-typed value is well-formed. -/
theorem encodes_utf8 (hE : E.Utf8) {t : Ty} {v : Val} (h : HasTy E t v) : ∀ x, Encodes E t v x → x.AllStr ValidUtf8 := by
  induction h with
  | unit | bool | int _ _ | f32 _ | f64 _ | vNull | vBool => intro x hx; cases hx <;> trivial
  | numU ht h | numI ht h | numF ht h => intro x hx; rcases ht with rfl | rfl <;> cases hx <;> trivial
  | none => intro x hx; cases hx <;> trivial
  | string h => intro x hx; cases hx <;> exact h
  | vStr h => intro x hx; cases hx <;> exact h
  | array ht h ih =>
    intro x hx
    rcases ht with rfl | rfl <;> cases hx with | array _ hs => exact encAll_utf8 hs ih
  | object ht hk hs h ih =>
    intro x hx
    rcases ht with rfl | rfl <;> cases hx with | object _ hs => exact encEntries_utf8 hs hk ih
  | box h ih => intro x hx; cases hx with
    | box h => exact ih _ h
    | _ => simp_all
  | some h ih => intro x hx; cases hx with
    | some h => exact ih _ h
    | _ => simp_all
  | tup hx hy ihx ihy => intro z hz; cases hz with
    | tup h1 h2 => exact ⟨ihx _ h1, ihy _ h2, trivial⟩
    | _ => simp_all
  | vec h ih => intro x hx; cases hx with
    | vec hs => exact encAll_utf8 hs ih
    | _ => simp_all
  | arr hn h ih => intro x hx; cases hx with
    | arr hs => exact encAll_utf8 hs ih
    | _ => simp_all
  | hmap hk hu h ih => intro x hx; cases hx with
    | hmap hp hs => exact encEntries_utf8 hs (fun m hm => hu m (hp.mem_iff.1 hm)) fun m hm => ih m (hp.mem_iff.1 hm)
    | _ => simp_all
  | bmap hk hu h ih => intro x hx; cases hx with
    | bmap hs => exact encEntries_utf8 hs hu ih
    | _ => simp_all
  | strct hn h ih => intro x hx; cases hx with
    | strct hs => exact encFields_utf8 hs (fun f hf => hE.fields _ f hf) ih
    | _ => simp_all
  | enm h => intro x hx; cases hx with
    | enm hj => exact hE.variants _ _ (List.mem_of_getElem? hj)
    | _ => simp_all

end
end Miniserde
