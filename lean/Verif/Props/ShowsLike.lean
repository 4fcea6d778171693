import Verif.Spec.ShowsLike
import Verif.Props.SerGeneric
import Verif.Props.Compose
import Verif.Props.Like

/-!
# C79: a value of a hand-written type can stand in for a library value in `to_string`
-/

namespace Miniserde
variable {σ : Type} {W : UserSer σ} {ryu : F64 → Bytes} {lit : F64 → NumLit} {E : Env} {order : Nat → List (Bytes × Val) → List (Bytes × Val)}

theorem PrintsAs.unique {t : Ty} {v : Val} {o o' : Bytes} (h : PrintsAs E order ryu t v o) (h' : PrintsAs E order ryu t v o') : o = o' := by
  obtain ⟨_, h⟩ := h
  obtain ⟨_, h'⟩ := h'
  exact (Prints.unique h h').1

theorem toStrs_like {t : Ty} : ∀ {rs : List (SRef W.U W.K)} {vs : List Val} {os : List Bytes}, Each (fun r v => ShowsLike W ryu E order r t v) rs vs →
    Each (PrintsAs E order ryu t) vs os → ∀ w, ∃ w', ToStrs W ryu rs w (some os) w'
  | _, _, _, .nil, .nil, w => ⟨w, .nil w⟩
  | _, _, _, .cons ⟨o, h1, h2⟩ hs, .cons h3 hs', w => by
    cases PrintsAs.unique h1 h3
    obtain ⟨w₁, h4⟩ := h2 w
    obtain ⟨w₂, h5⟩ := toStrs_like hs hs' w₁
    exact ⟨w₂, .cons h4 h5⟩

/-- **C79, slices, arrays and `Vec`.** -/
theorem C79_vec (ho : ∀ n ms, (order n ms).Perm ms) (hE : E.Utf8) (hr : RyuSyntax ryu lit) (hf : ∀ i, ∀ f ∈ E.fields i, f.2.noHash = true) (t : Ty)
    (ht : t.noHash = true) (rs : List (SRef W.U W.K)) (vs : List Val) (hv : ∀ v ∈ vs, HasTy E t v) (h : Each (fun r v => ShowsLike W ryu E order r t v) rs vs) :
    ShowsLike W ryu E order (.slice rs) (.vec t) (.seq vs) ∧ ShowsLike W ryu E order (.slice rs) (.arr t vs.length) (.seq vs) := by
  have key : ShowsLike W ryu E order (.slice rs) (.vec t) (.seq vs) := by
    obtain ⟨o, h', hp, -⟩ := C28_total E order ho hE hr (.vec t) (.seq vs) (.vec hv)
    obtain ⟨os, rfl, hos⟩ := C51_write_vec E order ho hE hr hf t ht vs (.vec hv) o ⟨h', hp⟩
    refine ⟨_, ⟨h', hp⟩, fun w => ?_⟩
    obtain ⟨w', hw⟩ := toStrs_like h hos w
    exact ⟨w', (C73_slice W ryu rs w _ w').2 ⟨_, hw, rfl⟩⟩
  obtain ⟨o, h1, h2⟩ := key
  exact ⟨⟨o, h1, h2⟩, ⟨o, ((C50_wrappers E order o).2.2.2.1 t vs.length vs).2 h1, h2⟩⟩

/-- **C79, pairs.** -/
theorem C79_pair (ho : ∀ n ms, (order n ms).Perm ms) (hE : E.Utf8) (hr : RyuSyntax ryu lit) (hf : ∀ i, ∀ f ∈ E.fields i, f.2.noHash = true) (a b : Ty)
    (ha : a.noHash = true) (hb : b.noHash = true) (r s : SRef W.U W.K) (u v : Val) (hu : HasTy E a u) (hv : HasTy E b v)
    (h1 : ShowsLike W ryu E order r a u) (h2 : ShowsLike W ryu E order s b v) : ShowsLike W ryu E order (.pair r s) (.tup a b) (.seq [u, v]) := by
  obtain ⟨o, h', hp, -⟩ := C28_total E order ho hE hr (.tup a b) (.seq [u, v]) (.tup hu hv)
  obtain ⟨o₁, o₂, rfl, g1, g2⟩ := C51_write_pair E order ho hE hr hf a b ha hb u v hu hv o ⟨h', hp⟩
  refine ⟨_, ⟨h', hp⟩, fun w => ?_⟩
  obtain ⟨p₁, e1, f1⟩ := h1
  obtain ⟨p₂, e2, f2⟩ := h2
  cases PrintsAs.unique e1 g1
  cases PrintsAs.unique e2 g2
  obtain ⟨w₁, k1⟩ := f1 w
  obtain ⟨w₂, k2⟩ := f2 w₁
  exact ⟨w₂, (C73_pair W ryu r s w _ w₂).2 ⟨_, .cons k1 (.cons k2 (.nil w₂)), rfl⟩⟩

/-- **C79, `&T`, `Box<T>`, `Option<T>`.** -/
theorem C79_wrappers (r : SRef W.U W.K) (t : Ty) (v : Val) (h : ShowsLike W ryu E order r t v) :
    ShowsLike W ryu E order (.ref r) t v ∧ ShowsLike W ryu E order (.ref r) (.box t) (.box v) ∧ ShowsLike W ryu E order (.some r) (.opt t) (.optSome v) := by
  obtain ⟨o, h1, h2⟩ := h
  have hw := C50_wrappers (ryu := ryu) E order o
  have key : ∀ w, ∃ w', ToStr W ryu (.ref r) w (some o) w' := h2
  have key' : ∀ w, ∃ w', ToStr W ryu (.some r) w (some o) w' := h2
  exact ⟨⟨o, h1, key⟩, ⟨o, (hw.1 t v).2 h1, key⟩, ⟨o, (hw.2.1 t v).2 h1, key'⟩⟩

/-- **C79, `None`.** -/
theorem C79_none (ho : ∀ n ms, (order n ms).Perm ms) (hE : E.Utf8) (hr : RyuSyntax ryu lit) (t : Ty) : ShowsLike W ryu E order .none (.opt t) .optNone := by
  obtain ⟨o, h', hp, -, -, x, hx, -, e, -⟩ := C28_total E order ho hE hr (.opt t) .optNone (.none t)
  have hx' : x = .null := by cases hx; rfl
  subst hx'
  refine ⟨o, ⟨h', hp⟩, fun w => ⟨w, (C73_none W ryu w _ w).2 ⟨?_, rfl⟩⟩⟩
  rw [e]
  rfl

theorem toStrFields_like : ∀ {fs : List (Bytes × Ty)} {rs : List (SRef W.U W.K)} {vs : List Val} {os : List Bytes}, rs.length = fs.length →
    (∀ (j : Nat) f r v, fs[j]? = some f → rs[j]? = some r → vs[j]? = some v → ShowsLike W ryu E order r f.2 v) →
    vs.length = fs.length → Each (fun fv o => PrintsAs E order ryu fv.1.2 fv.2 o) (fs.zip vs) os → ∀ w, ∃ w', ToStrFields W ryu ((fs.map Prod.fst).zip rs) w (some ((fs.map Prod.fst).zip os)) w'
  | [], [], [], _, _, _, _, .nil, w => ⟨w, .nil w⟩
  | f :: fs, r :: rs, v :: vs, _, hl, h, hl', .cons h3 hs', w => by
    obtain ⟨o, h1, h2⟩ := h 0 f r v rfl rfl rfl
    cases PrintsAs.unique h1 h3
    obtain ⟨w₁, h4⟩ := h2 w
    obtain ⟨w₂, h5⟩ := toStrFields_like (by simpa using hl) (fun j f' r' v' e1 e2 e3 => h (j + 1) f' r' v' e1 e2 e3) (by simpa using hl') hs' w₁
    exact ⟨w₂, .cons h4 h5⟩

/-- **C79, derived structs.** Field `j` of the struct with the hand-written types holds `rs[j]`, that of the other `vs[j]`. -/
theorem C79_struct (ho : ∀ n ms, (order n ms).Perm ms) (hE : E.Utf8) (hr : RyuSyntax ryu lit) (hf : ∀ i, ∀ f ∈ E.fields i, f.2.noHash = true) (i : Nat)
    (rs : List (SRef W.U W.K)) (vs : List Val) (hv : HasTy E (.strct i) (.strct vs)) (hl : rs.length = (E.fields i).length)
    (h : ∀ (j : Nat) f r v, (E.fields i)[j]? = some f → rs[j]? = some r → vs[j]? = some v → ShowsLike W ryu E order r f.2 v) :
    ShowsLike W ryu E order (.strct (((E.fields i).map Prod.fst).zip rs)) (.strct i) (.strct vs) := by
  obtain ⟨o, h', hp, -⟩ := C28_total E order ho hE hr (.strct i) (.strct vs) hv
  obtain ⟨os, rfl, hos⟩ := C51_write_struct E order ho hE hr hf i vs hv o ⟨h', hp⟩
  refine ⟨_, ⟨h', hp⟩, fun w => ?_⟩
  have hlv : vs.length = (E.fields i).length := by cases hv with | strct hn _ => exact hn
  obtain ⟨w', hw⟩ := toStrFields_like hl h hlv hos w
  refine ⟨w', (C73_struct W ryu _ ?_ w _ w').2 ⟨_, hw, rfl⟩⟩
  intro f hm
  obtain ⟨g, hg, e⟩ := List.mem_map.1 (List.of_mem_zip hm).1
  rw [← e]
  exact hE.fields i g hg

theorem toStrEntries_like {k : Nat} {t : Ty} : ∀ {es : List (W.K × SRef W.U W.K)} {ms : List (Bytes × Val)} {os : List Bytes},
    Each (fun e m => KeyShows W e.1 (E.keyShow k m.1) ∧ ShowsLike W ryu E order e.2 t m.2) es ms →
    Each (fun m o => PrintsAs E order ryu t m.2 o) ms os → ∀ w, ∃ w', ToStrEntries W ryu es w (some ((ms.map fun m => E.keyShow k m.1).zip os)) w'
  | _, _, _, .nil, .nil, w => ⟨w, .nil w⟩
  | (x, r) :: _, _ :: _, _ :: _, .cons ⟨hk, o, h1, h2⟩ hs, .cons h3 hs', w => by
    cases PrintsAs.unique h1 h3
    obtain ⟨w₀, h0⟩ := hk w
    obtain ⟨w₁, h4⟩ := h2 w₀
    obtain ⟨w₂, h5⟩ := toStrEntries_like hs hs' w₁
    exact ⟨w₂, .cons h0 h4 h5⟩

/-- **C79, ordered maps** (of a hand-written key or value type, entries in iteration order). -/
theorem C79_map (ho : ∀ n ms, (order n ms).Perm ms) (hE : E.Utf8) (hr : RyuSyntax ryu lit) (hf : ∀ i, ∀ f ∈ E.fields i, f.2.noHash = true) (hW : W.KeysUtf8) (k : Nat)
    (t : Ty) (ht : t.noHash = true) (es : List (W.K × SRef W.U W.K)) (ms : List (Bytes × Val)) (hm : HasTy E (.bmap k t) (.map ms))
    (h : Each (fun e m => KeyShows W e.1 (E.keyShow k m.1) ∧ ShowsLike W ryu E order e.2 t m.2) es ms) :
    ShowsLike W ryu E order (.map es) (.bmap k t) (.map ms) := by
  obtain ⟨o, h', hp, -⟩ := C28_total E order ho hE hr (.bmap k t) (.map ms) hm
  obtain ⟨os, rfl, hos⟩ := C51_write_map E order ho hE hr hf k t ht ms hm o ⟨h', hp⟩
  refine ⟨_, ⟨h', hp⟩, fun w => ?_⟩
  obtain ⟨w', hw⟩ := toStrEntries_like h hos w
  exact ⟨w', (C73_map W ryu hW es w _ w').2 ⟨_, hw, rfl⟩⟩


/-- The text of the tree of a scalar. -/
theorem scalarText_compact {Q M : Type} (hr : RyuSyntax ryu lit) {f : Frag Q M} {x : FTree} (h : LeafFrag f x) (hs : x.AllStr ValidUtf8) :
    ScalarText ryu f (compact (x.json lit)) := by
  cases h with
  | null => exact .null
  | bool b => cases b with
    | true => exact .true
    | false => exact .false
  | str s => exact .str hs
  | u64 n =>
    simp only [FTree.json, compact]
    rw [← decimal_text]
    exact .u64 n
  | i64 z =>
    simp only [FTree.json, compact]
    rw [← decimalInt_text]
    exact .i64 z
  | f64 x =>
    simp only [FTree.json]
    by_cases hx : x.isFinite = true
    · rw [if_pos hx]
      show ScalarText ryu _ (lit x).text
      rw [← hr.text x hx]
      exact .f64 hx
    · rw [if_neg hx]
      exact .nan (by simpa using hx)

/-- **C79, leaves.** A scalar of the library, and a hand-written type that makes the fragment of a library scalar, are written like that. -/
theorem C79_scalar (ho : ∀ n ms, (order n ms).Perm ms) (hE : E.Utf8) (hr : RyuSyntax ryu lit) (hf : ∀ i, ∀ f ∈ E.fields i, f.2.noHash = true) (t : Ty) (ht : t.noHash = true)
    (v : Val) (hv : HasTy E t v) (x : FTree) (hx : Encodes E t v x) :
    (∀ f : Frag Empty Empty, LeafFrag f x → ShowsLike W ryu E order (.leaf f) t v) ∧
    ∀ (u : W.U) (f : Frag W.Q W.M), LeafFrag f x → (∀ w, ∃ w', W.begin u w = (some (.own f), w')) → ShowsLike W ryu E order (.user u) t v := by
  obtain ⟨o, h', hp, -, -, y, hy, -, e, -⟩ := C28_total E order ho hE hr t v hv
  cases Encodes.unique hf ht hx hy
  have hu := encodes_utf8 hE hv x hx
  refine ⟨fun f h => ⟨o, ⟨h', hp⟩, fun w => ⟨w, ?_⟩⟩, fun u f h hb => ⟨o, ⟨h', hp⟩, fun w => ?_⟩⟩
  · exact (C73_leaf W ryu f _ (scalarText_compact hr h hu) w _ w).2 ⟨by rw [e], rfl⟩
  · obtain ⟨w', hw⟩ := hb w
    exact ⟨w', (C73_scalar W ryu u w w' f hw _ (scalarText_compact hr h hu) _ w').2 ⟨by rw [e], rfl⟩⟩

/-- **C79, round trip.** A hand-written type whose `Deserialize` reads like `t` and whose `Serialize` writes like `t` round-trips where `t` does. -/
theorem C79_round_trip {ρ α : Type} (ho : ∀ n ms, (order n ms).Perm ms) (hE : E.Utf8) (hr : RyuSyntax ryu lit) (hf : ∀ i, ∀ f ∈ E.fields i, f.2.noHash = true) (t : Ty)
    (ht : t.noHash = true) (f : α → Val) (I : Deser ρ α) (hI : I.Like E t f) (a : α) (r : SRef W.U W.K) (hv : HasTy E t (f a)) (hp : Plain E t (f a))
    (hs : ShowsLike W ryu E order r t (f a)) (w w' : σ) (o : Bytes) (hw : ToStr W ryu r w (some o) w') (hn : ∀ j, JText o j → j.ShortNums) (u : ρ) :
    ∃ b u', I.fromStr o u = some (.ok b, u') ∧ f b = f a := by
  obtain ⟨o', h1, h2⟩ := hs
  obtain ⟨w₁, h3⟩ := h2 w
  cases (ToStr.unique hw h3).1
  have h4 := C33_round_trip_exact E order ho hE hr hf t ht (f a) hv hp o h1
  obtain ⟨j, hj, hd⟩ := (parseAs_ok E).1 h4
  obtain ⟨q, u', e1, e2⟩ := hI.reads o j hj (hn j hj) u
  rw [h4] at e2
  cases q with
  | ok b =>
    injection e2 with e2
    injection e2 with e2
    exact ⟨b, u', e1, e2.symm⟩
  | err => cases e2
  | panic => cases e2

/-! ## A hand-written type -/

/-- A hand-written byte type that counts how often it is serialized. -/
def exByteSer : UserSer Nat where
  U := Nat
  K := Empty
  Q := Empty
  M := Empty
  begin n w := (some (.own (.u64 n)), w + 1)
  seqNext q := q.elim
  mapNext m := m.elim
  dropSeq q := q.elim
  dropMap m := m.elim
  toStr k := k.elim

theorem exByteSer_like (n : Nat) (h : n ≤ 255) : ShowsLike exByteSer (fun x => (exLit x).text) exEnv exOrder (.user n) (.int false 8) (.int n) :=
  (C79_scalar (W := exByteSer) (order := exOrder) (fun _ _ => .refl _) exEnv_utf8 exRyu exEnv_noHash (.int false 8) rfl (.int n) (.int (by decide) ⟨by simp [lowest], by simp [highest]; omega⟩) _ (.unsigned 8 n)).2
    (n : Nat) (.u64 n) (.u64 n) fun w => ⟨w + 1, rfl⟩

/-- `vec![MyByte(1), MyByte(200)]` is written like `vec![1u8, 200]`. -/
example : ShowsLike exByteSer (fun x => (exLit x).text) exEnv exOrder (.slice [.user (1 : Nat), .user (200 : Nat)]) (.vec (.int false 8)) (.seq [.int 1, .int 200]) :=
  (C79_vec (W := exByteSer) (order := exOrder) (fun _ _ => .refl _) exEnv_utf8 exRyu exEnv_noHash (.int false 8) rfl _ _
    (by
      intro v hv
      simp only [List.mem_cons, List.not_mem_nil, or_false] at hv
      rcases hv with rfl | rfl <;> exact .int (by decide) ⟨by decide, by decide⟩)
    (.cons (exByteSer_like 1 (by decide)) (.cons (exByteSer_like 200 (by decide)) .nil))).1

/-- And it is read back. -/
example (w w' : Nat) (o : Bytes) (h : ToStr exByteSer (fun x => (exLit x).text) (.user (200 : Nat)) w (some o) w') (hn : ∀ j, JText o j → j.ShortNums) :
    ∃ b u', exByte.fromStr o () = some (.ok b, u') ∧ Val.int (b : Nat) = .int ((200 : Nat) : Int) :=
  C79_round_trip (W := exByteSer) (order := exOrder) (f := fun n : Nat => .int n) (fun _ _ => .refl _) exEnv_utf8 exRyu exEnv_noHash (.int false 8) rfl exByte exByte_like 200 _ (.int (by decide) ⟨by decide, by decide⟩)
    (plain_of_type exEnv_plain (t := .int false 8) (v := .int ((200 : Nat) : Int)) (.int (by decide) ⟨by decide, by decide⟩) rfl) (exByteSer_like 200 (by decide)) w w' o h hn ()

end Miniserde
