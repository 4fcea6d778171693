import Verif.Proof.SerUser

/-!
# C73: serializing containers of user-defined types

`T` may have any hand-written `Serialize`, with state, panics and streams of its own.  What `to_string` makes of a container of `T` is determined by what `to_string` makes of its parts, called
one after the other.  The theorems are equivalences: `to_string` of the container ends exactly when those of the parts end, and the state and the panics are the same, too.
-/

namespace Miniserde
variable {σ : Type} (W : UserSer σ) (ryu : F64 → Bytes)

/-- **C73, determinism.** The text, the panic and the final state do not depend on which streams exist already. -/
theorem C73_text (r : SRef W.U W.K) (w w' : σ) (x : Option Bytes) (h : ToStr W ryu r w x w') (a : LHeap W.U W.K) :
    (∃ n a', toStringN W.proto ryu n r (w, a) = .finished x (w', a')) ∧ ∀ n o w₁ a₁, toStringN W.proto ryu n r (w, a) = .finished o (w₁, a₁) → o = x ∧ w₁ = w' := by
  refine ⟨let ⟨n, a', e, _⟩ := h.any a; ⟨n, a', e⟩, fun n o w₁ a₁ e => ?_⟩
  have := ToStr.unique (⟨a, n, a₁, e⟩ : ToStr W ryu r w o w₁) h
  exact this

/-- **C73, slices, arrays and `Vec`.** -/
theorem C73_slice (rs : List (SRef W.U W.K)) (w : σ) (x : Option Bytes) (w' : σ) :
    ToStr W ryu (.slice rs) w x w' ↔ ∃ y, ToStrs W ryu rs w y w' ∧ x = y.map arrayText :=
  (toStr_iff .empty).trans (seq_whole (s := .slice rs) rfl w .empty x w')

/-- **C73, pairs.** -/
theorem C73_pair (a b : SRef W.U W.K) (w : σ) (x : Option Bytes) (w' : σ) :
    ToStr W ryu (.pair a b) w x w' ↔ ∃ y, ToStrs W ryu [a, b] w y w' ∧ x = y.map arrayText :=
  (toStr_iff .empty).trans (seq_whole (s := .pair a b 0) rfl w .empty x w')

/-- **C73, maps.** Keys are shown by `to_string` of their type, just before their value is written. -/
theorem C73_map (hW : W.KeysUtf8) (ms : List (W.K × SRef W.U W.K)) (w : σ) (x : Option Bytes) (w' : σ) :
    ToStr W ryu (.map ms) w x w' ↔ ∃ y, ToStrEntries W ryu ms w y w' ∧ x = y.map objectText := by
  have key := map_whole (ryu := ryu) (W := W) (s := .map ms) rfl (by
    intro m hm w key w' e
    obtain ⟨k, -, rfl⟩ := List.mem_map.1 hm
    exact hW _ _ _ _ e) w .empty x w'
  simp only [toItems_entries] at key
  exact (toStr_iff .empty).trans key

/-- **C73, derived structs.** -/
theorem C73_struct (fs : List (Bytes × SRef W.U W.K)) (hf : ∀ f, f ∈ fs → ValidUtf8 f.1) (w : σ) (x : Option Bytes) (w' : σ) :
    ToStr W ryu (.strct fs) w x w' ↔ ∃ y, ToStrFields W ryu fs w y w' ∧ x = y.map objectText := by
  have key := map_whole (ryu := ryu) (W := W) (s := .strct fs 0) rfl (by
    intro m hm w key w' e
    obtain ⟨f, hf', rfl⟩ := List.mem_map.1 hm
    cases e
    exact hf f (List.mem_of_mem_drop hf')) w .empty x w'
  simp only [toItems_fields, List.drop_zero] at key
  exact (toStr_iff .empty).trans key

/-- **C73, `&T`, `Box<T>`, `Some`.** Nothing is added: even the number of iterations is the same. -/
theorem C73_transparent (r : SRef W.U W.K) (n : Nat) (w : W.World) :
    toStringN W.proto ryu n (.ref r : SRef W.U W.K) w = toStringN W.proto ryu n r w ∧ toStringN W.proto ryu n (.some r : SRef W.U W.K) w = toStringN W.proto ryu n r w :=
  ⟨rfl, rfl⟩

/-- **C73, `None`.** -/
theorem C73_none (w : σ) (x : Option Bytes) (w' : σ) : ToStr W ryu .none w x w' ↔ x = some (str! "null") ∧ w' = w := by
  rw [toStr_iff .empty]
  show SerEnds ryu (.running ⟨[], [], .null, (w, .empty)⟩) x w' ↔ _
  rw [ends_running]
  exact ends_finished

theorem scalar_ends {f : Frag W.Q W.M} {t : Bytes} (ht : ScalarText ryu f t) (w : σ) (a : LHeap W.U W.K) (x : Option Bytes) (w' : σ) :
    SerEnds ryu (.running ⟨[], [], f.ofUser, (w, a)⟩ : SExit W.proto) x w' ↔ x = some t ∧ w' = w := by
  rw [ends_running]
  cases ht with
  | null => exact ends_finished
  | true => exact ends_finished
  | false => exact ends_finished
  | str h =>
    simp only [Frag.ofUser, stepS, escapeStr_eq h, advance, List.nil_append]
    exact ends_finished
  | u64 n =>
    simp only [Frag.ofUser, stepS, advance, List.nil_append]
    exact ends_finished
  | i64 n =>
    simp only [Frag.ofUser, stepS, advance, List.nil_append]
    exact ends_finished
  | f64 h =>
    simp only [Frag.ofUser, stepS, h, advance, List.nil_append]
    exact ends_finished
  | nan h =>
    simp only [Frag.ofUser, stepS, h, advance, List.nil_append]
    exact ends_finished

theorem begin_own {u : W.U} {w w₁ : σ} {f : Frag W.Q W.M} (h : W.begin u w = (some (.own f), w₁)) (x : Option Bytes) (w' : σ) :
    ToStr W ryu (.user u) w x w' ↔ SerEnds ryu (.running ⟨[], [], f.ofUser, (w₁, .empty)⟩ : SExit W.proto) x w' := by
  have e : W.proto.begin (SRef.user u : SRef W.U W.K) (w, .empty) = (some f.ofUser, (w₁, .empty)) := by
    show W.beginRef (.user u) (w, .empty) = _
    simp only [UserSer.beginRef, h]
  rw [toStr_iff .empty]
  unfold beginWith
  rw [e]

/-- **C73, leaves of the library.** -/
theorem C73_leaf (f : Frag Empty Empty) (t : Bytes) (ht : ScalarText ryu f t) (w : σ) (x : Option Bytes) (w' : σ) :
    ToStr W ryu (.leaf f) w x w' ↔ x = some t ∧ w' = w := by
  have e : ∃ g : Frag W.Q W.M, (f.ofLeaf : Frag (LBox W.Q) (LBox W.M)) = g.ofUser ∧ ScalarText ryu g t := by
    cases ht with
    | null => exact ⟨.null, rfl, .null⟩
    | true => exact ⟨.bool true, rfl, .true⟩
    | false => exact ⟨.bool false, rfl, .false⟩
    | str h => exact ⟨.str _, rfl, .str h⟩
    | u64 n => exact ⟨.u64 n, rfl, .u64 n⟩
    | i64 n => exact ⟨.i64 n, rfl, .i64 n⟩
    | f64 h => exact ⟨.f64 _, rfl, .f64 h⟩
    | nan h => exact ⟨.f64 _, rfl, .nan h⟩
  obtain ⟨g, e, hg⟩ := e
  rw [toStr_iff .empty]
  have e' : W.proto.begin (SRef.leaf f : SRef W.U W.K) (w, .empty) = (some g.ofUser, (w, .empty)) :=
    congrArg (fun z => (some z, (w, LHeap.empty))) e
  unfold beginWith
  rw [e']
  exact scalar_ends W ryu hg w .empty x w'

/-- **C73, a user-defined value made of a single fragment.** -/
theorem C73_scalar (u : W.U) (w w₁ : σ) (f : Frag W.Q W.M) (h : W.begin u w = (some (.own f), w₁)) (t : Bytes) (ht : ScalarText ryu f t) (x : Option Bytes) (w' : σ) :
    ToStr W ryu (.user u) w x w' ↔ x = some t ∧ w' = w₁ :=
  (begin_own W ryu h x w').trans (scalar_ends W ryu ht w₁ .empty x w')

/-- **C73, a user-defined value that is a sequence.** -/
theorem C73_user_seq (u : W.U) (w w₁ : σ) (q : W.Q) (h : W.begin u w = (some (.own (.seq q)), w₁)) (x : Option Bytes) (w' : σ) :
    ToStr W ryu (.user u) w x w' ↔ ∃ y, ToStrStream W ryu q w₁ y w' ∧ x = y.map arrayText :=
  (begin_own W ryu h x w').trans (user_seq_whole q w₁ .empty x w')

/-- **C73, a user-defined value that is a map.** -/
theorem C73_user_map (hW : W.MapUtf8) (u : W.U) (w w₁ : σ) (m : W.M) (h : W.begin u w = (some (.own (.map m)), w₁)) (x : Option Bytes) (w' : σ) :
    ToStr W ryu (.user u) w x w' ↔ ∃ y, ToStrMapStream W ryu m w₁ y w' ∧ x = y.map objectText :=
  (begin_own W ryu h x w').trans (user_map_whole hW m w₁ .empty x w')

/-- **C73, a `begin` that panics.** -/
theorem C73_begin_panics (u : W.U) (w w₁ : σ) (h : W.begin u w = (none, w₁)) (x : Option Bytes) (w' : σ) : ToStr W ryu (.user u) w x w' ↔ x = none ∧ w' = w₁ := by
  have e : W.proto.begin (SRef.user u : SRef W.U W.K) (w, .empty) = (none, (w₁, .empty)) := by
    show W.beginRef (.user u) (w, .empty) = _
    simp only [UserSer.beginRef, h]
    rfl
  rw [toStr_iff .empty]
  unfold beginWith
  rw [e]
  exact ends_finished

/-- **C73, delegation.** A user-defined `begin` with the body `self.0.begin()`, where `self.0` is a container, makes the text of the container. -/
theorem C73_delegate (u : W.U) (w w₁ : σ) (r : SRef W.U W.K) (s : LStream W.U W.K)
    (hr : (∃ rs, r = .slice rs ∧ s = .slice rs ∧ W.begin u w = (some (.seq s), w₁)) ∨ (∃ a b, r = .pair a b ∧ s = .pair a b 0 ∧ W.begin u w = (some (.seq s), w₁)) ∨
      (∃ ms, r = .map ms ∧ s = .map ms ∧ W.begin u w = (some (.map s), w₁)) ∨ (∃ fs, r = .strct fs ∧ s = .strct fs 0 ∧ W.begin u w = (some (.map s), w₁)))
    (x : Option Bytes) (w' : σ) : ToStr W ryu (.user u) w x w' ↔ ToStr W ryu r w₁ x w' := by
  have e : W.proto.begin (SRef.user u : SRef W.U W.K) (w, .empty) = W.proto.begin r (w₁, .empty) := by
    show W.beginRef (.user u) (w, .empty) = W.beginRef r (w₁, .empty)
    rcases hr with ⟨_, rfl, rfl, h⟩ | ⟨_, _, rfl, rfl, h⟩ | ⟨_, rfl, rfl, h⟩ | ⟨_, rfl, rfl, h⟩ <;> simp only [UserSer.beginRef, h]
  rw [toStr_iff .empty, toStr_iff .empty]
  unfold beginWith
  rw [e]

/-! ## A user's implementations -/

/-- User-defined types: `flip` shows whether the counter is even and counts up, `twice` delegates to a `Vec` of two `flip`s, `boom` panics, `down` streams `flip`s until the counter is 3. -/
inductive ExU where
  | flip | twice | boom | down

/-- Keys, one of which cannot be shown. -/
inductive ExK where
  | good | bad

def exUserSer : UserSer Nat where
  U := ExU
  K := ExK
  Q := Unit
  M := Empty
  begin
    | .flip, w => (some (.own (.bool (w % 2 == 0))), w + 1)
    | .twice, w => (some (.seq (.slice [.user .flip, .user .flip])), w)
    | .boom, w => (none, w)
    | .down, w => (some (.own (.seq ())), w)
  seqNext _ w := if w < 3 then (some (some (.user .flip)), w) else (some none, w)
  mapNext m := m.elim
  dropSeq _ w := w + 100
  dropMap m := m.elim
  toStr
    | .good, w => (some (str! "k"), w + 1)
    | .bad, w => (none, w + 1)

theorem exUserSer_keys : exUserSer.KeysUtf8 := by
  intro k w key w' h
  cases k with
  | good => cases h; exact ⟨['k'], by decide +kernel⟩
  | bad => cases h

/-- `Vec` of user-defined values, one of which is a pair: the elements are written in order, with the state running through them. -/
example : ToStr exUserSer (fun _ => []) (.slice [.user .flip, .pair (.user .flip) .none, .user .twice]) 4 (some (str! "[true,[false,null],[true,false]]")) 8 :=
  ⟨.empty, 20, _, rfl⟩

/-- By the theorem, the text of the list is made of the texts of its elements. -/
example : ToStrs exUserSer (fun _ => []) [.user .flip, .user .down] 0 (some [str! "true", str! "[false,true]"]) 103 :=
  .cons ⟨.empty, 20, _, rfl⟩ (.cons (y := some []) ⟨.empty, 20, _, rfl⟩ (.nil _))

example : ToStr exUserSer (fun _ => []) (.slice [.user .flip, .user .down]) 0 (some (str! "[true,[false,true]]")) 103 :=
  (C73_slice _ _ _ _ _ _).2 ⟨_, .cons ⟨.empty, 20, _, rfl⟩ (.cons (y := some []) ⟨.empty, 20, _, rfl⟩ (.nil _)), rfl⟩

/-- A map: keys and values in turn. -/
example : ToStr exUserSer (fun _ => []) (.map [(.good, .user .flip), (.good, .user .flip)]) 0 (some (str! "{\"k\":false,\"k\":false}")) 4 :=
  ⟨.empty, 20, _, rfl⟩

/-- A panic of an element is a panic of the whole, and the elements after it are not touched. -/
example : ToStr exUserSer (fun _ => []) (.slice [.user .flip, .user .boom, .user .flip]) 0 none 1 := ⟨.empty, 20, _, rfl⟩

/-- A panic while a key is shown. -/
example : ToStr exUserSer (fun _ => []) (.map [(.good, .user .flip), (.bad, .user .flip)]) 0 none 3 :=
  (C73_map _ _ exUserSer_keys _ _ _ _).2 ⟨none, .cons (y := none) rfl ⟨.empty, 20, _, rfl⟩ (.badKey rfl), rfl⟩

end Miniserde
