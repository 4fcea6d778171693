import Verif.Model.SerGeneric
import Verif.Proof.SerContext

/-!
# The text of a value does not depend on which streams exist already
-/

namespace Miniserde
variable {σ : Type} {W : UserSer σ} {ryu : F64 → Bytes}

/-- Two heaps, reached from `a` and `b`, in which the streams allocated since then correspond by `R`. -/
structure HSim {U K : Type} (a b : LHeap U K) (R : Nat → Nat → Prop) (h k : LHeap U K) : Prop where
  lt : ∀ n m, R n m → a.next ≤ n ∧ n < h.next ∧ b.next ≤ m ∧ m < k.next
  cell : ∀ n m, R n m → h.cell n = k.cell m
  inj : ∀ n m n' m', R n m → R n' m' → (n = n' ↔ m = m')
  le : a.next ≤ h.next ∧ b.next ≤ k.next
  keepL : ∀ n, n < a.next → h.cell n = a.cell n
  keepR : ∀ n, n < b.next → k.cell n = b.cell n

theorem HSim.start {U K : Type} (a b : LHeap U K) : HSim a b (fun _ _ => False) a b :=
  ⟨fun _ _ h => h.elim, fun _ _ h => h.elim, fun _ _ _ _ h => h.elim, ⟨Nat.le_refl _, Nat.le_refl _⟩, fun _ _ => rfl, fun _ _ => rfl⟩

/-- The correspondence after an allocation. -/
def extend {U K : Type} (R : Nat → Nat → Prop) (h k : LHeap U K) (n m : Nat) : Prop := R n m ∨ (n = h.next ∧ m = k.next)

theorem HSim.alloc {U K : Type} {a b h k : LHeap U K} {R : Nat → Nat → Prop} (H : HSim a b R h k) (s : LStream U K) :
    HSim a b (extend R h k) (h.alloc s) (k.alloc s) := by
  have hl := H.le
  constructor
  · rintro n m (r | ⟨rfl, rfl⟩)
    · have := H.lt n m r
      simp only [LHeap.alloc]; omega
    · simp only [LHeap.alloc]; omega
  · rintro n m (r | ⟨rfl, rfl⟩)
    · have := H.lt n m r
      simp only [LHeap.alloc]
      rw [if_neg (by omega), if_neg (by omega)]
      exact H.cell n m r
    · simp [LHeap.alloc]
  · rintro n m n' m' (r | ⟨rfl, rfl⟩) (r' | ⟨rfl, rfl⟩)
    · exact H.inj _ _ _ _ r r'
    · have := H.lt n m r; omega
    · have := H.lt n' m' r'; omega
    · simp
  · simp only [LHeap.alloc]; omega
  · intro n hn
    simp only [LHeap.alloc]
    rw [if_neg (by omega)]
    exact H.keepL n hn
  · intro n hn
    simp only [LHeap.alloc]
    rw [if_neg (by omega)]
    exact H.keepR n hn

theorem HSim.set {U K : Type} {a b h k : LHeap U K} {R : Nat → Nat → Prop} (H : HSim a b R h k) {n m : Nat} (r : R n m) (s : LStream U K) :
    HSim a b R (h.set n s) (k.set m s) := by
  have hr := H.lt n m r
  constructor
  · intro n' m' r'
    exact H.lt n' m' r'
  · intro n' m' r'
    simp only [LHeap.set]
    have := H.inj _ _ _ _ r' r
    by_cases e : n' = n
    · rw [if_pos e, if_pos (this.1 e)]
    · rw [if_neg e, if_neg (fun z => e (this.2 z))]
      exact H.cell _ _ r'
  · exact H.inj
  · exact H.le
  · intro i hi
    simp only [LHeap.set]
    rw [if_neg (by omega)]
    exact H.keepL i hi
  · intro i hi
    simp only [LHeap.set]
    rw [if_neg (by omega)]
    exact H.keepR i hi

/-- Corresponding boxes. -/
inductive BSim {B : Type} (R : Nat → Nat → Prop) : LBox B → LBox B → Prop
  | user (b : B) : BSim R (.user b) (.user b)
  | lib {n m : Nat} (h : R n m) : BSim R (.lib n) (.lib m)

/-- Corresponding layers. -/
inductive LSim (R : Nat → Nat → Prop) : SLayer W.proto → SLayer W.proto → Prop
  | seq {q q' : LBox W.Q} (h : BSim R q q') : LSim R (.seq q) (.seq q')
  | map {q q' : LBox W.M} (h : BSim R q q') : LSim R (.map q) (.map q')

/-- Corresponding stacks. -/
inductive StSim (R : Nat → Nat → Prop) : List (SLayer W.proto) → List (SLayer W.proto) → Prop
  | nil : StSim R [] []
  | cons {l l' st st'} (h : LSim R l l') (hs : StSim R st st') : StSim R (l :: st) (l' :: st')

/-- Corresponding fragments. -/
inductive FSim (R : Nat → Nat → Prop) : Frag (LBox W.Q) (LBox W.M) → Frag (LBox W.Q) (LBox W.M) → Prop
  | null : FSim R .null .null
  | bool (b : Bool) : FSim R (.bool b) (.bool b)
  | str (s : Bytes) : FSim R (.str s) (.str s)
  | u64 (n : Nat) : FSim R (.u64 n) (.u64 n)
  | i64 (n : Int) : FSim R (.i64 n) (.i64 n)
  | f64 (x : F64) : FSim R (.f64 x) (.f64 x)
  | seq {q q' : LBox W.Q} (h : BSim R q q') : FSim R (.seq q) (.seq q')
  | map {q q' : LBox W.M} (h : BSim R q q') : FSim R (.map q) (.map q')

theorem BSim.mono {B : Type} {R R' : Nat → Nat → Prop} (hR : ∀ n m, R n m → R' n m) {q q' : LBox B} (h : BSim R q q') : BSim R' q q' := by
  cases h with
  | user b => exact .user b
  | lib h => exact .lib (hR _ _ h)

theorem LSim.mono {R R' : Nat → Nat → Prop} (hR : ∀ n m, R n m → R' n m) {l l' : SLayer W.proto} (h : LSim R l l') : LSim R' l l' := by
  cases h with
  | seq h => exact .seq (h.mono hR)
  | map h => exact .map (h.mono hR)

theorem StSim.mono {R R' : Nat → Nat → Prop} (hR : ∀ n m, R n m → R' n m) {st st' : List (SLayer W.proto)} (h : StSim R st st') : StSim R' st st' := by
  induction h with
  | nil => exact .nil
  | cons h _ ih => exact .cons (h.mono hR) ih

/-- Corresponding outcomes. -/
inductive XSim (a b : LHeap W.U W.K) : SExit W.proto → SExit W.proto → Prop
  | running {R st st'} {f f' : Frag (LBox W.Q) (LBox W.M)} {w : σ} {h k : LHeap W.U W.K} (out : Bytes) (H : HSim a b R h k) (hs : StSim R st st') (hf : FSim R f f') :
      XSim a b (.running ⟨out, st, f, (w, h)⟩) (.running ⟨out, st', f', (w, k)⟩)
  | finished {R} {w : σ} {h k : LHeap W.U W.K} (o : Option Bytes) (H : HSim a b R h k) : XSim a b (.finished o (w, h)) (.finished o (w, k))

theorem dropLayers_sim {R : Nat → Nat → Prop} {st st' : List (SLayer W.proto)} (hs : StSim R st st') (w : σ) (h k : LHeap W.U W.K) :
    ∃ w', dropLayers st (w, h) = (w', h) ∧ dropLayers st' (w, k) = (w', k) := by
  induction hs generalizing w with
  | nil => exact ⟨w, rfl, rfl⟩
  | cons hl hs ih =>
    cases hl with
    | seq hb => cases hb with
      | user q => exact ih _
      | lib _ => exact ih _
    | map hb => cases hb with
      | user q => exact ih _
      | lib _ => exact ih _

variable {a b : LHeap W.U W.K}

theorem panic_sim {R : Nat → Nat → Prop} {st st' : List (SLayer W.proto)} {h k : LHeap W.U W.K} (H : HSim a b R h k) (hs : StSim R st st') (w : σ) :
    XSim a b (.finished none (dropLayers st (w, h))) (.finished none (dropLayers st' (w, k))) := by
  obtain ⟨w', e, e'⟩ := dropLayers_sim hs w h k
  rw [e, e']
  exact .finished _ H

theorem ofUser_sim (R : Nat → Nat → Prop) (f : Frag W.Q W.M) : FSim (W := W) R f.ofUser f.ofUser := by
  cases f with
  | null => exact .null
  | bool b => exact .bool b
  | str s => exact .str s
  | u64 n => exact .u64 n
  | i64 n => exact .i64 n
  | f64 x => exact .f64 x
  | seq q => exact .seq (.user q)
  | map q => exact .map (.user q)

theorem ofLeaf_sim (R : Nat → Nat → Prop) (f : Frag Empty Empty) : FSim (W := W) R f.ofLeaf f.ofLeaf := by
  cases f with
  | null => exact .null
  | bool b => exact .bool b
  | str s => exact .str s
  | u64 n => exact .u64 n
  | i64 n => exact .i64 n
  | f64 x => exact .f64 x
  | seq q => exact q.elim
  | map q => exact q.elim

/-- What two corresponding calls of `begin` do. -/
inductive BegSim (a b : LHeap W.U W.K) (R : Nat → Nat → Prop) : Option (Frag (LBox W.Q) (LBox W.M)) × W.World → Option (Frag (LBox W.Q) (LBox W.M)) × W.World → Prop
  | panic {w : σ} {h k} (H : HSim a b R h k) : BegSim a b R (none, (w, h)) (none, (w, k))
  | ok {R' w f f' h k} (hR : ∀ n m, R n m → R' n m) (H : HSim a b R' h k) (hf : FSim R' f f') : BegSim a b R (some f, (w, h)) (some f', (w, k))

theorem beginRef_sim {R : Nat → Nat → Prop} : ∀ (r : SRef W.U W.K) {h k : LHeap W.U W.K} (_ : HSim a b R h k) (w : σ), BegSim a b R (W.beginRef r (w, h)) (W.beginRef r (w, k))
  | .user u, h, k, H, w => by
    simp only [UserSer.beginRef]
    rcases W.begin u w with ⟨_ | f | s | s, w'⟩
    · exact .panic H
    · exact .ok (fun _ _ r => r) H (ofUser_sim R f)
    · exact .ok (fun _ _ r => Or.inl r) (H.alloc s) (.seq (.lib (Or.inr ⟨rfl, rfl⟩)))
    · exact .ok (fun _ _ r => Or.inl r) (H.alloc s) (.map (.lib (Or.inr ⟨rfl, rfl⟩)))
  | .leaf f, h, k, H, w => .ok (fun _ _ r => r) H (ofLeaf_sim R f)
  | .none, h, k, H, w => .ok (fun _ _ r => r) H .null
  | .some r, h, k, H, w => by rw [UserSer.beginRef, UserSer.beginRef]; exact beginRef_sim r H w
  | .ref r, h, k, H, w => by rw [UserSer.beginRef, UserSer.beginRef]; exact beginRef_sim r H w
  | .pair x y, h, k, H, w => .ok (fun _ _ r => Or.inl r) (H.alloc _) (.seq (.lib (Or.inr ⟨rfl, rfl⟩)))
  | .slice rs, h, k, H, w => .ok (fun _ _ r => Or.inl r) (H.alloc _) (.seq (.lib (Or.inr ⟨rfl, rfl⟩)))
  | .map ms, h, k, H, w => .ok (fun _ _ r => Or.inl r) (H.alloc _) (.map (.lib (Or.inr ⟨rfl, rfl⟩)))
  | .strct fs, h, k, H, w => .ok (fun _ _ r => Or.inl r) (H.alloc _) (.map (.lib (Or.inr ⟨rfl, rfl⟩)))

theorem beginWith_sim {R : Nat → Nat → Prop} {st st' : List (SLayer W.proto)} {h k : LHeap W.U W.K} (H : HSim a b R h k) (hs : StSim R st st') (out : Bytes) (r : SRef W.U W.K)
    (w : σ) : XSim a b (beginWith (P := W.proto) out st r (w, h)) (beginWith (P := W.proto) out st' r (w, k)) := by
  have key := beginRef_sim r H w
  change BegSim a b R (W.proto.begin r (w, h)) (W.proto.begin r (w, k)) at key
  unfold beginWith
  generalize W.proto.begin r (w, h) = u at key ⊢
  generalize W.proto.begin r (w, k) = v at key ⊢
  cases key with
  | panic H => exact panic_sim H hs _
  | ok hR H hf => exact .running out H (hs.mono hR) hf

/-- What two corresponding calls of `next` do. -/
inductive NextSim {β : Type} (a b : LHeap W.U W.K) (R : Nat → Nat → Prop) : Option (Option β) × W.World → Option (Option β) × W.World → Prop
  | mk (x : Option (Option β)) {w : σ} {h k} (H : HSim a b R h k) : NextSim a b R (x, (w, h)) (x, (w, k))

theorem seqNext_sim {R : Nat → Nat → Prop} {h k : LHeap W.U W.K} (H : HSim a b R h k) {q q' : LBox W.Q} (hq : BSim R q q') (w : σ) :
    NextSim a b R (W.proto.seqNext q (w, h)) (W.proto.seqNext q' (w, k)) := by
  cases hq with
  | user q => exact .mk _ H
  | lib r =>
    rename_i n m
    show NextSim a b R (W.libSeqNext n (w, h)) (W.libSeqNext m (w, k))
    unfold UserSer.libSeqNext
    simp only
    rw [H.cell _ _ r]
    rcases k.cell m with _ | (_ | ⟨r', rest⟩) | ⟨x, y, s⟩ | ms | ⟨fs, s⟩
    · exact .mk _ H
    · exact .mk _ H
    · exact .mk _ (H.set r _)
    · exact .mk _ (H.set r _)
    · exact .mk _ H
    · exact .mk _ H

theorem mapNext_sim {R : Nat → Nat → Prop} {h k : LHeap W.U W.K} (H : HSim a b R h k) {q q' : LBox W.M} (hq : BSim R q q') (w : σ) :
    NextSim a b R (W.proto.mapNext q (w, h)) (W.proto.mapNext q' (w, k)) := by
  cases hq with
  | user q => exact .mk _ H
  | lib r =>
    rename_i n m
    show NextSim a b R (W.libMapNext n (w, h)) (W.libMapNext m (w, k))
    unfold UserSer.libMapNext
    simp only
    rw [H.cell _ _ r]
    rcases k.cell m with _ | rs | ⟨x, y, s⟩ | (_ | ⟨⟨key, r'⟩, ms⟩) | ⟨fs, s⟩
    · exact .mk _ H
    · exact .mk _ H
    · exact .mk _ H
    · exact .mk _ H
    · simp only
      rcases W.toStr key w with ⟨_ | x, w'⟩
      · exact .mk _ (H.set r _)
      · exact .mk _ (H.set r _)
    · simp only
      cases fs[s]? with
      | none => exact .mk _ (H.set r _)
      | some f => exact .mk _ (H.set r _)

theorem dropSeq_sim {R : Nat → Nat → Prop} {q q' : LBox W.Q} (hq : BSim R q q') (w : σ) (h k : LHeap W.U W.K) :
    ∃ w', W.proto.dropSeq q (w, h) = (w', h) ∧ W.proto.dropSeq q' (w, k) = (w', k) := by
  cases hq with
  | user q => exact ⟨_, rfl, rfl⟩
  | lib r => exact ⟨_, rfl, rfl⟩

theorem dropMap_sim {R : Nat → Nat → Prop} {q q' : LBox W.M} (hq : BSim R q q') (w : σ) (h k : LHeap W.U W.K) :
    ∃ w', W.proto.dropMap q (w, h) = (w', h) ∧ W.proto.dropMap q' (w, k) = (w', k) := by
  cases hq with
  | user q => exact ⟨_, rfl, rfl⟩
  | lib r => exact ⟨_, rfl, rfl⟩

theorem advance_sim {R : Nat → Nat → Prop} {st st' : List (SLayer W.proto)} {h k : LHeap W.U W.K} (H : HSim a b R h k) (hs : StSim R st st') (out : Bytes) (w : σ) :
    XSim a b (advance out st (w, h)) (advance out st' (w, k)) := by
  induction hs generalizing out w h k with
  | nil => exact .finished _ H
  | cons hl hs ih =>
    have hls := StSim.cons hl hs
    cases hl with
    | seq hq =>
      unfold advance
      rename_i q q'
      have key := seqNext_sim H hq w
      generalize W.proto.seqNext q (w, h) = u at key ⊢
      generalize W.proto.seqNext q' (w, k) = v at key ⊢
      cases key with
      | mk x H' =>
        rcases x with _ | _ | r
        · exact panic_sim H' hls _
        · obtain ⟨w', e, e'⟩ := dropSeq_sim hq _ _ _
          simp only
          rw [e, e']
          exact ih H' _ _
        · exact beginWith_sim H' hls _ _ _
    | map hq =>
      unfold advance
      rename_i q q'
      have key := mapNext_sim H hq w
      generalize W.proto.mapNext q (w, h) = u at key ⊢
      generalize W.proto.mapNext q' (w, k) = v at key ⊢
      cases key with
      | mk x H' =>
        rcases x with _ | _ | ⟨key, r⟩
        · exact panic_sim H' hls _
        · obtain ⟨w', e, e'⟩ := dropMap_sim hq _ _ _
          simp only
          rw [e, e']
          exact ih H' _ _
        · simp only
          cases escapeStr key (out ++ [b(',')]) with
          | none => exact panic_sim H' hls _
          | some o => exact beginWith_sim H' hls _ _ _

theorem stepS_sim {R : Nat → Nat → Prop} {st st' : List (SLayer W.proto)} {f f' : Frag (LBox W.Q) (LBox W.M)} {h k : LHeap W.U W.K} (H : HSim a b R h k) (hs : StSim R st st')
    (hf : FSim R f f') (out : Bytes) (w : σ) :
    XSim a b (stepS (P := W.proto) ryu ⟨out, st, f, (w, h)⟩) (stepS (P := W.proto) ryu ⟨out, st', f', (w, k)⟩) := by
  cases hf with
  | null => exact advance_sim H hs _ _
  | bool => exact advance_sim H hs _ _
  | u64 => exact advance_sim H hs _ _
  | i64 => exact advance_sim H hs _ _
  | f64 => exact advance_sim H hs _ _
  | str s =>
    simp only [stepS]
    cases escapeStr s out with
    | none => exact panic_sim H hs _
    | some o => exact advance_sim H hs _ _
  | seq hq =>
    have hls := StSim.cons (.seq hq) hs
    rename_i q q'
    unfold stepS
    simp only
    have key := seqNext_sim H hq w
    generalize W.proto.seqNext q (w, h) = u at key ⊢
    generalize W.proto.seqNext q' (w, k) = v at key ⊢
    cases key with
    | mk x H' =>
      rcases x with _ | _ | r
      · obtain ⟨w', e, e'⟩ := dropSeq_sim hq _ _ _
        simp only
        rw [e, e']
        exact panic_sim H' hs _
      · obtain ⟨w', e, e'⟩ := dropSeq_sim hq _ _ _
        simp only
        rw [e, e']
        exact advance_sim H' hs _ _
      · exact beginWith_sim H' hls _ _ _
  | map hq =>
    have hls := StSim.cons (.map hq) hs
    rename_i q q'
    unfold stepS
    simp only
    have key := mapNext_sim H hq w
    generalize W.proto.mapNext q (w, h) = u at key ⊢
    generalize W.proto.mapNext q' (w, k) = v at key ⊢
    cases key with
    | mk x H' =>
      rcases x with _ | _ | ⟨key, r⟩
      · obtain ⟨w', e, e'⟩ := dropMap_sim hq _ _ _
        simp only
        rw [e, e']
        exact panic_sim H' hs _
      · obtain ⟨w', e, e'⟩ := dropMap_sim hq _ _ _
        simp only
        rw [e, e']
        exact advance_sim H' hs _ _
      · simp only
        cases escapeStr key (out ++ [b('{')]) with
        | none =>
          obtain ⟨w', e, e'⟩ := dropMap_sim hq _ _ _
          simp only
          rw [e, e']
          exact panic_sim H' hs _
        | some o => exact beginWith_sim H' hls _ _ _

theorem runS_sim : ∀ (n : Nat) {x y : SExit W.proto}, XSim a b x y → XSim a b (runS ryu n x) (runS ryu n y)
  | 0, _, _, h => h
  | n + 1, _, _, .running out H hs hf => by
    rw [runS, runS]
    exact runS_sim n (stepS_sim H hs hf out _)
  | n + 1, _, _, .finished o H => .finished o H

/-- The text, the number of iterations and what the user's implementations do are the same whatever streams exist already, and those are left alone. -/
theorem toStringN_sim (a b : LHeap W.U W.K) (n : Nat) (r : SRef W.U W.K) (w : σ) : XSim a b (toStringN W.proto ryu n r (w, a)) (toStringN W.proto ryu n r (w, b)) :=
  runS_sim n (beginWith_sim (HSim.start a b) .nil [] r w)

end Miniserde
