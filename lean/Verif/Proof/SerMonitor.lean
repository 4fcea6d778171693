import Verif.Spec.SerMonitor
import Verif.Proof.Monitor

/-!
# The serializer never makes the borrow monitor complain
-/

namespace Miniserde
section
variable {σ : Type} {P : SProto σ} {ryu : F64 → Bytes}

/-- The number of a monitored stream. -/
def SLayer.id : SLayer P.monitored → Nat
  | .seq q => q.2
  | .map m => m.2

/-- A value is innermost, then the streams of the given layers, each above the value it came from. -/
def VShape : List (SLayer P.monitored) → List Live → Prop
  | [], S => S = [.visitor 0]
  | l :: ls, S => ∃ v S', S = .visitor v :: .builder l.id :: S' ∧ VShape ls S'

/-- A stream is innermost. -/
def BShape (l : SLayer P.monitored) (ls : List (SLayer P.monitored)) (S : List Live) : Prop :=
  ∃ S', S = .builder l.id :: S' ∧ VShape ls S'

theorem VShape.head {ls : List (SLayer P.monitored)} {S : List Live} (h : VShape ls S) : ∃ v S', S = .visitor v :: S' := by
  match ls, h with
  | [], h => exact ⟨0, [], h⟩
  | _ :: _, ⟨v, S', h, _⟩ => exact ⟨v, _, h⟩

/-- What is claimed of a state of the monitored run. -/
def SGood (x : SExit P) : SExit P.monitored → Prop
  | .running st => x = SExit.untag P (.running st) ∧ st.w.2.ok = true ∧
      match st.frag with
      | .seq q => BShape (.seq q) st.stack st.w.2.stack
      | .map m => BShape (.map m) st.stack st.w.2.stack
      | _ => VShape st.stack st.w.2.stack
  | .finished o w => x = SExit.untag P (.finished o w) ∧ w.2.ok = true ∧ w.2.stack = [.visitor 0]

/-- Drop a layer whose stream is innermost, or only below the value it handed out last. -/
theorem drop_layer {l : SLayer P.monitored} {ls : List (SLayer P.monitored)} {w : σ × Mon} (hok : w.2.ok = true)
    (h : BShape l ls w.2.stack ∨ VShape (l :: ls) w.2.stack) :
    (l.drop w).1 = (SLayer.untag P l).drop w.1 ∧ (l.drop w).2.ok = true ∧ VShape ls (l.drop w).2.stack := by
  have hd : (l.drop w).2 = w.2.dropBuilder l.id := by cases l <;> rfl
  refine ⟨by cases l <;> rfl, ?_, ?_⟩
  · rw [hd]
    simp only [Mon.ok, Mon.stack] at hok h ⊢
    rcases h with ⟨S', e, h⟩ | ⟨v, S', e, h⟩ <;> simp [Mon.dropBuilder, Mon.st_add, MonSt.step, e, hok]
  · rw [hd]
    simp only [Mon.stack] at h ⊢
    rcases h with ⟨S', e, h⟩ | ⟨v, S', e, h⟩ <;> simp [Mon.dropBuilder, Mon.st_add, MonSt.step, e, h]

theorem drop_layers : ∀ {ls : List (SLayer P.monitored)} {w : σ × Mon}, w.2.ok = true → VShape ls w.2.stack →
    (dropLayers ls w).1 = dropLayers (ls.map (SLayer.untag P)) w.1 ∧ (dropLayers ls w).2.ok = true ∧
      (dropLayers ls w).2.stack = [.visitor 0]
  | [], w, hok, h => ⟨rfl, hok, h⟩
  | l :: ls, w, hok, h => by
    obtain ⟨h1, h2, h3⟩ := drop_layer hok (.inr h)
    obtain ⟨k1, k2, k3⟩ := drop_layers h2 h3
    rw [dropLayers, List.map_cons, dropLayers]
    exact ⟨by rw [k1, h1], k2, k3⟩

theorem drop_layers_b {l : SLayer P.monitored} {ls : List (SLayer P.monitored)} {w : σ × Mon} (hok : w.2.ok = true)
    (h : BShape l ls w.2.stack) :
    (dropLayers (l :: ls) w).1 = dropLayers ((l :: ls).map (SLayer.untag P)) w.1 ∧ (dropLayers (l :: ls) w).2.ok = true ∧
      (dropLayers (l :: ls) w).2.stack = [.visitor 0] := by
  obtain ⟨h1, h2, h3⟩ := drop_layer hok (.inl h)
  obtain ⟨k1, k2, k3⟩ := drop_layers h2 h3
  rw [dropLayers, List.map_cons, dropLayers]
  exact ⟨by rw [k1, h1], k2, k3⟩

theorem begin_good {out : Bytes} {ls : List (SLayer P.monitored)} {s : P.S} {id : Nat} {w : σ} {m : Mon} {S : List Live} (hok : m.ok = true)
    (hm : m.stack = .visitor id :: S) (h : VShape ls m.stack) :
    SGood (beginWith out (ls.map (SLayer.untag P)) s w) (beginWith (P := P.monitored) out ls (s, id) (w, m)) := by
  have hu : AtV id S (m.useVisitor id) := AtV.use ⟨hok, hm⟩
  have hb : P.monitored.begin (s, id) (w, m) = ((P.begin s w).1.map (Frag.tag (m.useVisitor id).next),
      ((P.begin s w).2, match (P.begin s w).1 with | some f => f.enter id (m.useVisitor id) | none => m.useVisitor id)) := by
    simp only [SProto.monitored]; rfl
  replace h : VShape ls (m.useVisitor id).stack := by rw [hu.2, ← hm]; exact h
  replace hok := hu.1
  have hpb := hu.pushB
  have hbs : (Mon.push Op.newBuilder id (m.useVisitor id)).ok = true ∧
      (Mon.push Op.newBuilder id (m.useVisitor id)).stack = .builder (m.useVisitor id).next :: (m.useVisitor id).stack := by
    refine ⟨hpb.1, ?_⟩
    have h1 := hu.2
    simp only [Mon.stack] at h1
    simp only [Mon.stack, Mon.push, Mon.st_add, MonSt.step, h1]
  rcases hp : P.begin s w with ⟨f, w1⟩
  rw [hp] at hb
  unfold beginWith
  rw [hb, hp]
  cases f with
  | none =>
    obtain ⟨k1, k2, k3⟩ := drop_layers (w := (w1, m.useVisitor id)) hok h
    exact ⟨by simp only [SExit.untag, k1], k2, k3⟩
  | some f =>
    cases f <;> first
      | exact ⟨rfl, hok, h⟩
      | exact ⟨rfl, hbs.1, _, hbs.2, h⟩

theorem useBuilder_stack {l : SLayer P.monitored} {ls : List (SLayer P.monitored)} {m : Mon} (hok : m.ok = true)
    (h : BShape l ls m.stack ∨ VShape (l :: ls) m.stack) :
    (m.useBuilder l.id).ok = true ∧ BShape l ls (m.useBuilder l.id).stack := by
  rcases h with ⟨S', e, h⟩ | ⟨v, S', e, h⟩
  · exact ⟨(AtB.use ⟨hok, .inl e⟩).1, S', (AtB.use ⟨hok, .inl e⟩).2, h⟩
  · exact ⟨(AtB.use ⟨hok, .inr ⟨v, e⟩⟩).1, S', (AtB.use ⟨hok, .inr ⟨v, e⟩⟩).2, h⟩

theorem push_v {l : SLayer P.monitored} {ls : List (SLayer P.monitored)} {m : Mon} (hok : m.ok = true) (h : BShape l ls m.stack) :
    (m.push .newVisitor l.id).ok = true ∧
    ∃ S, (m.push .newVisitor l.id).stack = .visitor m.next :: S ∧ VShape (l :: ls) (m.push .newVisitor l.id).stack := by
  obtain ⟨S', e, h⟩ := h
  have hp := AtB.pushV ⟨hok, e⟩
  exact ⟨hp.1, _, hp.2, m.next, S', hp.2, h⟩

theorem seqNext_mon (q : P.Q) (id : Nat) (w : σ) (m : Mon) : P.monitored.seqNext (q, id) (w, m) =
    ((P.seqNext q w).1.map (Option.map fun s => (s, (m.useBuilder id).next)),
      ((P.seqNext q w).2, match (P.seqNext q w).1 with
        | some (some _) => (m.useBuilder id).push .newVisitor id
        | _ => m.useBuilder id)) := rfl

theorem mapNext_mon (q : P.M) (id : Nat) (w : σ) (m : Mon) : P.monitored.mapNext (q, id) (w, m) =
    ((P.mapNext q w).1.map (Option.map fun s => (s.1, s.2, (m.useBuilder id).next)),
      ((P.mapNext q w).2, match (P.mapNext q w).1 with
        | some (some _) => (m.useBuilder id).push .newVisitor id
        | _ => m.useBuilder id)) := rfl

theorem SGood.of_eq {x x' : SExit P} {y y' : SExit P.monitored} (hx : x = x') (hy : y = y') (h : SGood x' y') : SGood x y := by
  rw [hx, hy]; exact h

theorem advance_seq_panic {q : P.Q} {w w₁ : σ} {out : Bytes} {st : List (SLayer P)} (h : P.seqNext q w = (none, w₁)) :
    advance out (.seq q :: st) w = .finished none (dropLayers (.seq q :: st) w₁) := by rw [advance, h]

theorem advance_seq_end {q : P.Q} {w w₁ : σ} {out : Bytes} {st : List (SLayer P)} (h : P.seqNext q w = (some none, w₁)) :
    advance out (.seq q :: st) w = advance (out ++ [b(']')]) st (P.dropSeq q w₁) := by rw [advance, h]

theorem advance_seq_next {q : P.Q} {w w₁ : σ} {out : Bytes} {st : List (SLayer P)} {s : P.S} (h : P.seqNext q w = (some (some s), w₁)) :
    advance out (.seq q :: st) w = beginWith (out ++ [b(',')]) (.seq q :: st) s w₁ := by rw [advance, h]

theorem advance_map_panic {q : P.M} {w w₁ : σ} {out : Bytes} {st : List (SLayer P)} (h : P.mapNext q w = (none, w₁)) :
    advance out (.map q :: st) w = .finished none (dropLayers (.map q :: st) w₁) := by rw [advance, h]

theorem advance_map_end {q : P.M} {w w₁ : σ} {out : Bytes} {st : List (SLayer P)} (h : P.mapNext q w = (some none, w₁)) :
    advance out (.map q :: st) w = advance (out ++ [b('}')]) st (P.dropMap q w₁) := by rw [advance, h]

theorem advance_map_next {q : P.M} {w w₁ : σ} {out k : Bytes} {st : List (SLayer P)} {s : P.S} (h : P.mapNext q w = (some (some (k, s)), w₁)) :
    advance out (.map q :: st) w = match escapeStr k (out ++ [b(',')]) with
      | some out => beginWith (out ++ [b(':')]) (.map q :: st) s w₁
      | none => .finished none (dropLayers (.map q :: st) w₁) := by rw [advance, h]; rfl

theorem advance_good : ∀ (ls : List (SLayer P.monitored)) (out : Bytes) (w : σ) (m : Mon), m.ok = true → VShape ls m.stack →
    SGood (advance out (ls.map (SLayer.untag P)) w) (advance out ls (w, m))
  | [], out, w, m, hok, h => ⟨rfl, hok, h⟩
  | .seq (q, id) :: ls, out, w, m, hok, h => by
    have hu := useBuilder_stack hok (.inr h)
    show SGood (advance out (.seq q :: ls.map (SLayer.untag P)) w) _
    rcases hq : P.seqNext q w with ⟨r, w1⟩
    match r, hq with
    | none, hq =>
      obtain ⟨k1, k2, k3⟩ := drop_layers_b (w := (w1, m.useBuilder id)) hu.1 hu.2
      refine SGood.of_eq (advance_seq_panic hq) (advance_seq_panic (P := P.monitored) (w₁ := (w1, m.useBuilder id)) (by rw [seqNext_mon, hq]; rfl)) ?_
      exact ⟨congrArg (SExit.finished none) k1.symm, k2, k3⟩
    | some none, hq =>
      obtain ⟨h1, h2, h3⟩ := drop_layer (w := (w1, m.useBuilder id)) hu.1 (.inl hu.2)
      refine SGood.of_eq (advance_seq_end hq) (advance_seq_end (P := P.monitored) (w₁ := (w1, m.useBuilder id)) (by rw [seqNext_mon, hq]; rfl)) ?_
      exact advance_good ls _ _ _ h2 h3
    | some (some s), hq =>
      obtain ⟨hp, S, e, hv⟩ := push_v hu.1 hu.2
      refine SGood.of_eq (advance_seq_next hq) (advance_seq_next (P := P.monitored) (s := (s, (m.useBuilder id).next)) (w₁ := (w1, (m.useBuilder id).push .newVisitor id)) (by rw [seqNext_mon, hq]; rfl)) ?_
      exact begin_good (ls := .seq (q, id) :: ls) (m := (m.useBuilder id).push .newVisitor id) hp e hv
  | .map (q, id) :: ls, out, w, m, hok, h => by
    have hu := useBuilder_stack hok (.inr h)
    show SGood (advance out (.map q :: ls.map (SLayer.untag P)) w) _
    rcases hq : P.mapNext q w with ⟨r, w1⟩
    match r, hq with
    | none, hq =>
      obtain ⟨k1, k2, k3⟩ := drop_layers_b (w := (w1, m.useBuilder id)) hu.1 hu.2
      refine SGood.of_eq (advance_map_panic hq) (advance_map_panic (P := P.monitored) (w₁ := (w1, m.useBuilder id)) (by rw [mapNext_mon, hq]; rfl)) ?_
      exact ⟨congrArg (SExit.finished none) k1.symm, k2, k3⟩
    | some none, hq =>
      obtain ⟨h1, h2, h3⟩ := drop_layer (w := (w1, m.useBuilder id)) hu.1 (.inl hu.2)
      refine SGood.of_eq (advance_map_end hq) (advance_map_end (P := P.monitored) (w₁ := (w1, m.useBuilder id)) (by rw [mapNext_mon, hq]; rfl)) ?_
      exact advance_good ls _ _ _ h2 h3
    | some (some (k, s)), hq =>
      obtain ⟨hp, S, e, hv⟩ := push_v hu.1 hu.2
      refine SGood.of_eq (advance_map_next hq) (advance_map_next (P := P.monitored) (s := (s, (m.useBuilder id).next)) (w₁ := (w1, (m.useBuilder id).push .newVisitor id)) (by rw [mapNext_mon, hq]; rfl)) ?_
      cases escapeStr k (out ++ [b(',')]) with
      | none =>
        obtain ⟨k1, k2, k3⟩ := drop_layers (w := (w1, (m.useBuilder id).push .newVisitor id)) (ls := .map (q, id) :: ls) hp hv
        exact ⟨congrArg (SExit.finished none) k1.symm, k2, k3⟩
      | some out' => exact begin_good (ls := .map (q, id) :: ls) (m := (m.useBuilder id).push .newVisitor id) hp e hv

/-- Being told about a move changes neither the world nor what is alive. -/
def MoveOk (mv : SLayer P.monitored → σ × Mon → σ × Mon) : Prop :=
  ∀ l ls w m, m.ok = true → BShape l ls m.stack ∨ VShape (l :: ls) m.stack → ∃ m', mv l (w, m) = (w, m') ∧ m'.ok = true ∧ m'.stack = m.stack

theorem moveOk_none : MoveOk (P := P) fun _ w => w := fun _ _ _ m h _ => ⟨m, rfl, h, rfl⟩

theorem moveOk_moved : MoveOk (SProto.moved P) := by
  intro l ls w m hok h
  refine ⟨m.add (.moveBuilder l.id), by cases l <;> rfl, ?_, ?_⟩ <;> simp only [Mon.ok, Mon.stack] at hok h ⊢ <;>
    rcases h with ⟨S', e, h⟩ | ⟨v, S', e, h⟩ <;> simp [Mon.st_add, MonSt.step, e, hok]

theorem step_good {mv : SLayer P.monitored → σ × Mon → σ × Mon} (hmv : MoveOk mv) (x : SSt P.monitored) (y : SSt P)
    (h : SGood (.running y) (.running x)) : SGood (stepS ryu y) (stepMv mv ryu x) := by
  obtain ⟨out, ls, f, w, m⟩ := x
  obtain ⟨e, hok, hs⟩ := h
  simp only [SExit.untag, SExit.running.injEq] at e
  subst e
  cases f with
  | null => exact advance_good ls _ w m hok hs
  | bool b => exact advance_good ls _ w m hok hs
  | u64 n => exact advance_good ls _ w m hok hs
  | i64 n => exact advance_good ls _ w m hok hs
  | f64 n => exact advance_good ls _ w m hok hs
  | str s =>
    simp only [stepS, stepMv, Frag.untag]
    cases escapeStr s out with
    | none =>
      obtain ⟨k1, k2, k3⟩ := drop_layers (w := (w, m)) hok hs
      exact ⟨by simp only [SExit.untag, k1], k2, k3⟩
    | some o => exact advance_good ls _ w m hok hs
  | seq q =>
    obtain ⟨q, id⟩ := q
    obtain ⟨m0, hm0, hok0, hs0⟩ := hmv (.seq (q, id)) ls w m hok (.inl hs)
    replace hs : BShape (.seq (q, id)) ls m0.stack := by rw [hs0]; exact hs
    replace hok := hok0
    simp only [stepS, stepMv, Frag.untag]
    rw [hm0]
    clear hm0 hs0 hok0
    generalize m0 = m at hs hok
    have hu := useBuilder_stack (l := .seq (q, id)) hok (.inl hs)
    rw [seqNext_mon]
    rcases hq : P.seqNext q w with ⟨r, w1⟩
    match r, hq with
    | none, hq =>
      obtain ⟨k1, k2, k3⟩ := drop_layers_b (w := (w1, m.useBuilder id)) hu.1 hu.2
      exact ⟨by simp only [SExit.untag]; exact congrArg _ k1.symm, k2, k3⟩
    | some none, hq =>
      obtain ⟨h1, h2, h3⟩ := drop_layer (w := (w1, m.useBuilder id)) hu.1 (.inl hu.2)
      exact advance_good ls _ _ _ h2 h3
    | some (some s), hq =>
      obtain ⟨hp, S, e, hv⟩ := push_v hu.1 hu.2
      obtain ⟨m1, hm1, hok1, hs1⟩ := hmv (.seq (q, id)) ls w1 ((m.useBuilder id).push .newVisitor id) hp (.inr hv)
      simp only [Option.map_some, hm1]
      exact begin_good (ls := .seq (q, id) :: ls) (m := m1) hok1 (hs1.trans e) (hs1 ▸ hv)
  | map q =>
    obtain ⟨q, id⟩ := q
    obtain ⟨m0, hm0, hok0, hs0⟩ := hmv (.map (q, id)) ls w m hok (.inl hs)
    replace hs : BShape (.map (q, id)) ls m0.stack := by rw [hs0]; exact hs
    replace hok := hok0
    simp only [stepS, stepMv, Frag.untag]
    rw [hm0]
    clear hm0 hs0 hok0
    generalize m0 = m at hs hok
    have hu := useBuilder_stack (l := .map (q, id)) hok (.inl hs)
    rw [mapNext_mon]
    rcases hq : P.mapNext q w with ⟨r, w1⟩
    match r, hq with
    | none, hq =>
      obtain ⟨k1, k2, k3⟩ := drop_layers_b (w := (w1, m.useBuilder id)) hu.1 hu.2
      exact ⟨by simp only [SExit.untag]; exact congrArg _ k1.symm, k2, k3⟩
    | some none, hq =>
      obtain ⟨h1, h2, h3⟩ := drop_layer (w := (w1, m.useBuilder id)) hu.1 (.inl hu.2)
      exact advance_good ls _ _ _ h2 h3
    | some (some (k, s)), hq =>
      obtain ⟨hp, S, e, hv⟩ := push_v hu.1 hu.2
      simp only [Option.map_some]
      cases escapeStr k (out ++ [b('{')]) with
      | none =>
        obtain ⟨k1, k2, k3⟩ := drop_layers (w := (w1, (m.useBuilder id).push .newVisitor id)) (ls := .map (q, id) :: ls) hp hv
        exact ⟨by simp only [SExit.untag]; exact congrArg _ k1.symm, k2, k3⟩
      | some out' =>
        obtain ⟨m1, hm1, hok1, hs1⟩ := hmv (.map (q, id)) ls w1 ((m.useBuilder id).push .newVisitor id) hp (.inr hv)
        simp only [hm1]
        exact begin_good (ls := .map (q, id) :: ls) (m := m1) hok1 (hs1.trans e) (hs1 ▸ hv)

theorem run_good {mv : SLayer P.monitored → σ × Mon → σ × Mon} (hmv : MoveOk mv) : ∀ (n : Nat) (x : SExit P.monitored) (y : SExit P),
    SGood y x → SGood (runS ryu n y) (runMv mv ryu n x)
  | 0, _, _, h => h
  | n + 1, .running x, .running y, h => run_good hmv n _ _ (step_good hmv x y h)
  | n + 1, .running x, .finished o w, h => by obtain ⟨e, _⟩ := h; cases e
  | n + 1, .finished o w, .running y, h => by obtain ⟨e, _⟩ := h; cases e
  | n + 1, .finished o w, .finished o' w', h => h

theorem toStringMv_good {mv : SLayer P.monitored → σ × Mon → σ × Mon} (hmv : MoveOk mv) (n : Nat) (s : P.S) (w : σ) :
    SGood (toStringN P ryu n s w) (toStringMv P.monitored mv ryu n (s, 0) (w, Mon.init)) :=
  run_good hmv n _ _ (begin_good (ls := []) (S := []) rfl rfl rfl)

theorem runMv_none : ∀ (n : Nat) (x : SExit P), runMv (fun _ w => w) ryu n x = runS ryu n x
  | 0, _ => rfl
  | n + 1, .running x => by rw [runMv, runS, stepMv_none, runMv_none n]
  | n + 1, .finished o w => rfl

theorem toString_good (n : Nat) (s : P.S) (w : σ) :
    SGood (toStringN P ryu n s w) (toStringN P.monitored ryu n (s, 0) (w, Mon.init)) := by
  have h := toStringMv_good (P := P) (ryu := ryu) moveOk_none n s w
  unfold toStringMv at h
  rw [runMv_none] at h
  exact h

end
end Miniserde
