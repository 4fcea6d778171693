import Verif.Proof.Monitor
import Verif.Spec.Unwind

/-!
# Driver with panicking destructors
-/

namespace Miniserde
variable {σ : Type} {P : Proto σ}

/-- The number of a layer. -/
def Layer.tag : Layer P.monitored → Nat
  | .seq q => q.2
  | .map m => m.2

/-- A stack of the monitored driver without the numbers. -/
def untagF (f : Frame P.monitored) : Frame P := (f.1.1, f.2.untag)

theorem drop_tag (l : Layer P.monitored) (w : σ) (m : Mon) : l.drop (w, m) = (l.untag.drop w, m.dropBuilder l.tag) := by
  cases l <;> rfl

/-- What is alive below the current visitor. -/
def liveF : List (Frame P.monitored) → List Live
  | [] => []
  | f :: st => .builder f.2.tag :: .visitor f.1.2 :: liveF st

def idsF : List (Frame P.monitored) → List Nat
  | [] => []
  | f :: st => f.2.tag :: idsF st

/-- The outermost visitor. -/
def rootF (v : Nat) : List (Frame P.monitored) → Nat
  | [] => v
  | f :: st => rootF f.1.2 st

def Bal (ids : List Nat) (m : Mon) : Prop :=
  (∀ id, m.makes id = m.drops id + ids.count id) ∧ ∀ id, m.makes id ≤ 1 ∧ (m.next ≤ id → m.makes id = 0)

def InvV (v : Nat) (st : List (Frame P.monitored)) (m : Mon) : Prop := AtV v (liveF st) m ∧ rootF v st = 0 ∧ Bal (idsF st) m
def InvB (v l : Nat) (st : List (Frame P.monitored)) (m : Mon) : Prop := AtB l (.visitor v :: liveF st) m ∧ rootF v st = 0 ∧ Bal (l :: idsF st) m

/-- The run is over. -/
structure Ended (o : UOut) (m : Mon) : Prop where
  disc : m.ok = !o.disordered
  live : o.aborted = false → o.disordered = false → m.stack = [.visitor 0]
  once : o.aborted = false → ∀ id, m.drops id = m.makes id
  most : ∀ id, m.drops id ≤ m.makes id ∧ m.makes id ≤ 1

theorem makes_add (m : Mon) (o : Op) (id : Nat) : (m.add o).makes id = m.makes id + match o with | .newBuilder i _ => if i = id then 1 else 0 | _ => 0 := by
  cases o <;> simp [Mon.makes, Mon.add, List.countP_cons]

theorem drops_add (m : Mon) (o : Op) (id : Nat) : (m.add o).drops id = m.drops id + match o with | .dropBuilder i => if i = id then 1 else 0 | _ => 0 := by
  cases o <;> simp [Mon.drops, Mon.add, List.countP_cons]

theorem Bal.drop {l : Nat} {ids : List Nat} {m : Mon} (h : Bal (l :: ids) m) (hn : (m.dropBuilder l).next = m.next) : Bal ids (m.dropBuilder l) := by
  obtain ⟨h1, h2⟩ := h
  constructor
  · intro id
    have := h1 id
    rw [List.count_cons] at this
    simp only [Mon.dropBuilder, makes_add, drops_add]
    by_cases e : l = id <;> simp [e] at this ⊢ <;> omega
  · intro id
    rw [hn]
    simp only [Mon.dropBuilder, makes_add]
    exact h2 id

theorem next_useV {id : Nat} {S : List Live} {m : Mon} (h : AtV id S m) : (m.useVisitor id).next = m.next := by
  obtain ⟨h1, h2⟩ := h
  simp only [Mon.stack] at h2
  simp [Mon.useVisitor, Mon.next, Mon.st_add, MonSt.step, h2]

theorem next_useB {id : Nat} {S : List Live} {m : Mon} (h : AtB id S m) : (m.useBuilder id).next = m.next := by
  obtain ⟨h1, h2⟩ := h
  simp only [Mon.stack] at h2
  rcases h2 with h2 | ⟨i, h2⟩ <;> simp [Mon.useBuilder, Mon.next, Mon.st_add, MonSt.step, h2]

theorem next_dropB {id : Nat} {S : List Live} {m : Mon} (h : AtB id S m) : (m.dropBuilder id).next = m.next := by
  obtain ⟨h1, h2⟩ := h
  simp only [Mon.stack] at h2
  rcases h2 with h2 | ⟨i, h2⟩ <;> simp [Mon.dropBuilder, Mon.next, Mon.st_add, MonSt.step, h2]

theorem next_pushB {id : Nat} {S : List Live} {m : Mon} (h : AtV id S m) : (m.push .newBuilder id).next = m.next + 1 := by
  obtain ⟨h1, h2⟩ := h
  simp only [Mon.stack] at h2
  simp [Mon.push, Mon.next, Mon.st_add, MonSt.step, h2]

theorem next_pushV {id : Nat} {S : List Live} {m : Mon} (h : m.stack = .builder id :: S) : (m.push .newVisitor id).next = m.next + 1 := by
  simp only [Mon.stack] at h
  simp [Mon.push, Mon.next, Mon.st_add, MonSt.step, h]

theorem Bal.use {ids : List Nat} {m : Mon} (h : Bal ids m) {o : Op} (ho : ∀ id, (m.add o).makes id = m.makes id ∧ (m.add o).drops id = m.drops id)
    (hn : m.next ≤ (m.add o).next) : Bal ids (m.add o) := by
  obtain ⟨h1, h2⟩ := h
  refine ⟨fun id => by rw [(ho id).1, (ho id).2]; exact h1 id, fun id => by rw [(ho id).1]; exact ⟨(h2 id).1, fun h => (h2 id).2 (by omega)⟩⟩

theorem InvV.use {v : Nat} {st : List (Frame P.monitored)} {m : Mon} (h : InvV v st m) : InvV v st (m.useVisitor v) :=
  ⟨h.1.use, h.2.1, h.2.2.use (fun id => by rw [makes_add, drops_add]; simp) (Nat.le_of_eq (next_useV h.1).symm)⟩

theorem InvV.pushB {v : Nat} {st : List (Frame P.monitored)} {m : Mon} (h : InvV v st m) : InvB v m.next st (m.push .newBuilder v) := by
  refine ⟨h.1.pushB, h.2.1, ?_, ?_⟩
  · intro id
    have := h.2.2.1 id
    simp only [Mon.push, makes_add, drops_add, List.count_cons]
    by_cases e : m.next = id <;> simp [e] <;> omega
  · intro id
    have := h.2.2.2 id
    rw [next_pushB h.1]
    simp only [Mon.push, makes_add]
    by_cases e : m.next = id
    · subst e
      simp only [if_true]
      have := this.2 (Nat.le_refl _)
      omega
    · simp only [e, if_false]
      exact ⟨by omega, fun h => by have := this.2 (by omega); omega⟩

theorem InvB.use {v l : Nat} {st : List (Frame P.monitored)} {m : Mon} (h : InvB v l st m) :
    (m.useBuilder l).ok = true ∧ (m.useBuilder l).stack = .builder l :: .visitor v :: liveF st ∧ rootF v st = 0 ∧ Bal (l :: idsF st) (m.useBuilder l) :=
  ⟨h.1.use.1, h.1.use.2, h.2.1, h.2.2.use (fun id => by rw [makes_add, drops_add]; simp) (Nat.le_of_eq (next_useB h.1).symm)⟩

theorem InvB.used {v l : Nat} {st : List (Frame P.monitored)} {m : Mon} (h : InvB v l st m) : InvB v l st (m.useBuilder l) :=
  ⟨⟨h.use.1, .inl h.use.2.1⟩, h.use.2.2⟩

/-- `element`/`key` succeeded and the layer is pushed. -/
theorem InvB.pushV {v : P.monitored.V} {l : Layer P.monitored} {st : List (Frame P.monitored)} {m : Mon} (h : InvB v.2 l.tag st m) :
    InvV (m.useBuilder l.tag).next ((v, l) :: st) ((m.useBuilder l.tag).push .newVisitor l.tag) := by
  obtain ⟨h1, h2, h3, h4⟩ := h.use
  refine ⟨AtB.pushV ⟨h1, h2⟩, h3, ?_⟩
  exact h4.use (fun id => by rw [makes_add, drops_add]; simp) (by have := next_pushV h2; simp only [Mon.push] at this; rw [this]; omega)

/-- The top layer is popped. -/
theorem InvV.pop {v : Nat} {f : Frame P.monitored} {st : List (Frame P.monitored)} {m : Mon} (h : InvV v (f :: st) m) : InvB f.1.2 f.2.tag st m :=
  ⟨h.1.toB, h.2.1, h.2.2⟩

/-- A layer is dropped. -/
theorem InvB.drop {v l : Nat} {st : List (Frame P.monitored)} {m : Mon} (h : InvB v l st m) : InvV v st (m.dropBuilder l) :=
  ⟨h.1.drop, h.2.1, h.2.2.drop (next_dropB h.1)⟩

theorem InvV.over {v : Nat} {m : Mon} (h : InvV (P := P) v [] m) {o : UOut} (ho : o.disordered = false) : Ended o m := by
  obtain ⟨⟨h1, h2⟩, h3, h4, h5⟩ := h
  simp only [rootF] at h3; subst h3
  refine ⟨by rw [ho]; exact h1, fun _ _ => h2, fun _ id => by have := h4 id; simp only [idsF, List.count_nil] at this; omega, fun id => ⟨?_, (h5 id).1⟩⟩
  have := h4 id; omega

theorem InvV.aborted {v : Nat} {st : List (Frame P.monitored)} {m : Mon} (h : InvV v st m) : Ended .abort m := by
  obtain ⟨⟨h1, h2⟩, h3, h4, h5⟩ := h
  exact ⟨h1, fun h => by simp [UOut.aborted] at h, fun h => by simp [UOut.aborted] at h, fun id => ⟨by have := h4 id; omega, (h5 id).1⟩⟩

/-- The monitored result `x` matches the result `y`. -/
def EndSim (x : UOut × (σ × Mon)) (y : UOut × σ) : Prop := x.1 = y.1 ∧ x.2.1 = y.2 ∧ Ended x.1 x.2.2

section
variable {bomb : Layer P → σ → Bool}

theorem unwind_sim : ∀ (st : List (Frame P.monitored)) {v : Nat} {w : σ} {m : Mon}, InvV v st m →
    EndSim (unwindStack P.monitored (monBomb bomb) st (w, m)) (unwindStack P bomb (st.map untagF) w)
  | [], v, w, m, h => ⟨rfl, rfl, h.over (by simp [unwindStack, UOut.disordered])⟩
  | f :: st, v, w, m, h => by
    have hd := h.pop.drop
    simp only [unwindStack, List.map_cons, drop_tag]
    show EndSim (if bomb f.2.untag w then _ else _) (if bomb f.2.untag w then _ else _)
    by_cases hb : bomb f.2.untag w = true
    · rw [if_pos hb, if_pos hb]; exact ⟨rfl, rfl, hd.aborted⟩
    · rw [if_neg hb, if_neg hb]; exact unwind_sim st hd

/-- Dropping layers in any order keeps the balance. -/
theorem vec_sim : ∀ (l : List (Frame P.monitored)) {w : σ} {m : Mon},
    (dropVec P.monitored (monBomb bomb) l (w, m)).1 = (dropVec P bomb (l.map untagF) w).1 ∧
    (dropVec P.monitored (monBomb bomb) l (w, m)).2.1 = (dropVec P bomb (l.map untagF) w).2 ∧
    (∀ id, (dropVec P.monitored (monBomb bomb) l (w, m)).2.2.makes id = m.makes id) ∧
    (∀ id, (dropVec P.monitored (monBomb bomb) l (w, m)).2.2.drops id ≤ m.drops id + (idsF l).count id) ∧
    ((dropVec P.monitored (monBomb bomb) l (w, m)).1 = false →
      ∀ id, (dropVec P.monitored (monBomb bomb) l (w, m)).2.2.drops id = m.drops id + (idsF l).count id)
  | [], w, m => by simp [dropVec, idsF]
  | f :: st, w, m => by
    obtain ⟨i1, i2, i3, i4, i5⟩ := vec_sim st (w := f.2.untag.drop w) (m := m.dropBuilder f.2.tag)
    simp only [dropVec, List.map_cons, drop_tag, idsF, List.count_cons]
    have e1 : ∀ id, (m.dropBuilder f.2.tag).makes id = m.makes id := fun id => by simp [Mon.dropBuilder, makes_add]
    have e2 : ∀ id, (m.dropBuilder f.2.tag).drops id = m.drops id + if f.2.tag == id then 1 else 0 := fun id => by
      simp only [Mon.dropBuilder, drops_add, beq_iff_eq]
    have hmb : monBomb bomb f.2 (w, m) = bomb f.2.untag w := rfl
    by_cases hb : bomb f.2.untag w = true
    · simp only [hmb, untagF, hb, if_true]
      refine ⟨trivial, trivial, e1, fun id => ?_, by simp⟩
      have := e2 id; omega
    · simp only [hmb, untagF, hb]
      refine ⟨i1, i2, fun id => by rw [← e1 id]; exact i3 id, fun id => ?_, fun h id => ?_⟩
      · have := i4 id; have := e2 id; simp only [Bool.false_eq_true, if_false] at this ⊢; omega
      · have := i5 h id; have := e2 id; simp only [Bool.false_eq_true, if_false] at this ⊢; omega

theorem idsF_append (a b : List (Frame P.monitored)) : idsF (a ++ b) = idsF a ++ idsF b := by
  induction a with
  | nil => rfl
  | cons f a ih => simp [idsF, ih]

theorem idsF_reverse_count (st : List (Frame P.monitored)) (id : Nat) : (idsF st.reverse).count id = (idsF st).count id := by
  induction st with
  | nil => rfl
  | cons f st ih => rw [List.reverse_cons, idsF_append, List.count_append, ih]; simp only [idsF, List.count_cons, List.count_nil]; omega

theorem bad_step (o : Op) {m : MonSt} (h : m.ok = false) : (m.step o).ok = false := by
  unfold MonSt.step
  split <;> simp [h]

theorem dropVec_bad : ∀ (l : List (Frame P.monitored)) (w : σ) (m : Mon), m.ok = false → (dropVec P.monitored (monBomb bomb) l (w, m)).2.2.ok = false
  | [], w, m, h => h
  | f :: st, w, m, h => by
    have h1 : (m.dropBuilder f.2.tag).ok = false := bad_step _ h
    simp only [dropVec, drop_tag]
    split
    · exact h1
    · exact dropVec_bad st _ _ h1

theorem clean_sim : ∀ (st : List (Frame P.monitored)) {v : Nat} {w : σ} {m : Mon}, InvV v st m →
    EndSim (cleanStack P.monitored (monBomb bomb) st (w, m)) (cleanStack P bomb (st.map untagF) w)
  | [], v, w, m, h => ⟨rfl, rfl, h.over (by simp [cleanStack, UOut.disordered])⟩
  | f :: st, v, w, m, h => by
    have hd := h.pop.drop
    simp only [cleanStack, List.map_cons, drop_tag]
    have hmb : monBomb bomb f.2 (w, m) = bomb f.2.untag w := rfl
    by_cases hb : bomb f.2.untag w = true
    · simp only [hmb, untagF, hb, if_true]
      obtain ⟨i1, i2, i3, i4, i5⟩ := vec_sim (bomb := bomb) st.reverse (w := f.2.untag.drop w) (m := m.dropBuilder f.2.tag)
      have hrev : (List.map untagF st).reverse = List.map untagF st.reverse := by rw [List.map_reverse]
      simp only [hrev]
      refine ⟨by simp only [i1, List.length_map], i2, ?_⟩
      obtain ⟨hd1, hd2, hd3, hd4⟩ := hd
      have hcount : ∀ id, (m.dropBuilder f.2.tag).drops id + (idsF st.reverse).count id = (m.dropBuilder f.2.tag).makes id := fun id => by
        rw [idsF_reverse_count]; exact (hd3 id).symm
      refine ⟨?_, fun ho hk => ?_, fun ho id => ?_, fun id => ⟨?_, by rw [i3]; exact (hd4 id).1⟩⟩
      · match st, hd1, hd2, hd3 with
        | [], hd1, _, _ => simpa [dropVec, UOut.disordered] using hd1.1
        | [g], hd1, _, _ =>
          have := (AtV.toB hd1).drop.1
          by_cases hg : monBomb bomb g.2 (f.2.untag.drop w, m.dropBuilder f.2.tag) = true <;>
            simp only [List.reverse_cons, List.reverse_nil, List.nil_append, dropVec, hg, if_true, drop_tag] <;> exact this
        | g :: g' :: st', hd1, _, hd3 =>
          have hz : UOut.disordered (.cleanup (g :: g' :: st').length
            (dropVec P.monitored (monBomb bomb) (g :: g' :: st').reverse (f.2.untag.drop w, m.dropBuilder f.2.tag)).1) = true := by
            simp [UOut.disordered]
          rw [hz]
          obtain ⟨z, l, hl⟩ : ∃ z l, (g' :: st').reverse = z :: l := by
            cases hl : (g' :: st').reverse with
            | nil => simp at hl
            | cons z l => exact ⟨z, l, rfl⟩
          have hz' : g.2.tag ≠ z.2.tag := by
            intro e
            have h1 := hd3 g.2.tag
            have h2 := (hd4 g.2.tag).1
            have h3 : (idsF (g' :: st')).count g.2.tag = (idsF (z :: l)).count g.2.tag := by rw [← hl, idsF_reverse_count]
            rw [idsF, List.count_cons, h3, idsF, List.count_cons, e] at h1
            simp at h1
            rw [e] at h2
            omega
          rw [List.reverse_cons, hl]
          have hbad : ((m.dropBuilder f.2.tag).dropBuilder z.2.tag).ok = false := by
            obtain ⟨h1, h2⟩ := hd1
            generalize m.dropBuilder f.2.tag = m' at h1 h2
            simp only [liveF, Mon.stack] at h2
            simp only [Mon.dropBuilder, Mon.ok, Mon.st_add, MonSt.step, h2]
            simp [hz']
          show (dropVec P.monitored (monBomb bomb) (z :: (l ++ [g])) (f.2.untag.drop w, m.dropBuilder f.2.tag)).2.2.ok = false
          simp only [dropVec, drop_tag]
          split
          · exact hbad
          · exact dropVec_bad _ _ _ hbad
      · match st, hd1, hd2, hk, ho with
        | [], hd1, hd2, _, _ => 
          simp only [rootF] at hd2
          simpa [dropVec, hd2, liveF] using hd1.2
        | [g], hd1, hd2, _, ho =>
          have := (AtV.toB hd1).drop.2
          simp only [rootF] at hd2
          rw [hd2] at this
          by_cases hg : monBomb bomb g.2 (f.2.untag.drop w, m.dropBuilder f.2.tag) = true <;>
            simp only [List.reverse_cons, List.reverse_nil, List.nil_append, dropVec, hg, if_true, drop_tag] <;> exact this
        | g :: g' :: st', _, _, hk, _ => simp [UOut.disordered] at hk
      · rw [i5 ho, i3, hcount]
      · have := i4 id
        rw [i3, ← hcount]; exact this
    · simp only [hmb, untagF, hb]
      exact clean_sim st hd

theorem leaveErr_sim {v : Nat} {l : Layer P.monitored} {st : List (Frame P.monitored)} {w : σ} {m : Mon} (h : InvB v l.tag st m) :
    EndSim (leaveErr P.monitored (monBomb bomb) l st (w, m)) (leaveErr P bomb l.untag (st.map untagF) w) := by
  have hmb : monBomb bomb l (w, m) = bomb l.untag w := rfl
  simp only [leaveErr, hmb, drop_tag]
  split
  · exact unwind_sim st h.drop
  · exact clean_sim st h.drop

theorem leavePanic_sim {v : Nat} {l : Layer P.monitored} {st : List (Frame P.monitored)} {w : σ} {m : Mon} (h : InvB v l.tag st m) :
    EndSim (leavePanic P.monitored (monBomb bomb) l st (w, m)) (leavePanic P bomb l.untag (st.map untagF) w) := by
  have hmb : monBomb bomb l (w, m) = bomb l.untag w := rfl
  simp only [leavePanic, hmb, drop_tag]
  split
  · exact ⟨rfl, rfl, h.drop.aborted⟩
  · exact unwind_sim st h.drop

/-- The loop is left in the same way. -/
inductive ExitSim : Except (UOut × (σ × Mon)) (LoopExit P.monitored × (σ × Mon)) → Except (UOut × σ) (LoopExit P × σ) → Prop
  | error {a b} : EndSim a b → ExitSim (.error a) (.error b)
  | child {d : De} {v : P.monitored.V} {l : Layer P.monitored} {st : List (Frame P.monitored)} {w : σ} {m : Mon} : InvB v.2 l.tag st m →
    ExitSim (.ok (.child d v l st, (w, m))) (.ok (.child d v.1 l.untag (st.map untagF), w))
  | done {d : De} {v : Nat} {w : σ} {m : Mon} : InvV (P := P) v [] m → ExitSim (.ok (.done d, (w, m))) (.ok (.done d, w))

/-- A child is opened in the same way. -/
inductive ChildSim : Except (UOut × (σ × Mon)) ((De × P.monitored.V × List (Frame P.monitored)) × (σ × Mon)) →
    Except (UOut × σ) ((De × P.V × List (Frame P)) × σ) → Prop
  | error {a b} : EndSim a b → ChildSim (.error a) (.error b)
  | ok {d : De} {v : P.monitored.V} {st : List (Frame P.monitored)} {w : σ} {m : Mon} : InvV v.2 st m →
    ChildSim (.ok ((d, v, st), (w, m))) (.ok ((d, v.1, st.map untagF), w))

theorem finish_sim {v : Nat} {c : UInt8} {l : Layer P.monitored} {st : List (Frame P.monitored)} {w : σ} {m : Mon} (h : InvB v l.tag st m) :
    ∃ m', InvB v l.tag st m' ∧
      finishLayer P.monitored c l (w, m) = ((finishLayer P c l.untag w).1, ((finishLayer P c l.untag w).2, m')) := by
  cases l with
  | seq q =>
    simp only [finishLayer, Layer.untag]
    split
    · exact ⟨_, h.used, rfl⟩
    · exact ⟨_, h, rfl⟩
  | map q =>
    simp only [finishLayer, Layer.untag]
    split
    · exact ⟨_, h.used, rfl⟩
    · exact ⟨_, h, rfl⟩

theorem close_sim : ∀ (st : List (Frame P.monitored)) (d : De) (acc : Bool) (v : P.monitored.V) (l : Layer P.monitored) (w : σ) (m : Mon), InvB v.2 l.tag st m →
    ExitSim (closeLoopU P.monitored (monBomb bomb) d acc v l st (w, m)) (closeLoopU P bomb d acc v.1 l.untag (st.map untagF) w) := by
  intro st
  induction st with
  | nil =>
    intro d acc v l w m h
    unfold closeLoopU
    simp only
    split
    · exact .child h
    split
    · obtain ⟨m', h', e⟩ := finish_sim (c := d.parseWhitespace.1.getD 0) (w := w) h
      rw [e]
      rcases finishLayer P (d.parseWhitespace.1.getD 0) l.untag w with ⟨r, w1⟩
      cases r with
      | ok u =>
        have hmb : monBomb bomb l (w1, m') = bomb l.untag w1 := rfl
        simp only [hmb, drop_tag, List.map_nil]
        split
        · exact .error ⟨rfl, rfl, h'.drop.over rfl⟩
        · exact .done h'.drop
      | err => exact .error (leaveErr_sim h')
      | panic => exact .error (leavePanic_sim h')
    split
    · exact .error (leaveErr_sim h)
    · exact .child h
  | cons f st ih =>
    intro d acc v l w m h
    unfold closeLoopU
    simp only
    split
    · exact .child h
    split
    · obtain ⟨m', h', e⟩ := finish_sim (c := d.parseWhitespace.1.getD 0) (w := w) h
      rw [e]
      rcases finishLayer P (d.parseWhitespace.1.getD 0) l.untag w with ⟨r, w1⟩
      cases r with
      | ok u =>
        have hmb : monBomb bomb l (w1, m') = bomb l.untag w1 := rfl
        simp only [hmb, drop_tag, List.map_cons]
        split
        · exact .error (leavePanic_sim h'.drop.pop)
        · exact ih _ _ _ _ _ _ h'.drop.pop
      | err => exact .error (leaveErr_sim h')
      | panic => exact .error (leavePanic_sim h')
    split
    · exact .error (leaveErr_sim h)
    · exact .child h

theorem next_sim {d : De} {v : P.monitored.V} {st : List (Frame P.monitored)} {w : σ} {m : Mon} (h : InvV v.2 st m) :
    ExitSim (nextLayerU P.monitored (monBomb bomb) d v none st (w, m)) (nextLayerU P bomb d v.1 none (st.map untagF) w) := by
  cases st with
  | nil => exact .done h
  | cons f st => exact close_sim st d true f.1 f.2 w m h.pop

theorem openU_sim (d : De) (v : P.monitored.V) (l : Layer P.monitored) (st : List (Frame P.monitored)) (w : σ) (m : Mon) (h : InvB v.2 l.tag st m) :
    ChildSim (openChildU P.monitored (monBomb bomb) d v l st (w, m)) (openChildU P bomb d v.1 l.untag (st.map untagF) w) := by
  cases l with
  | seq q =>
    simp only [openChildU, Layer.untag]
    rcases hq : P.element q.1 w with ⟨r, w1⟩
    cases r with
    | ok c =>
      rw [show P.monitored.element q (w, m) = _ from monNew_ok hq]
      exact .ok (v := (c, _)) h.pushV
    | err =>
      rw [show P.monitored.element q (w, m) = _ from monNew_err hq]
      exact .error (leaveErr_sim (l := .seq q) h.used)
    | panic =>
      rw [show P.monitored.element q (w, m) = _ from monNew_panic hq]
      exact .error (leavePanic_sim (l := .seq q) h.used)
  | map q =>
    simp only [openChildU, Layer.untag]
    split
    · cases d.parseWhitespace.2.bump.parseStr with
      | ok kd =>
        obtain ⟨k, d1⟩ := kd
        simp only
        rcases hq : P.key q.1 k w with ⟨r, w1⟩
        cases r with
        | ok c =>
          rw [show P.monitored.key q k (w, m) = _ from monNew_ok hq]
          simp only
          split
          · exact .ok (v := (c, _)) (h.pushV (l := .map q))
          · refine .error (leaveErr_sim (l := .map q) (v := v.2) ?_)
            exact (h.pushV (l := .map q) (v := v)).pop
        | err =>
          rw [show P.monitored.key q k (w, m) = _ from monNew_err hq]
          exact .error (leaveErr_sim (l := .map q) h.used)
        | panic =>
          rw [show P.monitored.key q k (w, m) = _ from monNew_panic hq]
          exact .error (leavePanic_sim (l := .map q) h.used)
      | err => exact .error (leaveErr_sim (l := .map q) h)
      | panic => exact .error (leavePanic_sim (l := .map q) h)
    · exact .error (leaveErr_sim (l := .map q) h)

/-- An event is delivered in the same way. -/
inductive VisitSim (v : Nat) (st : List (Frame P.monitored)) :
    Res (Option (Layer P.monitored)) × (σ × Mon) → Res (Option (Layer P)) × σ → Prop
  | leaf {w : σ} {m : Mon} : InvV v st m → VisitSim v st (.ok none, (w, m)) (.ok none, w)
  | layer {l : Layer P.monitored} {w : σ} {m : Mon} : InvB v l.tag st m → VisitSim v st (.ok (some l), (w, m)) (.ok (some l.untag), w)
  | err {w : σ} {m : Mon} : InvV v st m → VisitSim v st (.err, (w, m)) (.err, w)
  | panic {w : σ} {m : Mon} : InvV v st m → VisitSim v st (.panic, (w, m)) (.panic, w)

theorem leaf_sim {v : Nat} {st : List (Frame P.monitored)} {f : σ → Res Unit × σ} {w : σ} {m : Mon} (h : InvV v st m) :
    VisitSim v st ((monLeaf f v (w, m)).1.map fun _ => none, (monLeaf f v (w, m)).2) ((f w).1.map fun _ => none, (f w).2) := by
  rcases hf : f w with ⟨r, w1⟩
  simp only [monLeaf, hf]
  cases r with
  | ok u => exact .leaf h.use
  | err => exact .err h.use
  | panic => exact .panic h.use

theorem visit_sim {v : P.monitored.V} {st : List (Frame P.monitored)} {ev : Event} {w : σ} {m : Mon} (h : InvV v.2 st m) :
    VisitSim v.2 st (visitEvent P.monitored v ev (w, m)) (visitEvent P v.1 ev w) := by
  cases ev with
  | null => exact leaf_sim h
  | bool b => exact leaf_sim h
  | negative n => exact leaf_sim h
  | nonnegative n => exact leaf_sim h
  | float n => exact leaf_sim h
  | str s => exact leaf_sim h
  | seqStart =>
    simp only [visitEvent]
    rcases hq : P.seq v.1 w with ⟨r, w1⟩
    cases r with
    | ok c =>
      rw [show P.monitored.seq v (w, m) = _ from monNew_ok hq]
      exact .layer (l := .seq (c, _)) h.use.pushB
    | err =>
      rw [show P.monitored.seq v (w, m) = _ from monNew_err hq]
      exact .err h.use
    | panic =>
      rw [show P.monitored.seq v (w, m) = _ from monNew_panic hq]
      exact .panic h.use
  | mapStart =>
    simp only [visitEvent]
    rcases hq : P.map v.1 w with ⟨r, w1⟩
    cases r with
    | ok c =>
      rw [show P.monitored.map v (w, m) = _ from monNew_ok hq]
      exact .layer (l := .map (c, _)) h.use.pushB
    | err =>
      rw [show P.monitored.map v (w, m) = _ from monNew_err hq]
      exact .err h.use
    | panic =>
      rw [show P.monitored.map v (w, m) = _ from monNew_panic hq]
      exact .panic h.use

theorem ws_rem (d : De) : d.parseWhitespace.2.rem ≤ d.rem := by
  obtain ⟨w, d', h1, -, h3, -⟩ := De.parseWhitespace_spec d
  rw [h1]
  have := h3.rem
  simp only
  omega

theorem bump_rem (d : De) : d.bump.rem ≤ d.rem := by
  rw [De.rem_eq, De.rem_eq]; simp only [De.bump]; omega

theorem close_rem : ∀ (st : List (Frame P)) {d : De} {acc : Bool} {v : P.V} {l : Layer P} {w : σ} {d' : De} {v' : P.V} {l' : Layer P} {st' : List (Frame P)} {w' : σ},
    closeLoopU P bomb d acc v l st w = .ok (.child d' v' l' st', w') → d'.rem ≤ d.rem := by
  intro st
  induction st with
  | nil =>
    intro d acc v l w d' v' l' st' w' h
    unfold closeLoopU at h
    simp only at h
    split at h
    · cases h; exact Nat.le_trans (bump_rem _) (ws_rem d)
    split at h
    · rcases hf : finishLayer P (d.parseWhitespace.1.getD 0) l w with ⟨r, w1⟩
      rw [hf] at h
      cases r with
      | ok u =>
        simp only at h
        split at h <;> cases h
      | err => cases h
      | panic => cases h
    split at h
    · cases h
    · cases h; exact ws_rem d
  | cons f st ih =>
    intro d acc v l w d' v' l' st' w' h
    unfold closeLoopU at h
    simp only at h
    split at h
    · cases h; exact Nat.le_trans (bump_rem _) (ws_rem d)
    split at h
    · rcases hf : finishLayer P (d.parseWhitespace.1.getD 0) l w with ⟨r, w1⟩
      rw [hf] at h
      cases r with
      | ok u =>
        simp only at h
        split at h
        · cases h
        · exact Nat.le_trans (ih h) (Nat.le_trans (bump_rem _) (ws_rem d))
      | err => cases h
      | panic => cases h
    split at h
    · cases h
    · cases h; exact ws_rem d

theorem next_rem {st : List (Frame P)} {d : De} {v : P.V} {l : Option (Layer P)} {w : σ} {d' : De} {v' : P.V} {l' : Layer P} {st' : List (Frame P)} {w' : σ}
    (h : nextLayerU P bomb d v l st w = .ok (.child d' v' l' st', w')) : d'.rem ≤ d.rem := by
  cases l with
  | some l => exact close_rem st h
  | none =>
    cases st with
    | nil => cases h
    | cons f st => exact close_rem st h

theorem open_rem {st : List (Frame P)} {d : De} {v : P.V} {l : Layer P} {w : σ} {d' : De} {v' : P.V} {st' : List (Frame P)} {w' : σ}
    (h : openChildU P bomb d v l st w = .ok ((d', v', st'), w')) : d'.rem ≤ d.rem := by
  cases l with
  | seq q =>
    simp only [openChildU] at h
    split at h
    · cases h; exact Nat.le_refl _
    · cases h
  | map q =>
    simp only [openChildU] at h
    split at h
    · rename_i h1
      split at h
      · rename_i k d1 h2
        split at h
        · split at h
          · rename_i h3
            cases h
            refine keyStep_rem (k := k) ?_
            simp only [keyStep, h1, if_true, h2, h3]
          · cases h
        · cases h
      · cases h
    · cases h

/-- The run with the monitor. -/
theorem outer_sim : ∀ (fuel : Nat) (d : De) (v : P.monitored.V) (st : List (Frame P.monitored)) (w : σ) (m : Mon), d.rem < fuel → InvV v.2 st m →
    ∃ x y, outerLoopU P.monitored (monBomb bomb) fuel d v st (w, m) = some x ∧ outerLoopU P bomb fuel d v.1 (st.map untagF) w = some y ∧ EndSim x y
  | 0, d, v, st, w, m, hr, h => absurd hr (Nat.not_lt_zero _)
  | fuel + 1, d, v, st, w, m, hr, h => by
    unfold outerLoopU
    cases he : d.event with
    | err => exact ⟨_, _, rfl, rfl, clean_sim st h⟩
    | panic => exact ⟨_, _, rfl, rfl, unwind_sim st h⟩
    | ok evd =>
      obtain ⟨ev, d1⟩ := evd
      have hr1 := event_rem he
      simp only
      have hv := visit_sim (ev := ev) (w := w) h
      generalize visitEvent P.monitored v ev (w, m) = x at hv ⊢
      generalize visitEvent P v.1 ev w = y at hv ⊢
      have key : (∃ w1 m1 l l', x = (.ok l, (w1, m1)) ∧ y = (.ok l', w1) ∧
          ExitSim (nextLayerU P.monitored (monBomb bomb) d1 v l st (w1, m1)) (nextLayerU P bomb d1 v.1 l' (st.map untagF) w1)) ∨
          (∃ w1 m1, x = (.err, (w1, m1)) ∧ y = (.err, w1) ∧ InvV v.2 st m1) ∨ (∃ w1 m1, x = (.panic, (w1, m1)) ∧ y = (.panic, w1) ∧ InvV v.2 st m1) := by
        cases hv with
        | @leaf w1 m1 hv => exact .inl ⟨w1, m1, none, none, rfl, rfl, next_sim hv⟩
        | @layer l w1 m1 hv => exact .inl ⟨w1, m1, some l, some l.untag, rfl, rfl, close_sim st d1 false v _ _ _ hv⟩
        | @err w1 m1 hv => exact .inr (.inl ⟨w1, m1, rfl, rfl, hv⟩)
        | @panic w1 m1 hv => exact .inr (.inr ⟨w1, m1, rfl, rfl, hv⟩)
      rcases key with ⟨w1, m1, l, l', rfl, rfl, hx⟩ | ⟨w1, m1, rfl, rfl, hv'⟩ | ⟨w1, m1, rfl, rfl, hv'⟩
      rotate_left
      · exact ⟨_, _, rfl, rfl, clean_sim st hv'⟩
      · exact ⟨_, _, rfl, rfl, unwind_sim st hv'⟩
      simp only
      have hrem : ∀ {d' v' l'' st' w'}, nextLayerU P.monitored (monBomb bomb) d1 v l st (w1, m1) = .ok (.child d' v' l'' st', w') → d'.rem ≤ d1.rem := next_rem
      generalize nextLayerU P.monitored (monBomb bomb) d1 v l st (w1, m1) = a at hx hrem ⊢
      generalize nextLayerU P bomb d1 v.1 l' (st.map untagF) w1 = b at hx ⊢
      cases hx with
      | error hx => exact ⟨_, _, rfl, rfl, hx⟩
      | @done d2 v2 w2 m2 hx =>
        refine ⟨_, _, rfl, rfl, rfl, rfl, hx.over ?_⟩
        simp only
        cases trailing d2 <;> rfl
      | @child d2 v2 l2 st2 w2 m2 hx =>
        simp only
        have ho := openU_sim (bomb := bomb) d2 v2 l2 st2 w2 m2 hx
        have hrem2 : ∀ {d' v' st' w'}, openChildU P.monitored (monBomb bomb) d2 v2 l2 st2 (w2, m2) = .ok ((d', v', st'), w') → d'.rem ≤ d2.rem := open_rem
        generalize openChildU P.monitored (monBomb bomb) d2 v2 l2 st2 (w2, m2) = a at ho hrem2 ⊢
        generalize openChildU P bomb d2 v2.1 l2.untag (st2.map untagF) w2 = b at ho ⊢
        cases ho with
        | error ho => exact ⟨_, _, rfl, rfl, ho⟩
        | @ok d3 v3 st3 w3 m3 ho =>
          have := hrem rfl
          have := hrem2 rfl
          exact outer_sim fuel d3 v3 st3 w3 m3 (by omega) ho
/-- The run with the monitor. -/
theorem fromStrU_sim (s : Bytes) (v : P.V) (w : σ) :
    ∃ o w' m, fromStrU P bomb s v w = some (o, w') ∧ fromStrU P.monitored (monBomb bomb) s (v, 0) (w, Mon.init) = some (o, (w', m)) ∧ Ended o m := by
  have hi : InvV (P := P) 0 [] Mon.init := by
    refine ⟨⟨rfl, rfl⟩, rfl, fun id => rfl, fun id => ⟨Nat.zero_le _, fun _ => rfl⟩⟩
  obtain ⟨⟨o, w', m⟩, ⟨o', w''⟩, h1, h2, h3, h4, h5⟩ := outer_sim (bomb := bomb) (s.length + 1) ⟨s, 0, []⟩ (v, 0) [] w Mon.init
    (by rw [De.rem_eq]; simp) hi
  simp only at h3 h4 h5
  subst h3 h4
  exact ⟨_, _, _, h2, h1, h5⟩

end

section agrees
/-- The outcome without panicking destructors. -/
def outOf : Res Unit → UOut
  | .ok _ => .ok
  | .err => .err
  | .panic => .panic

/-- The result of a step, in both models. -/
def StepEq {α : Type} (x : Except (UOut × σ) (α × σ)) (y : Res α × σ) : Prop :=
  match y with
  | (.ok a, w) => x = .ok (a, w)
  | (.err, w) => x = .error (.err, w)
  | (.panic, w) => x = .error (.panic, w)

variable {bomb : Layer P → σ → Bool} (hb : ∀ l w, bomb l w = false)
include hb

theorem unwind_calm : ∀ (st : List (Frame P)) (w : σ), unwindStack P bomb st w = (.panic, dropStack st w)
  | [], w => rfl
  | f :: st, w => by rw [unwindStack, hb, dropStack]; exact unwind_calm st _

theorem clean_calm : ∀ (st : List (Frame P)) (w : σ), cleanStack P bomb st w = (.err, dropStack st w)
  | [], w => rfl
  | f :: st, w => by rw [cleanStack, hb, dropStack]; exact clean_calm st _

theorem leaveErr_calm (l : Layer P) (st : List (Frame P)) (w : σ) : leaveErr P bomb l st w = (.err, dropStack st (l.drop w)) := by
  rw [leaveErr, hb]; exact clean_calm hb st _
theorem leavePanic_calm (l : Layer P) (st : List (Frame P)) (w : σ) : leavePanic P bomb l st w = (.panic, dropStack st (l.drop w)) := by
  rw [leavePanic, hb]; exact unwind_calm hb st _

theorem close_calm : ∀ (st : List (Frame P)) (d : De) (acc : Bool) (v : P.V) (l : Layer P) (w : σ),
    StepEq (closeLoopU P bomb d acc v l st w) (closeLoop P d acc v l st w) := by
  intro st
  induction st with
  | nil =>
    intro d acc v l w
    unfold closeLoopU closeLoop
    simp only [hb]
    split
    · rfl
    split
    · rcases finishLayer P (d.parseWhitespace.1.getD 0) l w with ⟨r, w1⟩
      cases r with
      | ok u => rfl
      | err => exact congrArg Except.error (leaveErr_calm hb _ _ _)
      | panic => exact congrArg Except.error (leavePanic_calm hb _ _ _)
    split
    · exact congrArg Except.error (leaveErr_calm hb _ _ _)
    · rfl
  | cons f st ih =>
    intro d acc v l w
    unfold closeLoopU closeLoop
    simp only [hb]
    split
    · rfl
    split
    · rcases finishLayer P (d.parseWhitespace.1.getD 0) l w with ⟨r, w1⟩
      cases r with
      | ok u => exact ih _ _ _ _ _
      | err => exact congrArg Except.error (leaveErr_calm hb _ _ _)
      | panic => exact congrArg Except.error (leavePanic_calm hb _ _ _)
    split
    · exact congrArg Except.error (leaveErr_calm hb _ _ _)
    · rfl

theorem open_calm (st : List (Frame P)) (d : De) (v : P.V) (l : Layer P) (w : σ) :
    StepEq (openChildU P bomb d v l st w) (openChild P d v l st w) := by
  cases l with
  | seq q =>
    simp only [openChildU, openChild]
    rcases P.element q w with ⟨r, w1⟩
    cases r with
    | ok u => rfl
    | err => exact congrArg Except.error (leaveErr_calm hb _ _ _)
    | panic => exact congrArg Except.error (leavePanic_calm hb _ _ _)
  | map q =>
    simp only [openChildU, openChild]
    split
    · cases d.parseWhitespace.2.bump.parseStr with
      | ok kd =>
        simp only
        rcases P.key q kd.1 w with ⟨r, w1⟩
        cases r with
        | ok u =>
          simp only
          split
          · rfl
          · exact congrArg Except.error (leaveErr_calm hb _ _ _)
        | err => exact congrArg Except.error (leaveErr_calm hb _ _ _)
        | panic => exact congrArg Except.error (leavePanic_calm hb _ _ _)
      | err => exact congrArg Except.error (leaveErr_calm hb _ _ _)
      | panic => exact congrArg Except.error (leavePanic_calm hb _ _ _)
    · exact congrArg Except.error (leaveErr_calm hb _ _ _)

theorem outer_calm : ∀ (fuel : Nat) (d : De) (v : P.V) (st : List (Frame P)) (w : σ),
    outerLoopU P bomb fuel d v st w = (outerLoop P fuel d v st w).map fun x => (outOf x.1, x.2)
  | 0, d, v, st, w => rfl
  | fuel + 1, d, v, st, w => by
    unfold outerLoopU outerLoop
    cases d.event with
    | err => exact congrArg some (clean_calm hb st w)
    | panic => exact congrArg some (unwind_calm hb st w)
    | ok evd =>
      obtain ⟨ev, d1⟩ := evd
      simp only
      rcases visitEvent P v ev w with ⟨r, w1⟩
      cases r with
      | err => exact congrArg some (clean_calm hb st w1)
      | panic => exact congrArg some (unwind_calm hb st w1)
      | ok l =>
        simp only
        cases l with
        | some l =>
          simp only [nextLayerU]
          have hn := close_calm hb st d1 false v l w1
          generalize closeLoopU P bomb d1 false v l st w1 = a at hn ⊢
          generalize closeLoop P d1 false v l st w1 = b at hn ⊢
          rcases b with ⟨r, w2⟩
          cases r with
          | err => rw [show a = _ from hn]; rfl
          | panic => rw [show a = _ from hn]; rfl
          | ok ex =>
            rw [show a = _ from hn]
            cases ex with
            | done d2 =>
              simp only
              cases h : d2.parseWhitespace.1 <;> simp only [trailing, h] <;> rfl
            | child d2 v2 l2 st2 =>
              simp only
              have ho := open_calm hb st2 d2 v2 l2 w2
              generalize openChildU P bomb d2 v2 l2 st2 w2 = a at ho ⊢
              generalize openChild P d2 v2 l2 st2 w2 = b at ho ⊢
              rcases b with ⟨r, w3⟩
              cases r with
              | err => rw [show a = _ from ho]; rfl
              | panic => rw [show a = _ from ho]; rfl
              | ok ex =>
                rw [show a = _ from ho]
                exact outer_calm fuel ex.1 ex.2.1 ex.2.2 w3
        | none =>
          cases st with
          | nil =>
            simp only [nextLayerU]
            cases h : d1.parseWhitespace.1 <;> simp only [trailing, h] <;> rfl
          | cons f st =>
            simp only [nextLayerU]
            have hn := close_calm hb st d1 true f.1 f.2 w1
            generalize closeLoopU P bomb d1 true f.1 f.2 st w1 = a at hn ⊢
            generalize closeLoop P d1 true f.1 f.2 st w1 = b at hn ⊢
            rcases b with ⟨r, w2⟩
            cases r with
            | err => rw [show a = _ from hn]; rfl
            | panic => rw [show a = _ from hn]; rfl
            | ok ex =>
              rw [show a = _ from hn]
              cases ex with
              | done d2 =>
                simp only
                cases h : d2.parseWhitespace.1 <;> simp only [trailing, h] <;> rfl
              | child d2 v2 l2 st2 =>
                simp only
                have ho := open_calm hb st2 d2 v2 l2 w2
                generalize openChildU P bomb d2 v2 l2 st2 w2 = a at ho ⊢
                generalize openChild P d2 v2 l2 st2 w2 = b at ho ⊢
                rcases b with ⟨r, w3⟩
                cases r with
                | err => rw [show a = _ from ho]; rfl
                | panic => rw [show a = _ from ho]; rfl
                | ok ex =>
                  rw [show a = _ from ho]
                  exact outer_calm fuel ex.1 ex.2.1 ex.2.2 w3

end agrees

end Miniserde
