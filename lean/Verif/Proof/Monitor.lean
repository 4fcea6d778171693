import Verif.Proof.Complete
import Verif.Spec.Monitor

/-!
# The borrow monitor never complains
-/

namespace Miniserde
variable {σ : Type} (P : Proto σ)

/-- Nothing wrong so far, and the innermost live thing is visitor `id`, above `S`. -/
def AtV (id : Nat) (S : List Live) (m : Mon) : Prop := m.ok = true ∧ m.stack = .visitor id :: S

/-- Nothing wrong so far, and the innermost live thing is builder `id` or the visitor it handed out last, above `S`. -/
def AtB (id : Nat) (S : List Live) (m : Mon) : Prop :=
  m.ok = true ∧ (m.stack = .builder id :: S ∨ ∃ i, m.stack = .visitor i :: .builder id :: S)

theorem Mon.st_add (o : Op) (m : Mon) : (m.add o).st = m.st.step o := rfl

theorem AtV.use {id : Nat} {S : List Live} {m : Mon} (h : AtV id S m) : AtV id S (m.useVisitor id) := by
  obtain ⟨h1, h2⟩ := h
  simp only [Mon.ok, Mon.stack] at h1 h2
  simp [AtV, Mon.useVisitor, Mon.ok, Mon.stack, Mon.st_add, MonSt.step, h1, h2]

theorem AtV.pushB {id : Nat} {S : List Live} {m : Mon} (h : AtV id S m) : AtB m.next (.visitor id :: S) (m.push .newBuilder id) := by
  obtain ⟨h1, h2⟩ := h
  simp only [Mon.ok, Mon.stack] at h1 h2
  simp [AtB, Mon.push, Mon.ok, Mon.stack, Mon.next, Mon.st_add, MonSt.step, h1, h2]

theorem AtB.use {id : Nat} {S : List Live} {m : Mon} (h : AtB id S m) : (m.useBuilder id).ok = true ∧ (m.useBuilder id).stack = .builder id :: S := by
  obtain ⟨h1, h2⟩ := h
  simp only [Mon.ok, Mon.stack] at h1 h2
  rcases h2 with h2 | ⟨i, h2⟩ <;> simp [Mon.useBuilder, Mon.ok, Mon.stack, Mon.st_add, MonSt.step, h1, h2]

theorem AtB.pushV {id : Nat} {S : List Live} {m : Mon} (h : m.ok = true ∧ m.stack = .builder id :: S) : AtV m.next (.builder id :: S) (m.push .newVisitor id) := by
  obtain ⟨h1, h2⟩ := h
  simp only [Mon.ok, Mon.stack] at h1 h2
  simp [AtV, Mon.push, Mon.ok, Mon.stack, Mon.next, Mon.st_add, MonSt.step, h1, h2]

theorem AtB.drop {id i : Nat} {S : List Live} {m : Mon} (h : AtB id (.visitor i :: S) m) : AtV i S (m.dropBuilder id) := by
  obtain ⟨h1, h2⟩ := h
  simp only [Mon.ok, Mon.stack] at h1 h2
  rcases h2 with h2 | ⟨i, h2⟩ <;> simp [AtV, Mon.dropBuilder, Mon.ok, Mon.stack, Mon.st_add, MonSt.step, h1, h2]

theorem AtV.toB {i id : Nat} {S : List Live} {m : Mon} (h : AtV i (.builder id :: S) m) : AtB id S m := ⟨h.1, .inr ⟨i, h.2⟩⟩

section steps
variable {P}

theorem seq_ok {v : P.V} {xs : List PT} {e : End} {w w1 : σ} {q : P.Q} (h : P.seq v w = (.ok q, w1)) : drivePT P v (.seq xs e) w =
    ((driveElemsPT P q xs e w1).1, P.dropSeq q (driveElemsPT P q xs e w1).2) := by rw [drivePT, h]

theorem seq_err {v : P.V} {xs : List PT} {e : End} {w w1 : σ} (h : P.seq v w = (.err, w1)) :
    drivePT P v (.seq xs e) w = (.err, w1) := by rw [drivePT, h]

theorem seq_panic {v : P.V} {xs : List PT} {e : End} {w w1 : σ} (h : P.seq v w = (.panic, w1)) :
    drivePT P v (.seq xs e) w = (.panic, w1) := by rw [drivePT, h]

theorem map_ok {v : P.V} {xs : List (Bytes × PT)} {e : End} {w w1 : σ} {q : P.M} (h : P.map v w = (.ok q, w1)) :
    drivePT P v (.map xs e) w = ((driveMembersPT P q xs e w1).1, P.dropMap q (driveMembersPT P q xs e w1).2) := by rw [drivePT, h]

theorem map_err {v : P.V} {xs : List (Bytes × PT)} {e : End} {w w1 : σ} (h : P.map v w = (.err, w1)) :
    drivePT P v (.map xs e) w = (.err, w1) := by rw [drivePT, h]

theorem map_panic {v : P.V} {xs : List (Bytes × PT)} {e : End} {w w1 : σ} (h : P.map v w = (.panic, w1)) :
    drivePT P v (.map xs e) w = (.panic, w1) := by rw [drivePT, h]

theorem elem_ok {q : P.Q} {x : PT} {xs : List PT} {e : End} {w w1 w2 : σ} {v : P.V} {u : Unit} (h : P.element q w = (.ok v, w1))
    (h2 : drivePT P v x w1 = (.ok u, w2)) : driveElemsPT P q (x :: xs) e w = driveElemsPT P q xs e w2 := by
  rw [driveElemsPT, h]; simp only [h2]

theorem elem_err' {q : P.Q} {x : PT} {xs : List PT} {e : End} {w w1 w2 : σ} {v : P.V} (h : P.element q w = (.ok v, w1))
    (h2 : drivePT P v x w1 = (.err, w2)) : driveElemsPT P q (x :: xs) e w = (.err, w2) := by
  rw [driveElemsPT, h]; simp only [h2]

theorem elem_panic' {q : P.Q} {x : PT} {xs : List PT} {e : End} {w w1 w2 : σ} {v : P.V} (h : P.element q w = (.ok v, w1))
    (h2 : drivePT P v x w1 = (.panic, w2)) : driveElemsPT P q (x :: xs) e w = (.panic, w2) := by
  rw [driveElemsPT, h]; simp only [h2]

theorem elem_err {q : P.Q} {x : PT} {xs : List PT} {e : End} {w w1 : σ} (h : P.element q w = (.err, w1)) :
    driveElemsPT P q (x :: xs) e w = (.err, w1) := by rw [driveElemsPT, h]

theorem elem_panic {q : P.Q} {x : PT} {xs : List PT} {e : End} {w w1 : σ} (h : P.element q w = (.panic, w1)) :
    driveElemsPT P q (x :: xs) e w = (.panic, w1) := by rw [driveElemsPT, h]

theorem key_ok {q : P.M} {k : Bytes} {x : PT} {xs : List (Bytes × PT)} {e : End} {w w1 w2 : σ} {v : P.V} {u : Unit}
    (h : P.key q k w = (.ok v, w1)) (h2 : drivePT P v x w1 = (.ok u, w2)) :
    driveMembersPT P q ((k, x) :: xs) e w = driveMembersPT P q xs e w2 := by
  rw [driveMembersPT, h]; simp only [h2]

theorem key_err' {q : P.M} {k : Bytes} {x : PT} {xs : List (Bytes × PT)} {e : End} {w w1 w2 : σ} {v : P.V}
    (h : P.key q k w = (.ok v, w1)) (h2 : drivePT P v x w1 = (.err, w2)) :
    driveMembersPT P q ((k, x) :: xs) e w = (.err, w2) := by
  rw [driveMembersPT, h]; simp only [h2]

theorem key_panic' {q : P.M} {k : Bytes} {x : PT} {xs : List (Bytes × PT)} {e : End} {w w1 w2 : σ} {v : P.V}
    (h : P.key q k w = (.ok v, w1)) (h2 : drivePT P v x w1 = (.panic, w2)) :
    driveMembersPT P q ((k, x) :: xs) e w = (.panic, w2) := by
  rw [driveMembersPT, h]; simp only [h2]

theorem key_err {q : P.M} {k : Bytes} {x : PT} {xs : List (Bytes × PT)} {e : End} {w w1 : σ} (h : P.key q k w = (.err, w1)) :
    driveMembersPT P q ((k, x) :: xs) e w = (.err, w1) := by rw [driveMembersPT, h]

theorem key_panic {q : P.M} {k : Bytes} {x : PT} {xs : List (Bytes × PT)} {e : End} {w w1 : σ} (h : P.key q k w = (.panic, w1)) :
    driveMembersPT P q ((k, x) :: xs) e w = (.panic, w1) := by rw [driveMembersPT, h]

theorem monNew_ok {α : Type} {f : σ → Res α × σ} {use : Nat → Mon → Mon} {l : Nat → Nat → Op} {id : Nat} {w w1 : σ} {m : Mon} {a : α}
    (h : f w = (.ok a, w1)) : monNew f use l id (w, m) = (.ok (a, (use id m).next), (w1, (use id m).push l id)) := by simp only [monNew, h]
theorem monNew_err {α : Type} {f : σ → Res α × σ} {use : Nat → Mon → Mon} {l : Nat → Nat → Op} {id : Nat} {w w1 : σ} {m : Mon}
    (h : f w = (.err, w1)) : monNew f use l id (w, m) = (.err, (w1, use id m)) := by simp only [monNew, h]
theorem monNew_panic {α : Type} {f : σ → Res α × σ} {use : Nat → Mon → Mon} {l : Nat → Nat → Op} {id : Nat} {w w1 : σ} {m : Mon}
    (h : f w = (.panic, w1)) : monNew f use l id (w, m) = (.panic, (w1, use id m)) := by simp only [monNew, h]

end steps

mutual

theorem mon_val (v : P.V) (id : Nat) (S : List Live) : ∀ (x : PT) (w : σ) (m : Mon), AtV id S m →
    ∃ m', AtV id S m' ∧ drivePT P.monitored (v, id) x (w, m) = ((drivePT P v x w).1, ((drivePT P v x w).2, m'))
  | .leaf ev, w, m, h => by
    rw [drivePT.eq_1 P]
    cases ev <;> first
      | exact ⟨_, h.use, drivePT.eq_1 P.monitored (v, id) (w, m) _⟩
      | exact ⟨_, h, drivePT.eq_1 P.monitored (v, id) (w, m) _⟩
  | .bad p, w, m, h => ⟨m, h, by rw [drivePT.eq_2 P]; exact drivePT.eq_2 P.monitored (v, id) (w, m) p⟩
  | .seq xs e, w, m, h => by
    rcases hq : P.seq v w with ⟨r, w1⟩
    cases r with
    | ok q =>
      obtain ⟨m', h', e'⟩ := mon_elems q _ _ xs e w1 _ h.use.pushB
      rw [seq_ok hq]
      refine ⟨_, h'.drop, (seq_ok (P := P.monitored) (monNew_ok hq)).trans ?_⟩
      rw [e']; rfl
    | err => rw [seq_err hq]; exact ⟨_, h.use, seq_err (P := P.monitored) (monNew_err hq)⟩
    | panic => rw [seq_panic hq]; exact ⟨_, h.use, seq_panic (P := P.monitored) (monNew_panic hq)⟩
  | .map xs e, w, m, h => by
    rcases hq : P.map v w with ⟨r, w1⟩
    cases r with
    | ok q =>
      obtain ⟨m', h', e'⟩ := mon_members q _ _ xs e w1 _ h.use.pushB
      rw [map_ok hq]
      refine ⟨_, h'.drop, (map_ok (P := P.monitored) (monNew_ok hq)).trans ?_⟩
      rw [e']; rfl
    | err => rw [map_err hq]; exact ⟨_, h.use, map_err (P := P.monitored) (monNew_err hq)⟩
    | panic => rw [map_panic hq]; exact ⟨_, h.use, map_panic (P := P.monitored) (monNew_panic hq)⟩

theorem mon_elems (q : P.Q) (id : Nat) (S : List Live) : ∀ (xs : List PT) (e : End) (w : σ) (m : Mon), AtB id S m →
    ∃ m', AtB id S m' ∧ driveElemsPT P.monitored (q, id) xs e (w, m) = ((driveElemsPT P q xs e w).1, ((driveElemsPT P q xs e w).2, m'))
  | [], .closed, w, m, h => ⟨_, ⟨h.use.1, .inl h.use.2⟩, by rw [driveElemsPT.eq_1 P]; exact driveElemsPT.eq_1 P.monitored (q, id) (w, m)⟩
  | [], .stop p, w, m, h => ⟨_, h, by rw [driveElemsPT.eq_2 P]; exact driveElemsPT.eq_2 P.monitored (q, id) (w, m) p⟩
  | x :: xs, e, w, m, h => by
    rcases hq : P.element q w with ⟨r, w1⟩
    cases r with
    | ok v =>
      obtain ⟨m1, h1, e1⟩ := mon_val v _ _ x w1 _ (AtB.pushV h.use)
      rcases hx : drivePT P v x w1 with ⟨r2, w2⟩
      rw [hx] at e1
      cases r2 with
      | ok u =>
        obtain ⟨m2, h2, e2⟩ := mon_elems q id S xs e w2 m1 h1.toB
        rw [elem_ok hq hx]
        exact ⟨m2, h2, (elem_ok (P := P.monitored) (monNew_ok hq) e1).trans e2⟩
      | err => rw [elem_err' hq hx]; exact ⟨_, h1.toB, elem_err' (P := P.monitored) (monNew_ok hq) e1⟩
      | panic => rw [elem_panic' hq hx]; exact ⟨_, h1.toB, elem_panic' (P := P.monitored) (monNew_ok hq) e1⟩
    | err => rw [elem_err hq]; exact ⟨_, ⟨h.use.1, .inl h.use.2⟩, elem_err (P := P.monitored) (monNew_err hq)⟩
    | panic => rw [elem_panic hq]; exact ⟨_, ⟨h.use.1, .inl h.use.2⟩, elem_panic (P := P.monitored) (monNew_panic hq)⟩

theorem mon_members (q : P.M) (id : Nat) (S : List Live) : ∀ (xs : List (Bytes × PT)) (e : End) (w : σ) (m : Mon), AtB id S m →
    ∃ m', AtB id S m' ∧
      driveMembersPT P.monitored (q, id) xs e (w, m) = ((driveMembersPT P q xs e w).1, ((driveMembersPT P q xs e w).2, m'))
  | [], .closed, w, m, h => ⟨_, ⟨h.use.1, .inl h.use.2⟩, by rw [driveMembersPT.eq_1 P]; exact driveMembersPT.eq_1 P.monitored (q, id) (w, m)⟩
  | [], .stop p, w, m, h => ⟨_, h, by rw [driveMembersPT.eq_2 P]; exact driveMembersPT.eq_2 P.monitored (q, id) (w, m) p⟩
  | (k, x) :: xs, e, w, m, h => by
    rcases hq : P.key q k w with ⟨r, w1⟩
    cases r with
    | ok v =>
      obtain ⟨m1, h1, e1⟩ := mon_val v _ _ x w1 _ (AtB.pushV h.use)
      rcases hx : drivePT P v x w1 with ⟨r2, w2⟩
      rw [hx] at e1
      cases r2 with
      | ok u =>
        obtain ⟨m2, h2, e2⟩ := mon_members q id S xs e w2 m1 h1.toB
        rw [key_ok hq hx]
        exact ⟨m2, h2, (key_ok (P := P.monitored) (monNew_ok hq) e1).trans e2⟩
      | err => rw [key_err' hq hx]; exact ⟨_, h1.toB, key_err' (P := P.monitored) (monNew_ok hq) e1⟩
      | panic => rw [key_panic' hq hx]; exact ⟨_, h1.toB, key_panic' (P := P.monitored) (monNew_ok hq) e1⟩
    | err => rw [key_err hq]; exact ⟨_, ⟨h.use.1, .inl h.use.2⟩, key_err (P := P.monitored) (monNew_err hq)⟩
    | panic => rw [key_panic hq]; exact ⟨_, ⟨h.use.1, .inl h.use.2⟩, key_panic (P := P.monitored) (monNew_panic hq)⟩

end

/-- The monitored run. -/
theorem fromStr_monitored (s : Bytes) (v : P.V) (w : σ) :
    ∃ r w' m, fromStrImpl P s v w = some (r, w') ∧ fromStrImpl P.monitored s (v, 0) (w, Mon.init) = some (r, (w', m)) ∧
      m.ok = true ∧ m.stack = [.visitor 0] := by
  obtain ⟨t, o, p⟩ := (parse_total (initDe s).rem).1 (initDe s) (Nat.le_refl _)
  obtain ⟨m, hm, e⟩ := mon_val P v 0 [] t w Mon.init ⟨rfl, rfl⟩
  have e1 := fromStrImpl_eq P p _ (Nat.lt_succ_self _) v w
  have e2 := fromStrImpl_eq P.monitored p _ (Nat.lt_succ_self _) (v, 0) (w, Mon.init)
  rw [e] at e2
  generalize drivePT P v t w = y at e1 e2
  obtain ⟨r, w'⟩ := y
  cases r with
  | ok u =>
    cases o with
    | some d => exact ⟨_, _, m, e1, e2, hm⟩
    | none => exact ⟨_, _, m, e1, e2, hm⟩
  | err => exact ⟨_, _, m, e1, e2, hm⟩
  | panic => exact ⟨_, _, m, e1, e2, hm⟩

end Miniserde
