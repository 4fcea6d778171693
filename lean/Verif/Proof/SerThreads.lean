import Verif.Spec.SerThreads
import Verif.Proof.Ser

/-!
# `to_string` on shared values: one thread
-/

namespace Miniserde.SerThreads
open Miniserde

/-! ## Pointers -/

theorem sub_append (l : List Nat) (i : Nat) : ∀ v, sub (l ++ [i]) v = (sub l v).bind (child i) := by
  induction l with
  | nil => intro v; simp only [List.nil_append, sub, Option.bind_some]; cases child i v <;> rfl
  | cons j l ih =>
    intro v
    simp only [List.cons_append, sub]
    cases child j v with
    | none => rfl
    | some w => simp only [Option.bind_some]; exact ih w

/-- The value a pointer points to. -/
def VPtr.get (vals : List Val) (p : VPtr) : Option Val := vals[p.addr]?.bind (sub p.path)

theorem get_child {vals : List Val} {p : VPtr} {v : Val} (h : p.get vals = some v) (i : Nat) : (p.child i).get vals = child i v := by
  unfold VPtr.get at h ⊢
  simp only [VPtr.child]
  cases hv : vals[p.addr]? with
  | none => rw [hv] at h; cases h
  | some x =>
    rw [hv, Option.bind_some] at h
    rw [Option.bind_some, sub_append, h, Option.bind_some]

/-! ## A thread and its own memory -/

/-- The streams a thread owns. -/
abbrev Own := Nat → Option PStream

/-- Change at one address. -/
def upd {β : Type} (m : Nat → Option β) (a : Nat) (o : Option β) : Nat → Option β := fun b => if b = a then o else m b

@[simp] theorem upd_same {β : Type} (m : Nat → Option β) (a : Nat) (o : Option β) : upd m a o a = o := by simp [upd]
theorem upd_ne {β : Type} (m : Nat → Option β) {a b : Nat} (o : Option β) (h : b ≠ a) : upd m a o b = m b := by simp [upd, h]
@[simp] theorem upd_upd {β : Type} (m : Nat → Option β) (a : Nat) (o o' : Option β) : upd (upd m a o) a o' = upd m a o' := by
  funext b; simp only [upd]; split <;> rfl
theorem upd_id {β : Type} {m : Nat → Option β} {a : Nat} {o : Option β} (h : m a = o) : upd m a o = m := by
  funext b; simp only [upd]; split
  · rename_i e; rw [e, h]
  · rfl

/-- Run in the memory `own` next to the immutable values `vals`, and whatever else there is, the program does nothing undefined, accesses only
what it owns (and reads `vals`), and returns with `Q`. -/
def Safe {α : Type} (vals : List Val) (Q : α → Own → Prop) : SProg α → Own → Prop
  | .ret x, own => Q x own
  | .load a k, own =>
    (∃ s, own a = some s ∧ Safe vals Q (k (some (.stream s))) own) ∨ (own a = none ∧ ∃ v, vals[a]? = some v ∧ Safe vals Q (k (some (.val v))) own)
  | .store a o k, own => own a ≠ none ∧ ∃ s, o = .stream s ∧ Safe vals Q k (upd own a (some s))
  | .alloc o k, own => ∃ s, o = .stream s ∧ ∀ a, own a = none → vals.length ≤ a → Safe vals Q (k a) (upd own a (some s))
  | .free a k, own => own a ≠ none ∧ Safe vals Q k (upd own a none)
  | .fault _, _ => False

theorem Safe.bind {α β : Type} {vals : List Val} {Q : α → Own → Prop} {R : β → Own → Prop} {f : α → SProg β} (p : SProg α) :
    ∀ {own : Own}, Safe vals Q p own → (∀ x own', Q x own' → Safe vals R (f x) own') → Safe vals R (p.bind f) own := by
  induction p with
  | ret x => intro own h hf; exact hf _ _ h
  | load a k ih =>
    intro own h hf
    rcases h with ⟨s, h1, h2⟩ | ⟨h0, v, h1, h2⟩
    · exact .inl ⟨s, h1, ih _ h2 hf⟩
    · exact .inr ⟨h0, v, h1, ih _ h2 hf⟩
  | store a o k ih => intro own h hf; obtain ⟨h0, s, h1, h2⟩ := h; exact ⟨h0, s, h1, ih h2 hf⟩
  | alloc o k ih => intro own h hf; obtain ⟨s, h1, h2⟩ := h; exact ⟨s, h1, fun a k1 k2 => ih _ (h2 a k1 k2) hf⟩
  | free a k ih => intro own h hf; exact ⟨h.1, ih h.2 hf⟩
  | fault k ih => intro own h hf; exact h

/-- The values are at addresses where the thread owns nothing. -/
def Apart (vals : List Val) (own : Own) : Prop := ∀ a, a < vals.length → own a = none

theorem Apart.upd {vals : List Val} {own : Own} {a : Nat} {o : Option PStream} (h : Apart vals own) (ha : vals.length ≤ a ∨ o = none) : Apart vals (upd own a o) := by
  intro b hb
  by_cases e : b = a
  · subst e
    rcases ha with ha | rfl
    · omega
    · simp
  · rw [upd_ne _ _ e]; exact h b hb

theorem Apart.le {vals : List Val} {own : Own} (h : Apart vals own) {a : Nat} {s : PStream} (e : own a = some s) : vals.length ≤ a := by
  apply Nat.le_of_not_lt
  intro h'
  rw [h a h'] at e; cases e

theorem safe_readV {α : Type} {vals : List Val} {Q : α → Own → Prop} {p : VPtr} {d : α} {k : Val → SProg α} {own : Own} {v : Val} (ha : Apart vals own)
    (hp : p.get vals = some v) (h : Safe vals Q (k v) own) : Safe vals Q (readV p d k) own := by
  obtain ⟨x, h1, h2⟩ := Option.bind_eq_some_iff.1 hp
  refine .inr ⟨ha _ (List.getElem?_eq_some_iff.1 h1).1, x, h1, ?_⟩
  simp only [h2]
  exact h

/-! ## Streams with pointers and streams with values -/

/-- The stream `s` with pointers holds the same as `g` with values; `isMap` is the kind. -/
inductive Same (vals : List Val) : Bool → PStream → Stream → Prop
  | slice {t : Ty} {p : VPtr} {i : Nat} {vs : List Val} (hp : p.get vals = some (.seq vs)) : Same vals false (.slice t p i vs.length) (.slice t (vs.drop i))
  | tuple {a b : Ty} {p q : VPtr} {x y : Val} {state : Nat} (hp : p.get vals = some x) (hq : q.get vals = some y) :
      Same vals false (.tuple a b p q state) (.tuple a b x y state)
  | map {k : Nat} {t : Ty} {p : VPtr} {is : List Nat} {ms : List (Bytes × Val)} (hp : p.get vals = some (.map ms)) (hi : ∀ i ∈ is, i < ms.length) :
      Same vals true (.map k t p is) (.map k t (is.filterMap (ms[·]?)))
  | object {p : VPtr} {is : List Nat} {ms : List (Bytes × Val)} (hp : p.get vals = some (.map ms)) (hi : ∀ i ∈ is, i < ms.length) :
      Same vals true (.object p is) (.object (is.filterMap (ms[·]?)))
  | strct {i : Nat} {p : VPtr} {vs : List Val} {state : Nat} (hp : p.get vals = some (.strct vs)) :
      Same vals true (.strct i p state vs.length) (.strct i vs state)

variable (E : Env) (order : List (Bytes × Val) → List Nat)

/-- The serializer as it runs alone. -/
abbrev G : SProto SHeap := serLib E fun _ => reorder order

/-- The stacks correspond, and the thread owns exactly the streams on its stack. -/
inductive Linked (vals : List Val) : Own → (Nat → Option Stream) → List PLayer → List (SLayer (G E order)) → Prop
  | nil {cells : Nat → Option Stream} : Linked vals (fun _ => none) cells [] []
  | seq {own : Own} {cells : Nat → Option Stream} {a q : Nat} {s : PStream} {g : Stream} {st : List PLayer} {gst : List (SLayer (G E order))}
      (ho : own a = some s) (hg : cells q = some g) (hs : Same vals false s g) (h : Linked vals (upd own a none) (upd cells q none) st gst) :
      Linked vals own cells (.seq a :: st) (.seq q :: gst)
  | map {own : Own} {cells : Nat → Option Stream} {a q : Nat} {s : PStream} {g : Stream} {st : List PLayer} {gst : List (SLayer (G E order))}
      (ho : own a = some s) (hg : cells q = some g) (hs : Same vals true s g) (h : Linked vals (upd own a none) (upd cells q none) st gst) :
      Linked vals own cells (.map a :: st) (.map q :: gst)

/-- New cells are empty. -/
def Fresh (h : SHeap) : Prop := ∀ n, h.next ≤ n → h.cells n = none

/-- A fragment without a stream. -/
def leaf : Frag Nat Nat → Bool
  | .seq _ => false
  | .map _ => false
  | _ => true

/-- Fragment and stack correspond. -/
inductive SameFrag (vals : List Val) (own : Own) (cells : Nat → Option Stream) (st : List PLayer) (gst : List (SLayer (G E order))) : Frag Nat Nat → Frag Nat Nat → Prop
  | leaf {f : Frag Nat Nat} (hf : leaf f = true) (h : Linked E order vals own cells st gst) : SameFrag vals own cells st gst f f
  | seq {a q : Nat} (h : Linked E order vals own cells (.seq a :: st) (.seq q :: gst)) : SameFrag vals own cells st gst (.seq a) (.seq q)
  | map {a q : Nat} (h : Linked E order vals own cells (.map a :: st) (.map q :: gst)) : SameFrag vals own cells st gst (.map a) (.map q)

/-- Thread and serializer running alone are at the same point. -/
inductive Post (vals : List Val) (own : Own) : PExit → SExit (G E order) → Prop
  | running {out : Bytes} {st : List PLayer} {gst : List (SLayer (G E order))} {f g : Frag Nat Nat} {h : SHeap} (hf : Fresh h) (ha : Apart vals own)
      (hs : SameFrag E order vals own h.cells st gst f g) : Post vals own (.running ⟨out, st, f⟩) (.running ⟨out, gst, g, h⟩)
  | finished {r : Option Bytes} {h : SHeap} (ho : own = fun _ => none) : Post vals own (.finished r) (.finished r h)

variable {E order}
variable {vals : List Val}

theorem safe_drop : ∀ {st : List PLayer} {gst : List (SLayer (G E order))} {own : Own} {cells : Nat → Option Stream},
    Linked E order vals own cells st gst → Safe vals (fun _ own' => own' = fun _ => none) (dropLayersP st) own
  | _, _, _, _, .nil => rfl
  | _, _, _, _, .seq ho _ _ h => ⟨by simp only [PLayer.addr]; rw [ho]; nofun, safe_drop h⟩
  | _, _, _, _, .map ho _ _ h => ⟨by simp only [PLayer.addr]; rw [ho]; nofun, safe_drop h⟩

theorem safe_panic {st : List PLayer} {gst gst' : List (SLayer (G E order))} {own : Own} {cells : Nat → Option Stream} {h : SHeap} (hl : Linked E order vals own cells st gst) :
    Safe vals (fun x own' => Post E order vals own' x (.finished none (dropLayers gst' h))) (panicP st) own :=
  Safe.bind _ (safe_drop hl) fun _ _ e => Post.finished e

/-! ## `begin` -/

/-- What `begin` returns corresponds. -/
def PostBegin (E : Env) (order : List (Bytes × Val) → List Nat) (vals : List Val) (st : List PLayer) (gst : List (SLayer (G E order))) (own : Own) :
    Option (Frag Nat Nat) → Option (Frag Nat Nat) × SHeap → Prop
  | some f, (some g, h) => Fresh h ∧ Apart vals own ∧ SameFrag E order vals own h.cells st gst f g
  | none, (none, h) => Linked E order vals own h.cells st gst
  | _, _ => False

/-- The stream that is to be allocated corresponds. -/
def PostOpen (vals : List Val) (h : SHeap) : Opened → Option (Frag Nat Nat) × SHeap → Prop
  | .frag f, r => r = (f, h) ∧ ∀ g, f = some g → leaf g = true
  | .seq s, r => ∃ g, Same vals false s g ∧ r = newSeq g h
  | .map s, r => ∃ g, Same vals true s g ∧ r = newMap g h

theorem leaf_number {v : Val} {g : Frag Nat Nat} (h : beginNumber v = some g) : leaf g = true := by
  unfold beginNumber at h
  split at h <;> first | (cases h; rfl) | cases h

theorem filterMap_range' (ms : List (Bytes × Val)) : ∀ pre : List (Bytes × Val), (List.range' pre.length ms.length).filterMap ((pre ++ ms)[·]?) = ms := by
  induction ms with
  | nil => intro pre; rfl
  | cons m ms ih =>
    intro pre
    have h := ih (pre ++ [m])
    simp only [List.length_append, List.length_cons, List.length_nil, List.append_assoc, List.cons_append, List.nil_append, Nat.zero_add] at h
    simp only [List.length_cons, List.range'_succ]
    rw [List.filterMap_cons]
    have : (pre ++ m :: ms)[pre.length]? = some m := by simp
    simp only [this]
    rw [h]

theorem filterMap_range (ms : List (Bytes × Val)) : (List.range ms.length).filterMap (ms[·]?) = ms := by
  rw [List.range_eq_range']; exact filterMap_range' ms []

theorem same_map (hp : VPtr) (k : Nat) (t : Ty) {ms : List (Bytes × Val)} (h : hp.get vals = some (.map ms)) :
    Same vals true (.map k t hp (List.range ms.length)) (.map k t ms) := by
  have := Same.map (vals := vals) (k := k) (t := t) (is := List.range ms.length) h (fun i hi => List.mem_range.1 hi)
  rwa [filterMap_range] at this

theorem same_object (hp : VPtr) {ms : List (Bytes × Val)} (h : hp.get vals = some (.map ms)) : Same vals true (.object hp (List.range ms.length)) (.object ms) := by
  have := Same.object (vals := vals) (is := List.range ms.length) h (fun i hi => List.mem_range.1 hi)
  rwa [filterMap_range] at this

theorem opens_same (ho : IteratesAll order) {p : VPtr} {v : Val} (hp : p.get vals = some v) (t : Ty) (hb : ∀ t', t ≠ .box t') (hopt : ∀ t', t ≠ .opt t') (h : SHeap) :
    PostOpen vals h (opens E order p t v) (beginVal E (fun _ => reorder order) t v h) := by
  unfold opens
  split
  all_goals try simp only [beginVal, PostOpen]
  all_goals try exact ⟨trivial, fun g e => by cases e; rfl⟩
  all_goals try exact ⟨trivial, fun g e => leaf_number e⟩
  all_goals try exact ⟨_, Same.slice hp, rfl⟩
  all_goals try exact ⟨_, same_object _ hp, rfl⟩
  all_goals try exact ⟨_, same_map _ _ _ hp, rfl⟩
  all_goals try exact ⟨_, Same.strct hp, rfl⟩
  · exact ⟨_, Same.tuple (by rw [get_child hp]; rfl) (by rw [get_child hp]; rfl), rfl⟩
  · exact ⟨_, Same.map hp fun i hi => List.mem_range.1 ((ho _).mem_iff.1 hi), rfl⟩
  · refine ⟨trivial, fun g e => ?_⟩
    obtain ⟨n, -, rfl⟩ := Option.map_eq_some_iff.1 e
    rfl
  · refine ⟨?_, fun g e => by cases e⟩
    unfold beginVal
    split <;> first | rfl | (exfalso; simp_all; done) | (exfalso; simp_all; rename_i k; exact k _ _ _ _ rfl rfl rfl rfl)

theorem Linked.push_seq {st : List PLayer} {gst : List (SLayer (G E order))} {own : Own} {h : SHeap} {a : Nat} {s : PStream} {g : Stream} (hl : Linked E order vals own h.cells st gst)
    (hf : Fresh h) (ha : own a = none) (hs : Same vals false s g) : Linked E order vals (upd own a (some s)) (h.alloc g).2.cells (.seq a :: st) (.seq h.next :: gst) := by
  refine .seq (s := s) (g := g) (by simp) (by simp [SHeap.alloc]) hs ?_
  have e : upd (h.alloc g).2.cells h.next none = h.cells := by
    funext n; simp only [upd, SHeap.alloc]; split
    · rename_i e; subst e; rw [hf _ (Nat.le_refl _)]
    · rfl
  rw [upd_upd, upd_id ha, e]
  exact hl

theorem Linked.push_map {st : List PLayer} {gst : List (SLayer (G E order))} {own : Own} {h : SHeap} {a : Nat} {s : PStream} {g : Stream} (hl : Linked E order vals own h.cells st gst)
    (hf : Fresh h) (ha : own a = none) (hs : Same vals true s g) : Linked E order vals (upd own a (some s)) (h.alloc g).2.cells (.map a :: st) (.map h.next :: gst) := by
  refine .map (s := s) (g := g) (by simp) (by simp [SHeap.alloc]) hs ?_
  have e : upd (h.alloc g).2.cells h.next none = h.cells := by
    funext n; simp only [upd, SHeap.alloc]; split
    · rename_i e; subst e; rw [hf _ (Nat.le_refl _)]
    · rfl
  rw [upd_upd, upd_id ha, e]
  exact hl

theorem Fresh.alloc {h : SHeap} (hf : Fresh h) (g : Stream) : Fresh (h.alloc g).2 := by
  intro n hn
  simp only [SHeap.alloc] at hn ⊢
  rw [if_neg (by omega)]; exact hf n (by omega)

/-- The part of `beginP` for types other than `Box` and `Option`. -/
theorem safe_open {st : List PLayer} {gst : List (SLayer (G E order))} {own : Own} {h : SHeap} {o : Opened} {r : Option (Frag Nat Nat) × SHeap} (hl : Linked E order vals own h.cells st gst) (hf : Fresh h)
    (ha : Apart vals own) (hr : PostOpen vals h o r) :
    Safe vals (fun f own' => PostBegin E order vals st gst own' f r) o.boxed own := by
  cases o with
  | frag f =>
    obtain ⟨rfl, h2⟩ := hr
    cases f with
    | none => exact hl
    | some g => exact ⟨hf, ha, .leaf (h2 g rfl) hl⟩
  | seq s =>
    obtain ⟨g, h1, rfl⟩ := hr
    refine ⟨s, rfl, fun a h2 h3 => ?_⟩
    exact ⟨hf.alloc g, ha.upd (.inl h3), .seq (hl.push_seq hf h2 h1)⟩
  | map s =>
    obtain ⟨g, h1, rfl⟩ := hr
    refine ⟨s, rfl, fun a h2 h3 => ?_⟩
    exact ⟨hf.alloc g, ha.upd (.inl h3), .map (hl.push_map hf h2 h1)⟩

theorem safe_begin (ho : IteratesAll order) {st : List PLayer} {gst : List (SLayer (G E order))} {own : Own} {h : SHeap} (hl : Linked E order vals own h.cells st gst) (hf : Fresh h)
    (ha : Apart vals own) : ∀ (t : Ty) {p : VPtr} {v : Val}, p.get vals = some v →
    Safe vals (fun f own' => PostBegin E order vals st gst own' f (beginVal E (fun _ => reorder order) t v h)) (beginP E order t p) own
  | .box t, p, v, hp => by
    rw [beginP]
    refine safe_readV ha hp ?_
    cases v with
    | box v =>
      simp only [beginVal]
      exact safe_begin ho hl hf ha t (by rw [get_child hp]; rfl)
    | _ => simp only [beginVal]; exact hl
  | .opt t, p, v, hp => by
    rw [beginP]
    refine safe_readV ha hp ?_
    cases v with
    | optNone => simp only [beginVal]; exact ⟨hf, ha, .leaf rfl hl⟩
    | optSome v =>
      simp only [beginVal]
      exact safe_begin ho hl hf ha t (by rw [get_child hp]; rfl)
    | _ => simp only [beginVal]; exact hl
  | .unit, p, v, hp | .bool, p, v, hp | .string, p, v, hp | .int _ _, p, v, hp | .f32, p, v, hp | .f64, p, v, hp | .number, p, v, hp | .value, p, v, hp
  | .array, p, v, hp | .object, p, v, hp | .tup _ _, p, v, hp | .vec _, p, v, hp | .arr _ _, p, v, hp | .hmap _ _, p, v, hp | .bmap _ _, p, v, hp
  | .strct _, p, v, hp | .enm _, p, v, hp =>
    safe_readV ha hp (safe_open hl hf ha (opens_same ho hp _ (fun _ e => by cases e) (fun _ e => by cases e) h))

theorem safe_beginWith (ho : IteratesAll order) {st : List PLayer} {gst : List (SLayer (G E order))} {own : Own} {h : SHeap} (hl : Linked E order vals own h.cells st gst) (hf : Fresh h)
    (ha : Apart vals own) (out : Bytes) {t : Ty} {p : VPtr} {v : Val} (hp : p.get vals = some v) :
    Safe vals (fun x own' => Post E order vals own' x (beginWith out gst (t, v) h)) (beginWithP E order out st (t, p)) own := by
  refine Safe.bind _ (safe_begin ho hl hf ha t hp) fun f own' hq => ?_
  generalize hr : beginVal E (fun _ => reorder order) t v h = r at hq
  obtain ⟨g, h'⟩ := r
  have hr' : (G E order).begin (t, v) h = (g, h') := hr
  unfold beginWith
  rw [hr']
  cases f with
  | none =>
    cases g with
    | none => exact safe_panic hq
    | some g => cases hq
  | some f =>
    cases g with
    | none => cases hq
    | some g => exact Post.running hq.1 hq.2.1 hq.2.2

/-! ## `next` -/

/-- The cell changes, nothing else. -/
def changed (h : SHeap) (q : Nat) (g : Stream) : SHeap := { h with cells := upd h.cells q (some g) }

theorem safe_seqNext {own : Own} {h : SHeap} {a q : Nat} {s : PStream} {g : Stream} (h1 : own a = some s) (h2 : h.cells q = some g) (h3 : Same vals false s g) :
    Safe vals (fun r own' => ∃ s' g', own' = upd own a (some s') ∧ Same vals false s' g' ∧
      ((r = none ∧ seqNextLib q h = (none, changed h q g')) ∨ (r = some none ∧ seqNextLib q h = (some none, changed h q g')) ∨
        ∃ t p v, r = some (some (t, p)) ∧ seqNextLib q h = (some (some (t, v)), changed h q g') ∧ p.get vals = some v)) (seqNextP a) own := by
  refine .inl ⟨s, h1, ?_⟩
  unfold seqNextLib
  rw [h2]
  cases h3 with
  | @slice t p i vs hp =>
    simp only
    by_cases hi : i < vs.length
    · simp only [hi, if_true]
      refine ⟨by rw [h1]; nofun, _, rfl, ?_⟩
      rw [List.drop_eq_getElem_cons hi]
      exact ⟨_, _, rfl, .slice hp, .inr (.inr ⟨_, _, _, rfl, rfl, by rw [get_child hp]; simp [child, hi]⟩)⟩
    · simp only [hi, if_false]
      rw [List.drop_eq_nil_of_le (by omega)]
      refine ⟨.slice t p i vs.length, .slice t (vs.drop i), (upd_id h1).symm, .slice hp, .inr (.inl ⟨rfl, ?_⟩)⟩
      rw [List.drop_eq_nil_of_le (by omega)]; rfl
  | @tuple ta tb p q' x y state hp hq =>
    simp only
    refine ⟨by rw [h1]; nofun, _, rfl, _, _, rfl, .tuple hp hq, ?_⟩
    by_cases e0 : state = 0
    · simp only [e0, if_true]
      exact .inr (.inr ⟨_, _, _, rfl, rfl, hp⟩)
    by_cases e1 : state = 1
    · simp only [e1, if_true]
      exact .inr (.inr ⟨_, _, _, rfl, rfl, hq⟩)
    · simp only [e0, e1, if_false]
      exact .inr (.inl ⟨trivial, rfl⟩)

theorem safe_readKey {α : Type} {Q : α → Own → Prop} {p : VPtr} {i : Nat} {d : α} {k : Bytes → SProg α} {own : Own} {ms : List (Bytes × Val)} (ha : Apart vals own)
    (hp : p.get vals = some (.map ms)) (hi : i < ms.length) (h : Safe vals Q (k ms[i].1) own) : Safe vals Q (readKey p i d k) own := by
  refine safe_readV ha hp ?_
  simp only [List.getElem?_eq_getElem hi]
  exact h

theorem safe_mapNext {own : Own} {h : SHeap} {a q : Nat} {s : PStream} {g : Stream} (ha : Apart vals own) (h1 : own a = some s) (h2 : h.cells q = some g) (h3 : Same vals true s g) :
    Safe vals (fun r own' => ∃ s' g', own' = upd own a (some s') ∧ Same vals true s' g' ∧
      ((r = none ∧ mapNextLib E q h = (none, changed h q g')) ∨ (r = some none ∧ mapNextLib E q h = (some none, changed h q g')) ∨
        ∃ key t p v, r = some (some (key, (t, p))) ∧ mapNextLib E q h = (some (some (key, (t, v))), changed h q g') ∧ p.get vals = some v)) (mapNextP E a) own := by
  refine .inl ⟨s, h1, ?_⟩
  unfold mapNextLib
  rw [h2]
  have hn : own a ≠ none := by rw [h1]; nofun
  cases h3 with
  | @map k t p is ms hp hi =>
    cases is with
    | nil => exact ⟨_, _, (upd_id h1).symm, .map (is := []) hp (by nofun), .inr (.inl ⟨rfl, rfl⟩)⟩
    | cons i is =>
      have hi0 := hi i List.mem_cons_self
      rw [List.filterMap_cons_some (List.getElem?_eq_getElem hi0)]
      refine ⟨hn, _, rfl, safe_readKey (ha.upd (.inl (ha.le h1))) hp hi0 ?_⟩
      exact ⟨_, _, rfl, .map hp (fun j hj => hi j (List.mem_cons_of_mem _ hj)), .inr (.inr ⟨_, _, _, _, rfl, rfl, by rw [get_child hp]; simp [child, hi0]⟩)⟩
  | @object p is ms hp hi =>
    cases is with
    | nil => exact ⟨_, _, (upd_id h1).symm, .object (is := []) hp (by nofun), .inr (.inl ⟨rfl, rfl⟩)⟩
    | cons i is =>
      have hi0 := hi i List.mem_cons_self
      rw [List.filterMap_cons_some (List.getElem?_eq_getElem hi0)]
      refine ⟨hn, _, rfl, safe_readKey (ha.upd (.inl (ha.le h1))) hp hi0 ?_⟩
      exact ⟨_, _, rfl, .object hp (fun j hj => hi j (List.mem_cons_of_mem _ hj)), .inr (.inr ⟨_, _, _, _, rfl, rfl, by rw [get_child hp]; simp [child, hi0]⟩)⟩
  | @strct i p vs state hp =>
    refine ⟨hn, _, rfl, _, _, rfl, .strct hp, ?_⟩
    simp only
    cases hf : (E.fields i)[state]? with
    | none => exact .inr (.inl ⟨rfl, rfl⟩)
    | some f =>
      simp only
      by_cases hs : state < vs.length
      · simp only [hs, if_true, List.getElem?_eq_getElem]
        exact .inr (.inr ⟨_, _, _, _, rfl, rfl, by rw [get_child hp]; simp [child, hs]⟩)
      · simp only [hs, if_false]
        rw [List.getElem?_eq_none (by omega)]
        exact .inl ⟨trivial, rfl⟩

/-! ## The driver -/

theorem Fresh.changed {h : SHeap} (hf : Fresh h) {q : Nat} {g g' : Stream} (e : h.cells q = some g) : Fresh (changed h q g') := by
  intro n hn
  have : n ≠ q := by rintro rfl; rw [hf n hn] at e; cases e
  simp only [SerThreads.changed]
  rw [upd_ne _ _ this]; exact hf n hn

theorem free_changed (h : SHeap) (q : Nat) (g : Stream) : (changed h q g).free q = { h with cells := upd h.cells q none } := by
  simp only [SHeap.free, changed, upd_same]
  congr 1
  funext n; simp only [upd]; split <;> rfl

theorem Fresh.freed {h : SHeap} (hf : Fresh h) {q : Nat} : Fresh { h with cells := upd h.cells q none } := by
  intro n hn
  simp only [upd]; split
  · rfl
  · exact hf n hn

theorem Linked.set_seq {st : List PLayer} {gst : List (SLayer (G E order))} {own : Own} {h : SHeap} {a q : Nat} {s : PStream} {g : Stream}
    (hl : Linked E order vals (upd own a none) (upd h.cells q none) st gst) (hs : Same vals false s g) :
    Linked E order vals (upd own a (some s)) (changed h q g).cells (.seq a :: st) (.seq q :: gst) :=
  .seq (s := s) (g := g) (by simp) (by simp [changed]) hs (by simpa [changed] using hl)

theorem Linked.set_map {st : List PLayer} {gst : List (SLayer (G E order))} {own : Own} {h : SHeap} {a q : Nat} {s : PStream} {g : Stream}
    (hl : Linked E order vals (upd own a none) (upd h.cells q none) st gst) (hs : Same vals true s g) :
    Linked E order vals (upd own a (some s)) (changed h q g).cells (.map a :: st) (.map q :: gst) :=
  .map (s := s) (g := g) (by simp) (by simp [changed]) hs (by simpa [changed] using hl)

theorem safe_free {α : Type} {Q : α → Own → Prop} {k : SProg α} {own : Own} {a : Nat} {s : PStream} (h : Safe vals Q k (upd own a none)) :
    Safe vals Q (.free a k) (upd own a (some s)) := ⟨by simp, by simpa using h⟩

theorem safe_advance (ho : IteratesAll order) : ∀ {st : List PLayer} {gst : List (SLayer (G E order))} {own : Own} {h : SHeap} (out : Bytes),
    Linked E order vals own h.cells st gst → Fresh h → Apart vals own →
    Safe vals (fun x own' => Post E order vals own' x (advance out gst h)) (advanceP E order out st) own := by
  intro st
  induction st with
  | nil =>
    intro gst own h out hl hf ha
    cases hl
    exact .finished rfl
  | cons l st ih =>
    intro gst own h out hl hf ha
    generalize hc : h.cells = cells at hl
    cases hl with
    | @seq _ _ a q s g _ gst h1 h2 h3 h4 =>
      subst hc
      rw [advanceP]
      refine Safe.bind _ (safe_seqNext h1 h2 h3) fun r own' hq => ?_
      obtain ⟨s', g', rfl, k1, hq⟩ := hq
      have ha' := ha.upd (a := a) (o := some s') (.inl (ha.le h1))
      have hl' := h4.set_seq (a := a) (q := q) k1
      have hf' := hf.changed (g' := g') h2
      rcases hq with ⟨rfl, e⟩ | ⟨rfl, e⟩ | ⟨t, p, v, rfl, e, hp⟩
      all_goals
        have e' : (G E order).seqNext q h = _ := e
        simp only [advance]
        rw [e']
        simp only
      · exact safe_panic hl'
      · refine safe_free ?_
        have : (G E order).dropSeq q (changed h q g') = _ := free_changed h q g'
        rw [this]
        exact ih _ h4 hf.freed (ha.upd (.inr rfl))
      · exact safe_beginWith ho hl' hf' ha' _ hp
    | @map _ _ a q s g _ gst h1 h2 h3 h4 =>
      subst hc
      rw [advanceP]
      refine Safe.bind _ (safe_mapNext (E := E) ha h1 h2 h3) fun r own' hq => ?_
      obtain ⟨s', g', rfl, k1, hq⟩ := hq
      have ha' := ha.upd (a := a) (o := some s') (.inl (ha.le h1))
      have hl' := h4.set_map (a := a) (q := q) k1
      have hf' := hf.changed (g' := g') h2
      rcases hq with ⟨rfl, e⟩ | ⟨rfl, e⟩ | ⟨key, t, p, v, rfl, e, hp⟩
      all_goals
        have e' : (G E order).mapNext q h = _ := e
        simp only [advance]
        rw [e']
        simp only
      · exact safe_panic hl'
      · refine safe_free ?_
        have : (G E order).dropMap q (changed h q g') = _ := free_changed h q g'
        rw [this]
        exact ih _ h4 hf.freed (ha.upd (.inr rfl))
      · cases escapeStr key (out ++ [b(',')]) with
        | none => exact safe_panic hl'
        | some out' => exact safe_beginWith ho hl' hf' ha' _ hp

theorem safe_step (ho : IteratesAll order) (ryu : F64 → Bytes) {st : PSt} {gst : SSt (G E order)} {own : Own} (hp : Post E order vals own (.running st) (.running gst)) :
    Safe vals (fun x own' => Post E order vals own' x (stepS ryu gst)) (stepP E order ryu st) own := by
  cases hp with
  | @running out st gst f g h hf ha hs =>
    unfold stepP
    cases hs with
    | leaf h1 h2 =>
      cases f with
      | seq a => cases h1
      | map a => cases h1
      | str s =>
        simp only [stepS]
        cases escapeStr s out with
        | none => exact safe_panic h2
        | some out' => exact safe_advance ho _ h2 hf ha
      | _ => exact safe_advance ho _ h2 hf ha
    | @seq a q hl =>
      generalize hc : h.cells = cells at hl
      cases hl with
      | @seq _ _ _ _ s g _ _ h1 h2 h3 h4 =>
      subst hc
      refine Safe.bind _ (safe_seqNext h1 h2 h3) fun r own' hq => ?_
      obtain ⟨s', g', rfl, k1, hq⟩ := hq
      have ha' := ha.upd (a := a) (o := some s') (.inl (ha.le h1))
      have hl' := h4.set_seq (a := a) (q := q) k1
      have hf' := hf.changed (g' := g') h2
      have hd : (G E order).dropSeq q (changed h q g') = _ := free_changed h q g'
      rcases hq with ⟨rfl, e⟩ | ⟨rfl, e⟩ | ⟨t, p, v, rfl, e, hp⟩
      all_goals
        have e' : (G E order).seqNext q h = _ := e
        simp only [stepS]
        rw [e']
        simp only
      · exact safe_free (safe_panic h4)
      · refine safe_free ?_
        rw [hd]
        exact safe_advance ho _ h4 hf.freed (ha.upd (.inr rfl))
      · exact safe_beginWith ho hl' hf' ha' _ hp
    | @map a q hl =>
      generalize hc : h.cells = cells at hl
      cases hl with
      | @map _ _ _ _ s g _ _ h1 h2 h3 h4 =>
      subst hc
      refine Safe.bind _ (safe_mapNext (E := E) ha h1 h2 h3) fun r own' hq => ?_
      obtain ⟨s', g', rfl, k1, hq⟩ := hq
      have ha' := ha.upd (a := a) (o := some s') (.inl (ha.le h1))
      have hl' := h4.set_map (a := a) (q := q) k1
      have hf' := hf.changed (g' := g') h2
      have hd : (G E order).dropMap q (changed h q g') = _ := free_changed h q g'
      rcases hq with ⟨rfl, e⟩ | ⟨rfl, e⟩ | ⟨key, t, p, v, rfl, e, hp⟩
      all_goals
        have e' : (G E order).mapNext q h = _ := e
        simp only [stepS]
        rw [e']
        simp only
      · exact safe_free (safe_panic h4)
      · refine safe_free ?_
        rw [hd]
        exact safe_advance ho _ h4 hf.freed (ha.upd (.inr rfl))
      · cases escapeStr key (out ++ [b('{')]) with
        | none => exact safe_free (safe_panic h4)
        | some out' => exact safe_beginWith ho hl' hf' ha' _ hp

/-- The thread is where the serializer running alone is after `n` iterations. -/
def At (E : Env) (order : List (Bytes × Val) → List Nat) (ryu : F64 → Bytes) (vals : List Val) (t : Ty) (v : Val) (n : Nat) (x : PExit) (own : Own) : Prop :=
  Post E order vals own x (toStringN (G E order) ryu n (t, v) SHeap.empty)

theorem at_start (ho : IteratesAll order) (ryu : F64 → Bytes) {t : Ty} {a : Nat} {v : Val} (hv : vals[a]? = some v) :
    Safe vals (At E order ryu vals t v 0) (beginWithP E order [] [] (t, ⟨a, []⟩)) fun _ => none :=
  safe_beginWith ho .nil (fun _ _ => rfl) (fun _ _ => rfl) [] (by simp [VPtr.get, hv, sub])

theorem runS_succ {σ : Type} {P : SProto σ} (ryu : F64 → Bytes) : ∀ (n : Nat) (x : SExit P), runS ryu (n + 1) x = runS ryu 1 (runS ryu n x)
  | 0, x => rfl
  | n + 1, .running st => by rw [runS, runS_succ ryu n]; rfl
  | n + 1, .finished o w => rfl

theorem at_step (ho : IteratesAll order) (ryu : F64 → Bytes) {t : Ty} {v : Val} {n : Nat} {st : PSt} {own : Own} (h : At E order ryu vals t v n (.running st) own) :
    Safe vals (At E order ryu vals t v (n + 1)) (stepP E order ryu st) own := by
  unfold At at h ⊢
  unfold toStringN at h ⊢
  rw [runS_succ]
  generalize runS ryu n (beginWith (P := G E order) [] [] (t, v) SHeap.empty) = y at h
  cases y with
  | finished o w => cases h
  | running gst => exact safe_step ho ryu h

end Miniserde.SerThreads
