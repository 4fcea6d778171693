import Verif.Proof.Client
import Verif.Props.Float

/-!
# Properties of arbitrary programs on the library's visitors
-/

namespace Miniserde

/-- **C67.** However a safe program calls the methods of the visitors and builders it got from `Deserialize::begin`, in whatever order and with whatever arguments,
giving builders up early, leaking them, catching panics, and interleaving several deserializations: no memory error ever happens, every variable is
where it was, the variables are distinct, and each of them holds `None` or a value of its own type. -/
theorem C67_sound {E : Env} (hE : E.Lawful) {leaky : Bool} {c : Client} (hr : CReach E leaky c) :
    c.heap.fault = false ∧ (c.vars.map OutVar.addr).Nodup ∧ ∀ v ∈ c.vars, ∃ x, c.heap.mem v.addr = some (.slot x) ∧ Content E v.ty x := by
  obtain ⟨F, L, g, hI, -⟩ := inv_reach hE hr
  refine ⟨hI.ok, ?_, fun v hv => ?_⟩
  · have : ∀ {m : Mem} {vars : List OutVar} {F : List Nat}, Vars E m g vars F → F.Nodup →
        (vars.map OutVar.addr).Nodup ∧ ∀ v ∈ vars, v.addr ∈ F := by
      intro m vars F h
      induction h with
      | nil => simp
      | @cons x rest fp F hx hr ih =>
        intro hn
        obtain ⟨n1, n2, n3⟩ := List.nodup_append.1 hn
        obtain ⟨i1, i2⟩ := ih n2
        have hxr := hx.root_mem.1
        constructor
        · rw [List.map_cons, List.nodup_cons]
          refine ⟨fun h => ?_, i1⟩
          obtain ⟨v, hv, e⟩ := List.mem_map.1 h
          exact n3 _ hxr _ (i2 v hv) e.symm
        · intro v hv
          rcases List.mem_cons.1 hv with rfl | hv
          · exact List.mem_append_left _ hxr
          · exact List.mem_append_right _ (i2 v hv)
    exact (this hI.vars (List.nodup_append.1 hI.nodup).1).1
  · obtain ⟨fp, hs, -⟩ := hI.vars.mem hv
    exact hs.content

/-- **C67.** A program that does not use `mem::forget` does not leak: whenever nothing is borrowed, its variables are all that is allocated. -/
theorem C67_no_leak {E : Env} (hE : E.Lawful) {c : Client} (hr : CReach E false c) (hb : ∀ v ∈ c.vars, v.refs = []) (x : Nat) :
    c.heap.mem x ≠ none ↔ x ∈ c.vars.map OutVar.addr := by
  obtain ⟨F, L, g, hI, hL⟩ := inv_reach hE hr
  rw [hI.all x, hL rfl, List.append_nil, hI.vars.bare hb]

/-- **C67.** No call panics, but for `finish` on a builder on which `finish` has already returned `Ok`; and that changes nothing. -/
theorem C67_panic {E : Env} (hE : E.Lawful) {leaky : Bool} {c c' : Client} (hr : CReach E leaky c) (s : CStep E c true c') :
    ∃ h pre t a q k refs post, c = ⟨h, pre ++ ⟨t, a, .builder q k true :: refs⟩ :: post⟩ ∧ finishB E q h = (.panic, h) ∧ c' = c := by
  obtain ⟨F, L, g, hI, -⟩ := inv_reach hE hr
  have pan : ∀ {α : Type} {r : Res α}, true = r.panicked → r = .panic := fun {α r} h => by cases r <;> first | rfl | cases h
  generalize hp : true = p at s
  cases s with
  | declare => cases hp
  | assign => cases hp
  | scope => cases hp
  | begin => cases hp
  | release => cases hp
  | drop => cases hp
  | leaf ev he =>
    obtain ⟨F1, fp, F2, rfl, v1, v2, v3⟩ := hI.vars.split
    exact absurd (pan hp) (local_leaf hE hI.ok hI.fresh v2 he).1
  | «open» k =>
    obtain ⟨F1, fp, F2, rfl, v1, v2, v3⟩ := hI.vars.split
    exact absurd (pan hp) (local_open hE hI.ok hI.fresh v2 k).1
  | element =>
    obtain ⟨F1, fp, F2, rfl, v1, v2, v3⟩ := hI.vars.split
    exact absurd (pan hp) (local_child hE hI.ok hI.fresh v2 none rfl (by simp)).1
  | key k hk =>
    obtain ⟨F1, fp, F2, rfl, v1, v2, v3⟩ := hI.vars.split
    exact absurd (pan hp) (local_child hE hI.ok hI.fresh v2 (some k) rfl (by simpa using hk)).1
  | @finish h pre t a q k fin refs post =>
    obtain ⟨F1, fp, F2, rfl, v1, v2, v3⟩ := hI.vars.split
    obtain ⟨h1, h2⟩ := (local_finish hE hI.ok hI.fresh v2).1 (pan hp)
    have e : finishB E q h = (.panic, h) := Prod.ext (pan hp) h2
    refine ⟨h, pre, t, a, q, k, refs, post, by rw [h1, ← hp], e, ?_⟩
    rw [e]; rfl

/-- **C67.** Calls through what is borrowed from one variable leave all other variables, and all that is borrowed from them, alone: in particular they
never change another variable. -/
theorem C67_frame {E : Env} (hE : E.Lawful) {leaky : Bool} {h : Heap} {pre post : List OutVar} {t : Ty} {a : Nat} {r : Hold} {refs : List Hold}
    (hr : CReach E leaky ⟨h, pre ++ ⟨t, a, r :: refs⟩ :: post⟩) (w : OutVar) (hw : w ∈ pre ++ post) :
    (∀ v, r = .visitor v → (∀ ev : Event, ev.Legal → (leafAt E v ev h).2.mem w.addr = h.mem w.addr) ∧
      ∀ isMap, (openV E v isMap h).2.mem w.addr = h.mem w.addr) ∧
    ∀ q isMap fin, r = .builder q isMap fin → (isMap = false → (childB E q none h).2.mem w.addr = h.mem w.addr) ∧
      (isMap = true → ∀ k, ValidUtf8 k → (childB E q (some k) h).2.mem w.addr = h.mem w.addr) ∧
      (finishB E q h).2.mem w.addr = h.mem w.addr ∧ (dropB q h).mem w.addr = h.mem w.addr := by
  obtain ⟨F, L, g, hI, -⟩ := inv_reach hE hr
  obtain ⟨F1, fp, F2, rfl, v1, v2, v3⟩ := hI.vars.split
  have hnd := (List.nodup_append.1 hI.nodup).1
  have hout : w.addr ∉ fp ∧ w.addr < h.next := by
    have key : h.mem w.addr ≠ none ∧ w.addr ∉ fp := by
      rcases List.mem_append.1 hw with hw | hw
      · obtain ⟨fp', s1, s2⟩ := v1.mem hw
        refine ⟨s1.live _ s1.root_mem.1, fun h1 => ?_⟩
        exact (List.nodup_append.1 hnd).2.2 _ (s2 _ s1.root_mem.1) _ (List.mem_append_left _ h1) rfl
      · obtain ⟨fp', s1, s2⟩ := v3.mem hw
        refine ⟨s1.live _ s1.root_mem.1, fun h1 => ?_⟩
        exact (List.nodup_append.1 (List.nodup_append.1 hnd).2.1).2.2 _ h1 _ (s2 _ s1.root_mem.1) rfl
    refine ⟨key.2, ?_⟩
    rcases Nat.lt_or_ge w.addr h.next with h1 | h1
    · exact h1
    · exact absurd (hI.fresh _ h1) key.1
  refine ⟨?_, ?_⟩
  · rintro v rfl
    exact ⟨fun ev he => (local_leaf hE hI.ok hI.fresh v2 he).2.frame _ hout.1 hout.2,
      fun k => (local_open hE hI.ok hI.fresh v2 k).2.frame _ hout.1 hout.2⟩
  · rintro q k fin rfl
    refine ⟨?_, ?_, (local_finish hE hI.ok hI.fresh v2).2.frame _ hout.1 hout.2, (local_drop hE hI.ok hI.fresh v2).frame _ hout.1 hout.2⟩
    · rintro rfl
      exact (local_child hE hI.ok hI.fresh v2 none rfl (by simp)).2.frame _ hout.1 hout.2
    · rintro rfl k hk
      exact (local_child hE hI.ok hI.fresh v2 (some k) rfl (by simpa using hk)).2.frame _ hout.1 hout.2

/-- **C67.** `Ok` means `Some`: if the visitor that `Deserialize::begin(&mut out)` returned accepts a scalar, or `finish` of a builder it gave returns `Ok`, then
`out` holds a value. -/
theorem C67_some {E : Env} (hE : E.Lawful) {leaky : Bool} {h : Heap} {pre post : List OutVar} {t : Ty} {a : Nat} :
    (∀ {v : VH} {ev : Event}, CReach E leaky ⟨h, pre ++ ⟨t, a, [.visitor v]⟩ :: post⟩ → ev.Legal → (leafAt E v ev h).1 = .ok () →
      ∃ x, (leafAt E v ev h).2.mem a = some (.slot (some x)) ∧ HasTy E t x) ∧
    ∀ {q : BH} {isMap fin : Bool} {v : Hold}, CReach E leaky ⟨h, pre ++ ⟨t, a, [.builder q isMap fin, v]⟩ :: post⟩ → (finishB E q h).1 = .ok () →
      ∃ x, (finishB E q h).2.mem a = some (.slot (some x)) ∧ HasTy E t x := by
  constructor
  · intro v ev hr he hok
    obtain ⟨F, L, g, hI, -⟩ := inv_reach hE hr
    obtain ⟨F1, fp, F2, rfl, v1, v2, v3⟩ := hI.vars.split
    dsimp only at v2
    cases v2 with
    | root h0 =>
      cases h0 with
      | @nil c hm hc hg hT =>
        obtain ⟨l1, l2, l3⟩ := leafOn_typed he t hT c hc
        simp only [leafAt, slot_read hm] at hok ⊢
        obtain ⟨x, hx⟩ := Option.isSome_iff_exists.1 (l3 hok)
        rw [heap_write_eq (slot_write _ hm), hx]
        exact ⟨x, Mem.set_same .., l1 x hx⟩
  · intro q isMap fin v hr hok
    obtain ⟨F, L, g, hI, -⟩ := inv_reach hE hr
    obtain ⟨F1, fp, F2, rfl, v1, v2, v3⟩ := hI.vars.split
    dsimp only at v2
    cases v2 with
    | @build t' p _ fp0 _ _ fp' _ hs hl hn =>
      cases hl with
      | closed hl =>
        rw [closed_finish hl (List.nodup_append.1 hn).1 rfl] at hok; cases hok
      | chain hl =>
        have hpa := (hs.top hE rfl).2.2
        obtain ⟨r, h', fp'', c, m1, e1, e2, e3, e4, e5, e6, e7, e8, e9, e10, e11, e12, e13⟩ :=
          chain_finish hE hl (List.nodup_append.1 hn).1 (Stack.nodup_out hn hpa) rfl hI.ok
        rw [e1] at hok ⊢
        cases hs with
        | root h0 =>
          cases h0 with
          | nil hm hc hg hT =>
            rw [slot_write c hm] at e6
            obtain ⟨x, hx⟩ := Option.isSome_iff_exists.1 (e7 hok)
            refine ⟨x, ?_, e5 x hx⟩
            show h'.mem a = _
            rw [e12 a (Stack.nodup_out hn hpa), ← Option.some.inj e6, Mem.set_same, hx]
    | ignB hs => cases hs

/-! ## A program

```ignore
let mut out: Option<Box<Vec<u8>>> = None;
let v = Deserialize::begin(&mut out);
let mut q = v.seq()?;
q.element()?.nonnegative(7)?;
q.element()?.nonnegative(300)   // Err
q.finish()?;                    // Ok: out == Some(Box::new(vec![7]))
q.finish()                      // panics
drop(q);
```
-/

section
def exT : Ty := .box (.vec (.int false 8))
def exV : VH := .place exT ⟨0, 0, 0⟩
def exH1 : Heap := (Client.start.heap.alloc (.slot none)).2
def exQ : BH := .at 3
def exH2 : Heap := (openV exEnv exV false exH1).2
def exW : VH := .place (.int false 8) ⟨2, 0, 0⟩
def exH3 : Heap := (childB exEnv exQ none exH2).2
def exH4 : Heap := (leafAt exEnv exW (.nonnegative 7) exH3).2
def exH5 : Heap := (childB exEnv exQ none exH4).2
def exH6 : Heap := (leafAt exEnv exW (.nonnegative 300) exH5).2
def exH7 : Heap := (finishB exEnv exQ exH6).2

/-- The program runs into the panic of the second `finish`, and can go on; `out` has the value of the first. -/
theorem exClient : ∃ c, CReach exEnv false c ∧ c.vars = [⟨exT, 0, [.builder exQ false true, .visitor exV]⟩] ∧
    c.heap.mem 0 = some (.slot (some (.box (.seq [.int 7])))) ∧ CStep exEnv c true c := by
  have r1 : CReach exEnv false ⟨exH1, [⟨exT, 0, []⟩]⟩ :=
    .step .start (.declare exT (by simp [exT, Ty.Small]) none (Content.none _))
  have r2 : CReach exEnv false ⟨exH1, [⟨exT, 0, [.visitor exV]⟩]⟩ := .step r1 (.begin (pre := []))
  have o : (openV exEnv exV false exH1).1 = .ok exQ := by with_unfolding_all rfl
  have r3 : CReach exEnv false ⟨exH2, [⟨exT, 0, [.builder exQ false false, .visitor exV]⟩]⟩ := by
    have := CStep.open (E := exEnv) (h := exH1) (pre := []) (post := []) (t := exT) (a := 0) (v := exV) (refs := []) false
    rw [o] at this
    exact .step r2 this
  have o2 : (childB exEnv exQ none exH2).1 = .ok exW := by with_unfolding_all rfl
  have r4 : CReach exEnv false ⟨exH3, [⟨exT, 0, [.visitor exW, .builder exQ false false, .visitor exV]⟩]⟩ := by
    have := CStep.element (E := exEnv) (h := exH2) (pre := []) (post := []) (t := exT) (a := 0) (q := exQ) (fin := false) (refs := [.visitor exV])
    rw [o2] at this
    exact .step r3 this
  have r5 : CReach exEnv false ⟨exH4, [⟨exT, 0, [.visitor exW, .builder exQ false false, .visitor exV]⟩]⟩ :=
    .step r4 (.leaf (pre := []) (.nonnegative 7) (by simp [Event.Legal, u64Max]))
  have r6 : CReach exEnv false ⟨exH4, [⟨exT, 0, [.builder exQ false false, .visitor exV]⟩]⟩ := .step r5 (.release (pre := []))
  have o3 : (childB exEnv exQ none exH4).1 = .ok exW := by with_unfolding_all rfl
  have r7 : CReach exEnv false ⟨exH5, [⟨exT, 0, [.visitor exW, .builder exQ false false, .visitor exV]⟩]⟩ := by
    have := CStep.element (E := exEnv) (h := exH4) (pre := []) (post := []) (t := exT) (a := 0) (q := exQ) (fin := false) (refs := [.visitor exV])
    rw [o3] at this
    exact .step r6 this
  have r8 : CReach exEnv false ⟨exH6, [⟨exT, 0, [.visitor exW, .builder exQ false false, .visitor exV]⟩]⟩ :=
    .step r7 (.leaf (pre := []) (.nonnegative 300) (by simp [Event.Legal, u64Max]))
  have r9 : CReach exEnv false ⟨exH6, [⟨exT, 0, [.builder exQ false false, .visitor exV]⟩]⟩ := .step r8 (.release (pre := []))
  have o4 : (finishB exEnv exQ exH6).1 = .ok () := by with_unfolding_all rfl
  have r10 : CReach exEnv false ⟨exH7, [⟨exT, 0, [.builder exQ false true, .visitor exV]⟩]⟩ := by
    have := CStep.finish (E := exEnv) (h := exH6) (pre := []) (post := []) (t := exT) (a := 0) (q := exQ) (k := false) (fin := false) (refs := [.visitor exV])
    rw [o4] at this
    exact .step r9 this
  refine ⟨_, r10, rfl, by with_unfolding_all rfl, ?_⟩
  have o5 : (finishB exEnv exQ exH7).1 = .panic := by with_unfolding_all rfl
  have := CStep.finish (E := exEnv) (h := exH7) (pre := []) (post := []) (t := exT) (a := 0) (q := exQ) (k := false) (fin := true) (refs := [.visitor exV])
  rw [o5] at this
  obtain ⟨h, pre, t, a, q, k, refs, post, -, -, e⟩ := C67_panic exEnv_lawful r10 this
  rw [e] at this
  exact this

end

end Miniserde
