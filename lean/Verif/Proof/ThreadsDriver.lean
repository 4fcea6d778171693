import Verif.Proof.ThreadsDrive

/-!
# The disturbed program of `from_str` = the driver with disturbed visitors
-/

namespace Miniserde.Threads
open Miniserde
variable (E : Env)

def conv : LayerP → Layer (protoJ E)
  | .seq q => .seq q
  | .map q => .map q

def convF (f : FrameP) : Frame (protoJ E) := (f.1, conv E f.2)

def convX : ExitP → LoopExit (protoJ E)
  | .child d v l st => .child d v (conv E l) (st.map (convF E))
  | .done d => .done d

theorem drop_conv (l : LayerP) (w : W) : runJ (dropP l.box) w = ((), (conv E l).drop w) := by cases l <;> rfl

theorem dropStack_conv : ∀ (st : List FrameP) (w : W), runJ (dropStackP st) w = ((), dropStack (st.map (convF E)) w)
  | [], w => rfl
  | f :: st, w => by
    rw [dropStackP, runJ_bind, drop_conv E, dropStack_conv st]; rfl

theorem unwind_conv {α : Type} (l : LayerP) (st : List FrameP) (r : Res α) (w : W) :
    runJ (unwindP l st r) w = (r, dropStack (st.map (convF E)) ((conv E l).drop w)) := by
  rw [unwindP, runJ_bind, drop_conv E, runJ_bind, dropStack_conv E]; rfl

theorem visit_conv (v : VH) (ev : Event) (w : W) :
    visitEvent (protoJ E) v ev w =
      ((runJ (visitEventP E v ev) w).1.map (Option.map (conv E)), (runJ (visitEventP E v ev) w).2) := by
  cases ev <;> simp only [visitEvent, visitEventP, runJ_bind, runJ, Res.map, Res.bind] <;>
    split <;> rename_i e <;> simp only [Option.map_none, Option.map_some, conv]

theorem finishLayer_conv (c : UInt8) (l : LayerP) (w : W) :
    finishLayer (protoJ E) c (conv E l) w = runJ (finishLayerP E c l) w := by
  cases l <;> simp only [finishLayer, finishLayerP, conv] <;> split <;> rfl

theorem closeLoop_conv : ∀ (st : List FrameP) (d : De) (ac : Bool) (v : VH) (l : LayerP) (w : W),
    closeLoop (protoJ E) d ac v (conv E l) (st.map (convF E)) w =
      ((runJ (closeLoopP E d ac v l st) w).1.map (convX E), (runJ (closeLoopP E d ac v l st) w).2) := by
  intro st
  induction st with
  | nil =>
    intro d ac v l w
    rw [closeLoop.eq_def, closeLoopP.eq_def]
    generalize d.parseWhitespace = pw
    obtain ⟨peek, d⟩ := pw
    simp only
    split
    · rfl
    split
    · rw [finishLayer_conv E, runJ_bind]
      generalize runJ (finishLayerP E (peek.getD 0) l) w = z
      obtain ⟨r, w1⟩ := z
      cases r with
      | ok u => simp only [runJ_bind, drop_conv E]; rfl
      | err => simp only [unwind_conv E, Res.fail]; rfl
      | panic => simp only [unwind_conv E, Res.fail]; rfl
    split
    · simp only [unwind_conv E]; rfl
    · rfl
  | cons f st ih =>
    intro d ac v l w
    rw [closeLoop.eq_def, closeLoopP.eq_def]
    generalize d.parseWhitespace = pw
    obtain ⟨peek, d⟩ := pw
    simp only
    split
    · rfl
    split
    · rw [finishLayer_conv E, runJ_bind]
      generalize runJ (finishLayerP E (peek.getD 0) l) w = z
      obtain ⟨r, w1⟩ := z
      cases r with
      | ok u =>
        simp only [runJ_bind, drop_conv E]
        exact ih d.bump true f.1 f.2 _
      | err => simp only [unwind_conv E, Res.fail]; rfl
      | panic => simp only [unwind_conv E, Res.fail]; rfl
    split
    · simp only [unwind_conv E]; rfl
    · rfl

def convC (x : De × VH × List FrameP) : De × (protoJ E).V × List (Frame (protoJ E)) := (x.1, x.2.1, x.2.2.map (convF E))

theorem openChild_conv (d : De) (v : VH) (l : LayerP) (st : List FrameP) (w : W) :
    openChild (protoJ E) d v (conv E l) (st.map (convF E)) w =
      ((runJ (openChildP E d v l st) w).1.map (convC E), (runJ (openChildP E d v l st) w).2) := by
  cases l with
  | seq q =>
    rw [openChildP, runJ_bind]
    simp only [openChild, conv]
    generalize runJ (childP E q none) w = z
    obtain ⟨r, w1⟩ := z
    cases r with
    | ok u => rfl
    | err => simp only [unwind_conv E, Res.fail]; rfl
    | panic => simp only [unwind_conv E, Res.fail]; rfl
  | map q =>
    rw [openChildP]
    simp only [openChild, conv]
    generalize d.parseWhitespace = pw
    obtain ⟨peek, d⟩ := pw
    simp only
    split
    · generalize d.bump.parseStr = ps
      rcases ps with ⟨k, d2⟩ | _ | _
      · simp only
        rw [runJ_bind]
        generalize runJ (childP E q (some k)) w = z
        obtain ⟨r, w1⟩ := z
        cases r with
        | ok u =>
          simp only
          generalize d2.parseWhitespace = pw
          obtain ⟨peek, d⟩ := pw
          simp only
          split
          · rfl
          · simp only [unwind_conv E]; rfl
        | err => simp only [unwind_conv E, Res.fail]; rfl
        | panic => simp only [unwind_conv E, Res.fail]; rfl
      · simp only [unwind_conv E, Res.fail]; rfl
      · simp only [unwind_conv E, Res.fail]; rfl
    · simp only [unwind_conv E]; rfl

/-- What the program of the `'outer` loop returns, in the form of `outerLoop`. -/
def asLoop (z : Option (Res Unit) × W) : Option (Res Unit × W) := z.1.map fun r => (r, z.2)

theorem outerLoop_conv : ∀ (fuel : Nat) (d : De) (v : VH) (st : List FrameP) (w : W),
    outerLoop (protoJ E) fuel d v (st.map (convF E)) w = asLoop (runJ (outerLoopP E fuel d v st) w) := by
  intro fuel
  induction fuel with
  | zero => intro d v st w; rfl
  | succ fuel ih =>
    intro d v st w
    rw [outerLoop.eq_def, outerLoopP.eq_def]
    simp only
    generalize d.event = ev
    rcases ev with ⟨ev, d⟩ | _ | _
    · simp only
      rw [visit_conv E, runJ_bind]
      generalize runJ (visitEventP E v ev) w = z
      obtain ⟨r, w1⟩ := z
      cases r with
      | ok layer? =>
        simp only [Res.map_ok]
        rw [runJ_bind]
        cases layer? with
        | some l =>
            have ha := closeLoop_conv E st d false v l w1
            simp only [Option.map_some, afterEventP]
            rw [ha]
            generalize runJ (closeLoopP E d false v l st) w1 = z
            rcases z with ⟨(⟨d, v, l, st⟩ | d) | _ | _, w1⟩
            · simp only [Res.map_ok, convX]
              rw [openChild_conv E, runJ_bind]
              generalize runJ (openChildP E d v l st) w1 = z
              obtain ⟨r, w1⟩ := z
              rcases r with ⟨d, v, st⟩ | _ | _
              · exact ih d v st w1
              · rfl
              · rfl
            · rfl
            · rfl
            · rfl
        | none =>
          cases st with
          | nil => rfl
          | cons f st =>
            have ha := closeLoop_conv E st d true f.1 f.2 w1
            simp only [Option.map_none, afterEventP, List.map_cons]
            have ha' : closeLoop (protoJ E) d true (convF E f).1 (convF E f).2 (st.map (convF E)) w1 = _ := ha
            rw [ha']
            generalize runJ (closeLoopP E d true f.1 f.2 st) w1 = z
            rcases z with ⟨(⟨d, v, l, st⟩ | d) | _ | _, w1⟩
            · simp only [Res.map_ok, convX]
              rw [openChild_conv E, runJ_bind]
              generalize runJ (openChildP E d v l st) w1 = z
              obtain ⟨r, w1⟩ := z
              rcases r with ⟨d, v, st⟩ | _ | _
              · exact ih d v st w1
              · rfl
              · rfl
            · rfl
            · rfl
            · rfl
      | err => simp only [runJ_bind, dropStack_conv E]; rfl
      | panic => simp only [runJ_bind, dropStack_conv E]; rfl
    · simp only [runJ_bind, dropStack_conv E]; rfl
    · simp only [runJ_bind, dropStack_conv E]; rfl

/-! ## `from_str` -/

/-- The traversal `x` of the tokens, with `o` what is left after it, as the result of `from_str`. -/
theorem fromStr_res (s : Bytes) (t : Ty) {x : PT} {o : Option De} (p : PVal (initDe s) x o) :
    (fromStr E t s).map Prod.fst = some ((outcome o ((run E x t).map (fun _ => ()), ())).1.bind fun _ => run E x t) := by
  obtain ⟨h', e, hp⟩ := drive_place E x (t := t) (p := ⟨0, 0, 0⟩) init_good init_valid
  have e' : fromStrImpl (lib E) s (VH.place t ⟨0, 0, 0⟩) Heap.init =
      some (outcome o ((run E x t).map (fun _ => ()), h')) :=
    (fromStrImpl_eq (lib E) p (s.length + 1) (Nat.lt_succ_self _) _ _).trans (congrArg (fun z => some (outcome o z)) e)
  cases hr : run E x t with
  | panic =>
    rw [hr] at e' hp
    obtain ⟨h, h1, h2⟩ := fromStr_of E e' (by intro h; cases o <;> cases h) hp
    rw [h2]; cases o <;> rfl
  | err =>
    rw [hr] at e' hp
    obtain ⟨h, h1, h2⟩ := fromStr_of E e' (by simp) hp
    rw [h2]; cases o <;> rfl
  | ok v =>
    rw [hr] at e' hp
    cases o with
    | none =>
      obtain ⟨h, h1, h2⟩ := fromStr_of E e' (by simp) hp
      rw [h2]; rfl
    | some d =>
      obtain ⟨h, h1, h2⟩ := fromStr_of E e' (fun _ => ⟨v, rfl⟩) hp
      rw [h2]; rfl

/-- Nothing is allocated and nothing went wrong. -/
structure Empty (h : Heap) : Prop where
  mem : h.mem = fun _ => none
  fault : h.fault = false

theorem free_slot {h : Heap} {a : Nat} {c : Option Val} (hm : h.mem = Mem.set (fun _ => none) a (some (.slot c))) (hf : h.fault = false) {w : W} (e : Eqv h w.1) {α : Type} (r : α) :
    ∃ w', runJ (.free a (.ret r)) w = (r, w') ∧ Empty w'.1 := by
  obtain ⟨w2, f1, f2⟩ := runJ_free (a := a) (k := .ret r) e
  refine ⟨w2, f1, ?_⟩
  have : h.free a = { h with mem := fun _ => none } := by
    simp only [Heap.free, hm, Mem.set_same]
    rw [Mem.set_set, Mem.set_eq_self _ rfl]
  rw [this] at f2
  exact ⟨f2.mem, f2.fault.trans hf⟩

/-- However a thread is disturbed, it returns what it returns alone, and leaves nothing behind. -/
theorem fromStrP_run (s : Bytes) (t : Ty) {w : W} (he : Empty w.1) :
    ∃ w', runJ (fromStrP E t s) w = ((fromStr E t s).map Prod.fst, w') ∧ Empty w'.1 := by
  obtain ⟨x, o, p⟩ := (parse_total (initDe s).rem).1 (initDe s) (Nat.le_refl _)
  rw [fromStr_res E s t p, fromStrP, runJ, runJ_bind]
  have g0 : w.1.Good := ⟨he.fault, fun a _ => by rw [he.mem]⟩
  generalize hout : ((tick w).alloc (.slot none)).1 = out
  generalize hw1 : ((((tick w).alloc (.slot none)).2, w.2.tail) : W) = w1
  have g1 : w1.1.Good := by subst hw1; exact alloc_good (good_tick g0) _
  have hm1 : w1.1.mem = Mem.set (fun _ => none) out (some (.slot none)) := by
    subst hw1 hout; simp only [Heap.alloc]; rw [show (tick w).mem = w.1.mem from rfl, he.mem]
  have hs1 : w1.1.mem out = some (.slot none) := by rw [hm1]; simp
  obtain ⟨w2, e, hp⟩ := drive_placeJ E x (t := t) (p := ⟨out, 0, 0⟩) g1 ⟨_, slot_read hs1⟩
  have e' : outerLoop (protoJ E) (s.length + 1) { input := s, pos := 0, buffer := [] } (VH.place t ⟨out, 0, 0⟩) [] w1 =
      some (outcome o ((run E x t).map (fun _ => ()), w2)) :=
    (fromStrImpl_eq (protoJ E) p (s.length + 1) (Nat.lt_succ_self _) _ _).trans (congrArg (fun z => some (outcome o z)) e)
  have c := outerLoop_conv E (s.length + 1) { input := s, pos := 0, buffer := [] } (VH.place t ⟨out, 0, 0⟩) [] w1
  rw [List.map_nil] at c
  rw [c] at e'
  generalize runJ (outerLoopP E (s.length + 1) { input := s, pos := 0, buffer := [] } (VH.place t ⟨out, 0, 0⟩) []) w1 = z at e' ⊢
  obtain ⟨c, hc1, hc2⟩ := hp.mem
  have hm2 : w2.1.mem = Mem.set (fun _ => none) out (some (.slot c)) := by
    rw [slot_write c hs1, hm1, Mem.set_set] at hc1
    exact (Option.some.inj hc1).symm
  have hf2 := hp.noFault
  obtain ⟨ro, wz⟩ := z
  cases ro with
  | none => cases e'
  | some r =>
    simp only [asLoop, Option.map_some, Option.some.injEq] at e'
    cases hr : run E x t with
    | panic =>
      rw [hr] at e'
      have : (r, wz) = (.panic, w2) := by rw [e']; cases o <;> rfl
      cases this
      obtain ⟨w3, k1, k2⟩ := free_slot hm2 hf2 (Eqv.refl w2.1) (some (Res.panic : Res Val))
      exact ⟨w3, by cases o <;> exact k1, k2⟩
    | err =>
      rw [hr] at e'
      have : (r, wz) = (.err, w2) := by rw [e']; cases o <;> rfl
      cases this
      obtain ⟨w3, k1, k2⟩ := free_slot hm2 hf2 (Eqv.refl w2.1) (some (Res.err : Res Val))
      exact ⟨w3, by cases o <;> exact k1, k2⟩
    | ok v =>
      rw [hr] at e'
      have hcv := hc2 v hr
      subst hcv
      have hrd : w2.1.mem.read ⟨out, 0, 0⟩ = some (some v) := slot_read (by rw [hm2]; simp)
      have ok : ∀ {q : Res Unit}, q = .ok () → ∃ w', runJ (match (some q : Option (Res Unit)) with
          | none => .ret none
          | some (.ok _) =>
            (readP ⟨out, 0, 0⟩).bind fun c =>
              match c with
              | some (some v) => (writeP ⟨out, 0, 0⟩ none).bind fun _ => .free out (.ret (some (Res.ok v)))
              | some none => .free out (.ret (some .err))
              | none => .fault (.free out (.ret (some .panic)))
          | some .err => .free out (.ret (some .err))
          | some .panic => .free out (.ret (some .panic))) w2 = (some (.ok v), w') ∧ Empty w'.1 := by
        rintro q rfl
        simp only
        rw [runJ_bind]
        obtain ⟨w3, k1, k2, -⟩ := read_same ⟨out, 0, 0⟩ (Eqv.refl w2.1)
        rw [k1, hrd]
        simp only
        rw [runJ_bind]
        obtain ⟨w4, l1, l2⟩ := write_same ⟨out, 0, 0⟩ none (k2 _ hrd)
        rw [l1]
        have hwr : w2.1.write ⟨out, 0, 0⟩ none = { w2.1 with mem := Mem.set (fun _ => none) out (some (.slot none)) } := by
          apply heap_write_eq
          rw [slot_write (c := some v) none (by rw [hm2]; simp), hm2, Mem.set_set]
        rw [hwr] at l2
        exact free_slot (h := { w2.1 with mem := Mem.set (fun _ => none) out (some (.slot none)) }) rfl hf2 l2 _
      cases o with
      | none =>
        cases e'
        obtain ⟨w3, k1, k2⟩ := free_slot hm2 hf2 (Eqv.refl w2.1) (some (Res.err : Res Val))
        exact ⟨w3, k1, k2⟩
      | some d =>
        have : (r, wz) = (trailing d, w2) := e'
        obtain ⟨h1, h2⟩ := Prod.mk.inj this
        rw [h1, h2]
        simp only [outcome, Res.map_ok]
        have ht : trailing d = .ok () ∨ trailing d = .err := by
          unfold trailing; split
          · exact .inr rfl
          · exact .inl rfl
        rcases ht with ht | ht
        · obtain ⟨w3, k1, k2⟩ := ok ht
          refine ⟨w3, ?_, k2⟩
          rw [ht] at k1 ⊢
          exact k1
        · rw [ht]
          obtain ⟨w3, k1, k2⟩ := free_slot hm2 hf2 (Eqv.refl w2.1) (some (Res.err : Res Val))
          exact ⟨w3, k1, k2⟩

end Miniserde.Threads
