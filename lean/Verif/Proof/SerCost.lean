import Verif.Proof.Compact
import Verif.Spec.SerCost

/-!
# Counting the calls of a serialization
-/

namespace Miniserde

section
variable {σ : Type} {P : SProto σ}

/-- The counters after a value has been streamed. -/
def SMeter.after (μ : SMeter) (t : FTree) : SMeter :=
  ⟨μ.begins + t.nodes, μ.nexts + (t.nodes - 1 + t.containers), μ.live, max μ.peak (μ.live + t.depth)⟩

/-- ... the rest of a sequence. -/
def SMeter.afterL (μ : SMeter) (ts : List FTree) : SMeter :=
  ⟨μ.begins + FTree.nodesL ts, μ.nexts + (FTree.nodesL ts + FTree.containersL ts + 1), μ.live, max μ.peak (μ.live + FTree.depthL ts)⟩

/-- ... the rest of a map. -/
def SMeter.afterM (μ : SMeter) (ts : List (Bytes × FTree)) : SMeter :=
  ⟨μ.begins + FTree.nodesM ts, μ.nexts + (FTree.nodesM ts + FTree.containersM ts + 1), μ.live, max μ.peak (μ.live + FTree.depthM ts)⟩

theorem FTree.nodes_pos (t : FTree) : 0 < t.nodes := by cases t <;> simp [FTree.nodes]

theorem leaf_counts {Q M : Type} {f : Frag Q M} {t : FTree} (h : LeafFrag f t) (μ : SMeter) (hp : μ.live ≤ μ.peak) : μ.begun (some f) = μ.after t := by
  cases h <;> simp [SMeter.begun, SMeter.after, FTree.nodes, FTree.containers, FTree.depth] <;> omega

mutual

theorem Streams.metered : ∀ {s : P.S} {w : σ} {t : FTree} {w' : σ}, Streams P s w t w' → ∀ μ : SMeter, μ.live ≤ μ.peak →
    Streams P.metered s (w, μ) t (w', μ.after t)
  | s, w, t, w', .leaf h hl, μ, hp => by
    refine .leaf (P := P.metered) ?_ hl
    simp only [SProto.metered, h]
    rw [leaf_counts hl μ hp]
  | s, w, _, _, .seq (q := q) (w₁ := w₁) (ts := ts) (w₂ := w₂) h hs, μ, hp => by
    have h1 := StreamsSeq.metered hs (μ.begun (some (.seq q : Frag P.Q P.M))) (by simp [SMeter.begun]; omega)
    have e : (P.dropSeq q w₂, μ.after (.seq ts)) = P.metered.dropSeq q (w₂, (μ.begun (some (.seq q : Frag P.Q P.M))).afterL ts) := by
      simp only [SProto.metered, SMeter.begun, SMeter.after, SMeter.afterL, SMeter.drops, FTree.nodes, FTree.containers, FTree.depth, Prod.mk.injEq,
        SMeter.mk.injEq, true_and]
      omega
    rw [e]
    refine .seq (P := P.metered) ?_ h1
    simp only [SProto.metered, h]
  | s, w, _, _, .map (m := q) (w₁ := w₁) (ms := ts) (w₂ := w₂) h hs, μ, hp => by
    have h1 := StreamsMap.metered hs (μ.begun (some (.map q : Frag P.Q P.M))) (by simp [SMeter.begun]; omega)
    have e : (P.dropMap q w₂, μ.after (.map ts)) = P.metered.dropMap q (w₂, (μ.begun (some (.map q : Frag P.Q P.M))).afterM ts) := by
      simp only [SProto.metered, SMeter.begun, SMeter.after, SMeter.afterM, SMeter.drops, FTree.nodes, FTree.containers, FTree.depth, Prod.mk.injEq,
        SMeter.mk.injEq, true_and]
      omega
    rw [e]
    refine .map (P := P.metered) ?_ h1
    simp only [SProto.metered, h]

theorem StreamsSeq.metered : ∀ {q : P.Q} {w : σ} {ts : List FTree} {w' : σ}, StreamsSeq P q w ts w' → ∀ μ : SMeter, μ.live ≤ μ.peak →
    StreamsSeq P.metered q (w, μ) ts (w', μ.afterL ts)
  | q, w, _, w', .nil h, μ, hp => by
    refine .nil (P := P.metered) ?_
    simp only [SProto.metered, h, SMeter.asked, SMeter.afterL, FTree.nodesL, FTree.containersL, FTree.depthL, Prod.mk.injEq, true_and]
    cases μ
    simp at hp ⊢
    omega
  | q, w, _, w', .cons (t := t) (ts := ts) h ht hs, μ, hp => by
    have h1 := Streams.metered ht μ.asked (by simpa [SMeter.asked] using hp)
    have h2 := StreamsSeq.metered hs (μ.asked.after t) (by simp [SMeter.asked, SMeter.after]; omega)
    have hn := t.nodes_pos
    have e : μ.afterL (t :: ts) = (μ.asked.after t).afterL ts := by
      simp only [SMeter.asked, SMeter.after, SMeter.afterL, FTree.nodesL, FTree.containersL, FTree.depthL, SMeter.mk.injEq, true_and]
      omega
    rw [e]
    refine .cons (P := P.metered) ?_ h1 h2
    simp only [SProto.metered, h]

theorem StreamsMap.metered : ∀ {q : P.M} {w : σ} {ts : List (Bytes × FTree)} {w' : σ}, StreamsMap P q w ts w' → ∀ μ : SMeter, μ.live ≤ μ.peak →
    StreamsMap P.metered q (w, μ) ts (w', μ.afterM ts)
  | q, w, _, w', .nil h, μ, hp => by
    refine .nil (P := P.metered) ?_
    simp only [SProto.metered, h, SMeter.asked, SMeter.afterM, FTree.nodesM, FTree.containersM, FTree.depthM, Prod.mk.injEq, true_and]
    cases μ
    simp at hp ⊢
    omega
  | q, w, _, w', .cons (k := k) (t := t) (ts := ts) h ht hs, μ, hp => by
    have h1 := Streams.metered ht μ.asked (by simpa [SMeter.asked] using hp)
    have h2 := StreamsMap.metered hs (μ.asked.after t) (by simp [SMeter.asked, SMeter.after]; omega)
    have hn := t.nodes_pos
    have e : μ.afterM ((k, t) :: ts) = (μ.asked.after t).afterM ts := by
      simp only [SMeter.asked, SMeter.after, SMeter.afterM, FTree.nodesM, FTree.containersM, FTree.depthM, SMeter.mk.injEq, true_and]
      omega
    rw [e]
    refine .cons (P := P.metered) ?_ h1 h2
    simp only [SProto.metered, h]

end
end

/-! ## Counts against the length of the text -/

theorem numlit_pos {l : NumLit} (h : l.WF) : 0 < l.text.length := by
  have := h.int_digits.1
  have : 0 < l.int.length := List.length_pos_iff.2 this
  unfold NumLit.text
  simp
  omega

section
variable {ryu : F64 → Bytes} {lit : F64 → NumLit}

mutual
theorem FTree.counts_le (hr : RyuSyntax ryu lit) : ∀ t : FTree, t.nodes + t.containers ≤ (compact (t.json lit)).length
  | .null => by simp [FTree.nodes, FTree.containers, FTree.json, compact]
  | .bool b => by cases b <;> simp [FTree.nodes, FTree.containers, FTree.json, compact]
  | .str s => by simp [FTree.nodes, FTree.containers, FTree.json, compact, quoted]
  | .u64 n => by
    have := numlit_pos (decimal_wf false n)
    simp only [FTree.nodes, FTree.containers, FTree.json, compact]; omega
  | .i64 z => by
    have := numlit_pos (decimal_wf (decide (z < 0)) z.natAbs)
    simp only [FTree.nodes, FTree.containers, FTree.json, compact]; omega
  | .f64 x => by
    rw [FTree.json]
    split
    · rename_i h
      have := numlit_pos (hr.wf x h)
      simp only [FTree.nodes, FTree.containers, compact]; omega
    · simp [FTree.nodes, FTree.containers, compact]
  | .seq ts => by
    have := FTree.countsL_le hr ts
    simp only [FTree.nodes, FTree.containers, FTree.json, compact, List.length_cons, List.length_append, List.length_nil]
    omega
  | .map ts => by
    have := FTree.countsM_le hr ts
    simp only [FTree.nodes, FTree.containers, FTree.json, compact, List.length_cons, List.length_append, List.length_nil]
    omega

theorem FTree.countsL_le (hr : RyuSyntax ryu lit) : ∀ ts : List FTree, nodesL ts + containersL ts ≤ (compactElems (jsons lit ts)).length
  | [] => by simp [nodesL, containersL]
  | [t] => by
    have := FTree.counts_le hr t
    simp only [nodesL, containersL, jsons, compactElems]
    omega
  | t :: t' :: ts => by
    have h1 := FTree.counts_le hr t
    have h2 := FTree.countsL_le hr (t' :: ts)
    rw [nodesL, containersL, jsons]
    rw [jsons] at h2 ⊢
    simp only [compactElems, List.length_append, List.length_cons] at h2 ⊢
    omega

theorem FTree.countsM_le (hr : RyuSyntax ryu lit) : ∀ ts : List (Bytes × FTree), nodesM ts + containersM ts ≤ (compactMembers (jsonMembers lit ts)).length
  | [] => by simp [nodesM, containersM]
  | [(k, t)] => by
    have := FTree.counts_le hr t
    simp only [nodesM, containersM, jsonMembers, compactMembers, List.length_append, List.length_cons]
    omega
  | (k, t) :: (k', t') :: ts => by
    have h1 := FTree.counts_le hr t
    have h2 := FTree.countsM_le hr ((k', t') :: ts)
    rw [nodesM, containersM, jsonMembers]
    rw [jsonMembers] at h2 ⊢
    simp only [compactMembers, List.length_append, List.length_cons] at h2 ⊢
    omega
end
end

mutual
theorem FTree.depth_le : ∀ t : FTree, t.depth ≤ t.containers
  | .null | .bool _ | .str _ | .u64 _ | .i64 _ | .f64 _ => by simp [FTree.depth]
  | .seq ts => by have := FTree.depthL_le ts; simp only [FTree.depth, FTree.containers]; omega
  | .map ts => by have := FTree.depthM_le ts; simp only [FTree.depth, FTree.containers]; omega

theorem FTree.depthL_le : ∀ ts : List FTree, depthL ts ≤ containersL ts
  | [] => by simp [depthL]
  | t :: ts => by have := FTree.depth_le t; have := FTree.depthL_le ts; simp only [depthL, containersL]; omega

theorem FTree.depthM_le : ∀ ts : List (Bytes × FTree), depthM ts ≤ containersM ts
  | [] => by simp [depthM]
  | (_, t) :: ts => by have := FTree.depth_le t; have := FTree.depthM_le ts; simp only [depthM, containersM]; omega
end

end Miniserde
