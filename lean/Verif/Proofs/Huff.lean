import Verif.Proofs.Simple

/-! The splits and codes of the Huffman-like encodings. -/

set_option linter.unusedSimpArgs false
set_option linter.unusedVariables false

namespace Tokens
open Spec TokenSet OptimizeBytes

/-- The leaves of a node, in order. -/
def leaves : HuffmanNode → Counts
  | .leaf c ch => [(ch, c)]
  | .internal _ a b => leaves a ++ leaves b

/-- Strictly ordered by byte, all counts positive. -/
structure Ordered (l : Counts) : Prop where
  sorted : l.Pairwise (fun a b => a.1 < b.1)
  pos : ∀ p ∈ l, 0 < p.2

theorem Ordered.sublist {l l' : Counts} (h : Ordered l) (hs : l'.Sublist l) : Ordered l' :=
  ⟨h.sorted.sublist hs, fun p hp => h.pos p (hs.mem hp)⟩

theorem leaves_ne (n : HuffmanNode) : leaves n ≠ [] := by
  induction n with
  | leaf => simp [leaves]
  | internal c a b ha hb => simp [leaves, ha]

theorem node_spec (n : HuffmanNode) (hs : (leaves n).Pairwise (fun a b => a.1 < b.1)) :
    (∃ p rest, leaves n = p :: rest ∧ (nodeToSplit n).lo = p.1) ∧
    ((nodeToSplit n).top, (nodeToSplit n).topCount) ∈ leaves n ∧
    ∀ q ∈ leaves n, q.2 ≤ (nodeToSplit n).topCount := by
  induction n with
  | leaf c ch => simp [leaves, nodeToSplit]
  | internal c a b ha hb =>
    simp only [leaves] at hs ⊢
    rw [List.pairwise_append] at hs
    obtain ⟨⟨p, r, ea, la⟩, ta, ma⟩ := ha hs.1
    obtain ⟨⟨q, r', eb, lb⟩, tb, mb⟩ := hb hs.2.1
    have hlt : p.1 < q.1 := hs.2.2 p (by rw [ea]; simp) q (by rw [eb]; simp)
    have hle : (nodeToSplit a).lo ≤ (nodeToSplit b).lo := by
      rw [la, lb]; exact UInt8.le_of_lt hlt
    refine ⟨⟨p, r ++ leaves b, by rw [ea]; rfl, ?_⟩, ?_, ?_⟩
    · simp only [nodeToSplit]
      rw [if_pos hle, la]
    · simp only [nodeToSplit]
      by_cases h : (nodeToSplit a).topCount > (nodeToSplit b).topCount
      · rw [if_pos h]; exact List.mem_append_left _ ta
      · rw [if_neg h]; exact List.mem_append_right _ tb
    · intro x hx
      simp only [nodeToSplit]
      have : x.2 ≤ (nodeToSplit a).topCount ∨ x.2 ≤ (nodeToSplit b).topCount := by
        rcases List.mem_append.1 hx with h | h
        · exact .inl (ma x h)
        · exact .inr (mb x h)
      by_cases h : (nodeToSplit a).topCount > (nodeToSplit b).topCount
      · rw [if_pos h]; simp only; omega
      · rw [if_neg h]; simp only; omega

theorem bestPair_some (l : List HuffmanNode) : ∀ (i : Nat) (best : Option (Nat × Nat)) (n : Nat),
    i + l.length ≤ n → (∀ j m, best = some (j, m) → j + 1 < n) → (best = none → 2 ≤ l.length) →
    ∃ j m, bestPair l i best = some (j, m) ∧ j + 1 < n := by
  induction l with
  | nil =>
    intro i best n _ h1 h2
    cases best with
    | none => exact absurd (h2 rfl) (by simp)
    | some p => exact ⟨p.1, p.2, by rw [bestPair]; intros; contradiction, h1 _ _ rfl⟩
  | cons a l ih =>
    intro i best n hn h1 h2
    cases l with
    | nil =>
      cases best with
      | none => exact absurd (h2 rfl) (by simp)
      | some p => exact ⟨p.1, p.2, by rw [bestPair]; intros; simp_all, h1 _ _ rfl⟩
    | cons b l =>
      rw [show bestPair (a :: b :: l) i best = bestPair (b :: l) (i + 1) (match best with
        | none => some (i, a.count + b.count)
        | some (j, m) => if a.count + b.count < m then some (i, a.count + b.count) else some (j, m)) by
          cases best <;> simp only [bestPair]]
      simp only [List.length_cons] at hn ih
      cases best with
      | none =>
        refine ih (i + 1) (some (i, a.count + b.count)) n (by omega) ?_ (by simp)
        intro j m he
        simp at he
        omega
      | some p =>
        refine ih (i + 1) (if a.count + b.count < p.2 then some (i, a.count + b.count) else some (p.1, p.2))
          n (by omega) ?_ ?_
        · intro j m he
          by_cases hc : a.count + b.count < p.2
          · simp [hc] at he; omega
          · simp [hc] at he
            exact h1 j m (by rw [← he.1, ← he.2])
        · intro he
          by_cases hc : a.count + b.count < p.2 <;> simp [hc] at he

theorem mergeAt_spec {nodes : List HuffmanNode} {i : Nat} (h : i + 1 < nodes.length) :
    ∃ nodes', mergeAt nodes i = .ok nodes' ∧ nodes'.length + 1 = nodes.length ∧
      nodes'.flatMap leaves = nodes.flatMap leaves := by
  have e : nodes = nodes.take i ++ nodes[i] :: nodes[i + 1] :: nodes.drop (i + 2) := by
    rw [← List.drop_eq_getElem_cons h, ← List.drop_eq_getElem_cons (show i < nodes.length by omega)]
    exact (List.take_append_drop i nodes).symm
  generalize hx : nodes[i] = x at e
  generalize hy : nodes[i + 1] = y at e
  have hl : (nodes.take i).length = i := by rw [List.length_take]; omega
  generalize nodes.take i = a at *
  generalize nodes.drop (i + 2) = b at *
  subst hl
  refine ⟨a ++ .internal (x.count + y.count) x y :: b, ?_, ?_, ?_⟩
  · unfold mergeAt
    rw [getR_of (show nodes[a.length]? = some x by rw [e]; simp)]
    simp only [R.ok_bind]
    rw [getR_of (show nodes[a.length + 1]? = some y by
      rw [e, List.getElem?_append_right (by omega), Nat.add_sub_cancel_left]; rfl)]
    simp only [R.ok_bind]
    rw [e]
    rw [List.eraseIdx_append_of_length_le (by omega), List.set_append_right _ _ (by
      exact Nat.le_refl _)]
    simp
  · rw [e]; simp; omega
  · rw [e]; simp [leaves]

theorem mergeLoop_spec {parts : Nat} (hp : 1 ≤ parts) : ∀ (fuel : Nat) (nodes : List HuffmanNode),
    nodes.length ≤ fuel →
    ∃ nodes', mergeLoop parts fuel nodes = .ok nodes' ∧
      nodes'.length = min parts nodes.length ∧
      nodes'.flatMap leaves = nodes.flatMap leaves := by
  intro fuel
  induction fuel with
  | zero =>
    intro nodes h
    refine ⟨nodes, ?_, by omega, rfl⟩
    rw [mergeLoop, if_neg (by omega)]
  | succ fuel ih =>
    intro nodes h
    rw [mergeLoop]
    by_cases hl : nodes.length > parts
    · rw [if_pos hl]
      obtain ⟨j, m, hb, hj⟩ := bestPair_some nodes 0 none nodes.length (by omega) (by simp) (by omega)
      obtain ⟨n1, h1, h2, h3⟩ := mergeAt_spec hj
      obtain ⟨n2, h4, h5, h6⟩ := ih n1 (by omega)
      refine ⟨n2, ?_, by omega, h6.trans h3⟩
      rw [hb]
      simp only [unwrapR, R.ok_bind]
      rw [h1]
      exact h4
    · rw [if_neg hl]
      exact ⟨nodes, rfl, by omega, rfl⟩

/-- The splits come from nodes whose leaves are the counts, in order. -/
theorem optimizeSplits_spec (counts : Counts) {parts : Nat} (hp : 1 ≤ parts) :
    ∃ nodes : List HuffmanNode, optimizeSplits counts parts = .ok (nodes.map nodeToSplit) ∧
      nodes.length = min parts counts.length ∧ nodes.flatMap leaves = counts := by
  obtain ⟨nodes, h1, h2, h3⟩ := mergeLoop_spec hp counts.length
    (counts.map (fun p => .leaf p.2 p.1)) (by simp)
  refine ⟨nodes, ?_, by simpa using h2, ?_⟩
  · unfold optimizeSplits
    rw [h1]; rfl
  · rw [h3]
    clear h1 h2 h3
    induction counts with
    | nil => rfl
    | cons p l ih => simp [leaves, ih]

theorem optimizeSplits_zero (counts : Counts) (h : counts ≠ []) :
    ∃ e, optimizeSplits counts 0 = .error e := by
  unfold optimizeSplits
  suffices hh : ∀ (fuel : Nat) (nodes : List HuffmanNode), nodes ≠ [] →
      ∃ e, mergeLoop 0 fuel nodes = .error e by
    obtain ⟨e, he⟩ := hh counts.length (counts.map (fun p => .leaf p.2 p.1)) (by simp [h])
    exact ⟨e, by rw [he]; rfl⟩
  intro fuel
  induction fuel with
  | zero =>
    intro nodes hn
    exact ⟨_, by rw [mergeLoop, if_pos (List.length_pos_iff.2 hn)]⟩
  | succ fuel ih =>
    intro nodes hn
    rw [mergeLoop, if_pos (List.length_pos_iff.2 hn)]
    by_cases h2 : 2 ≤ nodes.length
    · obtain ⟨j, m, hb, hj⟩ := bestPair_some nodes 0 none nodes.length (by omega) (by simp) (by omega)
      obtain ⟨n1, h1, h2, h3⟩ := mergeAt_spec hj
      obtain ⟨e, he⟩ := ih n1 (by intro h; subst h; simp at h2; omega)
      refine ⟨e, ?_⟩
      rw [hb]
      simp only [unwrapR, R.ok_bind]
      rw [h1]
      exact he
    · match nodes, hn, h2 with
      | [x], _, _ => exact ⟨_, rfl⟩
      | _ :: _ :: _, _, h2 => simp at h2

/-! ### Searching for a byte -/

theorem not_contains_zero {l : Counts} (h : Ordered l) (ch : UInt8) : l.contains (ch, 0) = false := by
  rw [Bool.eq_false_iff]
  intro hc
  have := h.pos _ (List.contains_iff_mem.1 hc)
  simp at this

theorem searchErr_eq {a b : Counts} {ch : UInt8} {c : Nat} (h : Ordered (a ++ (ch, c) :: b)) :
    searchErr (a ++ (ch, c) :: b) ch = .ok a.length := by
  unfold searchErr
  rw [not_contains_zero h, if_neg (by simp)]
  congr 1
  have hs := h.sorted
  rw [List.pairwise_append, List.pairwise_cons] at hs
  rw [List.filter_append, List.filter_eq_self.2, List.filter_eq_nil_iff.2, List.append_nil]
  · intro p hp
    unfold pairLt
    rcases List.mem_cons.1 hp with rfl | hp
    · simp [UInt8.lt_irrefl]
    · have := hs.2.1.1 p hp
      simp only [Bool.not_eq_true, Bool.or_eq_false_iff, decide_eq_false_iff_not, Bool.and_eq_false_imp]
      refine ⟨UInt8.not_lt.2 (UInt8.le_of_lt this), ?_⟩
      intro he
      simp
  · intro p hp
    unfold pairLt
    have := hs.2.2 p hp (ch, c) (by simp)
    simp only at this
    simp [this]

/-- The bounds of the group of a node. -/
theorem groupBounds_spec {pre : Counts} {n : HuffmanNode} {rest : List HuffmanNode}
    (h : Ordered (pre ++ (leaves n ++ rest.flatMap leaves))) :
    groupBounds (pre ++ (leaves n ++ rest.flatMap leaves)) (nodeToSplit n) (rest.map nodeToSplit).head? =
      .ok (pre.length, pre.length + (leaves n).length) := by
  have hn : Ordered (leaves n) := h.sublist
    ((List.sublist_append_left _ _).trans (List.sublist_append_right _ _))
  obtain ⟨⟨p, r, e, hlo⟩, _, _⟩ := node_spec n hn.sorted
  unfold groupBounds
  have h1 : searchErr (pre ++ (leaves n ++ rest.flatMap leaves)) (nodeToSplit n).lo = .ok pre.length := by
    rw [hlo, e]
    exact searchErr_eq (c := p.2) (by rw [e] at h; exact h)
  rw [h1]
  simp only [R.ok_bind]
  cases rest with
  | nil =>
    simp only [List.map_nil, List.head?_nil, R.ok_bind, List.flatMap_nil, List.append_nil, List.length_append]
  | cons m rest =>
    simp only [List.map_cons, List.head?_cons]
    have hm : Ordered (leaves m) := h.sublist (by
      refine .trans ?_ (List.sublist_append_right _ _)
      refine .trans ?_ (List.sublist_append_right _ _)
      rw [List.flatMap_cons]
      exact List.sublist_append_left _ _)
    obtain ⟨⟨q, r', e', hlo'⟩, _, _⟩ := node_spec m hm.sorted
    have h2 : searchErr (pre ++ (leaves n ++ (m :: rest).flatMap leaves)) (nodeToSplit m).lo =
        .ok (pre.length + (leaves n).length) := by
      rw [hlo', List.flatMap_cons, e', ← List.append_assoc, ← List.length_append]
      rw [List.flatMap_cons, e', ← List.append_assoc] at h
      exact searchErr_eq (c := q.2) h
    rw [h2]
    rfl

/-- The group without its top byte. -/
theorem subCounts_spec {pre post : Counts} {n : HuffmanNode} (h : Ordered (pre ++ (leaves n ++ post))) :
    ∃ a b, leaves n = a ++ ((nodeToSplit n).top, (nodeToSplit n).topCount) :: b ∧
      subCounts (pre ++ (leaves n ++ post)) (nodeToSplit n) pre.length
        (pre.length + (leaves n).length) = .ok (a ++ b) := by
  have hn : Ordered (leaves n) := h.sublist
    ((List.sublist_append_left _ _).trans (List.sublist_append_right _ _))
  obtain ⟨_, ht, _⟩ := node_spec n hn.sorted
  obtain ⟨a, b, e⟩ := List.append_of_mem ht
  refine ⟨a, b, e, ?_⟩
  unfold subCounts sliceR
  rw [if_pos ⟨by omega, by simp⟩]
  simp only [R.ok_bind]
  rw [List.drop_append_of_le_length (Nat.le_refl _), List.drop_length, List.nil_append,
    Nat.add_sub_cancel_left, List.take_append_of_le_length (Nat.le_refl _), List.take_length]
  have hs : searchErr (leaves n) (nodeToSplit n).top = .ok a.length := by
    rw [e] at hn
    conv_lhs => rw [e]
    exact searchErr_eq hn
  rw [hs]
  simp only [R.ok_bind]
  rw [if_pos (by rw [e]; simp), e, List.eraseIdx_append_of_length_le (Nat.le_refl _)]
  simp

end Tokens
