import Verif.Proofs.Huff3

/-! The codes are short: a group without its leader weighs at most three quarters of all. -/

set_option linter.unusedVariables false

namespace Tokens
open Spec TokenSet OptimizeBytes

/-- Along the right edge of a node: everything to the left of the edge weighs at most `m`, part by part. -/
def RightEdge : HuffmanNode → Nat → Prop
  | .leaf _ _, _ => True
  | .internal _ a b, m => a.count ≤ m ∧ RightEdge b m

/-- Along the left edge of a node. -/
def LeftEdge : HuffmanNode → Nat → Prop
  | .leaf _ _, _ => True
  | .internal _ a b, m => b.count ≤ m ∧ LeftEdge a m

theorem RightEdge.mono {n : HuffmanNode} {m m' : Nat} (h : RightEdge n m) (hm : m ≤ m') : RightEdge n m' := by
  induction n with
  | leaf c ch => trivial
  | internal c a b ha hb => exact ⟨Nat.le_trans h.1 hm, hb h.2⟩

theorem LeftEdge.mono {n : HuffmanNode} {m m' : Nat} (h : LeftEdge n m) (hm : m ≤ m') : LeftEdge n m' := by
  induction n with
  | leaf c ch => trivial
  | internal c a b ha hb => exact ⟨Nat.le_trans h.1 hm, ha h.2⟩

/-- What the greedy merging says about a node. -/
def Tight : HuffmanNode → Prop
  | .leaf _ _ => True
  | .internal c a b => c = a.count + b.count ∧ Tight a ∧ Tight b ∧ LeftEdge b a.count ∧ RightEdge a b.count

/-- What the greedy merging says about neighbours. -/
def Row (nodes : List HuffmanNode) : Prop :=
  ∀ l p q r, nodes = l ++ p :: q :: r → RightEdge p q.count ∧ LeftEdge q p.count

def weight (l : Counts) : Nat := (l.map Prod.snd).sum

theorem weight_append (a b : Counts) : weight (a ++ b) = weight a + weight b := by
  unfold weight; rw [List.map_append, List.sum_append]

theorem tight_weight {n : HuffmanNode} (h : Tight n) : weight (leaves n) = n.count := by
  induction n with
  | leaf c ch => simp [leaves, weight, HuffmanNode.count]
  | internal c a b ha hb =>
    rw [leaves, weight_append, ha h.2.1, hb h.2.2.1]
    exact h.1.symm

theorem weight_flatMap {nodes : List HuffmanNode} (h : ∀ n ∈ nodes, Tight n) :
    weight (nodes.flatMap leaves) = (nodes.map HuffmanNode.count).sum := by
  induction nodes with
  | nil => rfl
  | cons n nodes ih =>
    rw [List.flatMap_cons, weight_append, tight_weight (h n (by simp)),
      ih (fun m hm => h m (List.mem_cons_of_mem _ hm))]
    simp

/-- The pair found is the lightest. -/
theorem bestPair_min (l : List HuffmanNode) : ∀ (i : Nat) (best : Option (Nat × Nat)) (j m : Nat),
    bestPair l i best = some (j, m) →
    (best = some (j, m) ∨ ∃ a x y b, l = a ++ x :: y :: b ∧ j = i + a.length ∧ m = x.count + y.count) ∧
    (∀ a x y b, l = a ++ x :: y :: b → m ≤ x.count + y.count) ∧
    (∀ j' m', best = some (j', m') → m ≤ m') := by
  induction l with
  | nil =>
    intro i best j m h
    have : bestPair [] i best = best := by rw [bestPair]; intros; contradiction
    rw [this] at h
    refine ⟨.inl h, ?_, ?_⟩
    · intro a x y b e; simp at e
    · intro j' m' e; rw [h] at e; injection e with e; injection e with e1 e2; omega
  | cons p l ih =>
    cases l with
    | nil =>
      intro i best j m h
      have : bestPair [p] i best = best := by rw [bestPair]; intros; simp_all
      rw [this] at h
      refine ⟨.inl h, ?_, ?_⟩
      · intro a x y b e
        have := congrArg List.length e
        simp at this
        omega
      · intro j' m' e; rw [h] at e; injection e with e; injection e with e1 e2; omega
    | cons q l =>
      intro i best j m h
      rw [show bestPair (p :: q :: l) i best = bestPair (q :: l) (i + 1) (match best with
        | none => some (i, p.count + q.count)
        | some (j, m) => if p.count + q.count < m then some (i, p.count + q.count) else some (j, m)) by
          cases best <;> simp only [bestPair]] at h
      obtain ⟨h1, h2, h3⟩ := ih _ _ _ _ h
      have hhead : m ≤ p.count + q.count := by
        cases best with
        | none => exact h3 i _ rfl
        | some bm =>
          by_cases hc : p.count + q.count < bm.2
          · exact h3 i _ (by simp only; rw [if_pos hc])
          · have := h3 bm.1 bm.2 (by simp only; rw [if_neg hc])
            omega
      refine ⟨?_, ?_, ?_⟩
      · rcases h1 with h1 | ⟨a, x, y, b, e, e1, e2⟩
        · have own : some (i, p.count + q.count) = some (j, m) →
              ∃ a x y b, p :: q :: l = a ++ x :: y :: b ∧ j = i + a.length ∧ m = x.count + y.count := by
            intro e
            injection e with e
            injection e with e1 e2
            exact ⟨[], p, q, l, rfl, by simp [e1], e2.symm⟩
          cases best with
          | none => exact .inr (own h1)
          | some bm =>
            by_cases hc : p.count + q.count < bm.2
            · simp only at h1
              rw [if_pos hc] at h1
              exact .inr (own h1)
            · simp only at h1
              rw [if_neg hc] at h1
              exact .inl h1
        · exact .inr ⟨p :: a, x, y, b, by rw [e]; rfl, by simp only [List.length_cons]; omega, e2⟩
      · intro a x y b e
        cases a with
        | nil =>
          injection e with e1 e2
          injection e2 with e2 e3
          subst e1 e2
          exact hhead
        | cons a0 a =>
          injection e with e1 e2
          exact h2 a x y b e2
      · intro j' m' e
        subst e
        by_cases hc : p.count + q.count < m'
        · omega
        · exact h3 j' m' (by simp only; rw [if_neg hc])

theorem mergeAt_eq (a b : List HuffmanNode) (x y : HuffmanNode) :
    mergeAt (a ++ x :: y :: b) a.length = .ok (a ++ .internal (x.count + y.count) x y :: b) := by
  unfold mergeAt
  rw [getR_of (show (a ++ x :: y :: b)[a.length]? = some x by simp)]
  simp only [R.ok_bind]
  rw [getR_of (show (a ++ x :: y :: b)[a.length + 1]? = some y by
    rw [List.getElem?_append_right (by omega), Nat.add_sub_cancel_left]; rfl)]
  simp only [R.ok_bind]
  rw [List.eraseIdx_append_of_length_le (by omega), List.set_append_right _ _ (Nat.le_refl _)]
  simp

theorem row_merge {a b : List HuffmanNode} {x y : HuffmanNode} (h : Row (a ++ x :: y :: b))
    (hmin : ∀ l p q r, a ++ x :: y :: b = l ++ p :: q :: r → x.count + y.count ≤ p.count + q.count) :
    Row (a ++ .internal (x.count + y.count) x y :: b) := by
  have hz : ∀ q r, b = q :: r → RightEdge (.internal (x.count + y.count) x y) q.count ∧
      LeftEdge q (HuffmanNode.internal (x.count + y.count) x y).count := by
    rintro q r rfl
    have h1 := hmin (a ++ [x]) y q r (by simp)
    have h2 := h (a ++ [x]) y q r (by simp)
    exact ⟨⟨by omega, h2.1⟩, h2.2.mono (by simp only [HuffmanNode.count]; omega)⟩
  intro l p q r e
  rcases List.append_eq_append_iff.1 e with ⟨a', e1, e2⟩ | ⟨c', e1, e2⟩
  · cases a' with
    | nil =>
      injection e2 with e2 e3
      subst e2
      exact hz q r e3
    | cons z a'' =>
      injection e2 with e2 e3
      exact h (a ++ x :: y :: a'') p q r (by rw [e3]; simp)
  · cases c' with
    | nil =>
      injection e2 with e2 e3
      subst e2
      exact hz q r e3.symm
    | cons p' c'' =>
      injection e2 with e2 e3
      subst e2
      cases c'' with
      | nil =>
        injection e3 with e3 e4
        subst e3
        have h1 := hmin l p x (y :: b) (by rw [e1]; simp)
        have h2 := h l p x (y :: b) (by rw [e1]; simp)
        exact ⟨h2.1.mono (by simp only [HuffmanNode.count]; omega), ⟨by omega, h2.2⟩⟩
      | cons q' c =>
        injection e3 with e3 e4
        subst e3
        exact h l p q (c ++ x :: y :: b) (by rw [e1]; simp)

theorem mergeLoop_tight {parts : Nat} : ∀ (fuel : Nat) (nodes out : List HuffmanNode),
    (∀ n ∈ nodes, Tight n) → Row nodes → mergeLoop parts fuel nodes = .ok out →
    (∀ n ∈ out, Tight n) ∧ Row out := by
  intro fuel
  induction fuel with
  | zero =>
    intro nodes out h1 h2 h
    rw [mergeLoop] at h
    split at h
    · cases h
    · have := Except.ok.inj h
      subst this
      exact ⟨h1, h2⟩
  | succ fuel ih =>
    intro nodes out h1 h2 h
    rw [mergeLoop] at h
    split at h
    · cases hb : bestPair nodes 0 none with
      | none => rw [hb] at h; cases h
      | some jm =>
        obtain ⟨j, m⟩ := jm
        rw [hb] at h
        simp only [unwrapR, R.ok_bind] at h
        obtain ⟨h3, h4, _⟩ := bestPair_min nodes 0 none j m hb
        rcases h3 with h3 | ⟨a, x, y, b, e, ej, em⟩
        · cases h3
        subst e
        rw [Nat.zero_add] at ej
        subst ej em
        rw [mergeAt_eq] at h
        simp only [R.ok_bind] at h
        refine ih _ out ?_ (row_merge h2 (fun l p q r e => h4 l p q r e)) h
        intro n hn
        rcases List.mem_append.1 hn with hn | hn
        · exact h1 n (List.mem_append_left _ hn)
        · rcases List.mem_cons.1 hn with rfl | hn
          · have := h2 a x y b rfl
            exact ⟨rfl, h1 x (by simp), h1 y (by simp), this.2, this.1⟩
          · exact h1 n (List.mem_append_right _ (List.mem_cons_of_mem _ (List.mem_cons_of_mem _ hn)))
    · have := Except.ok.inj h
      subst this
      exact ⟨h1, h2⟩

theorem topCount_le {n : HuffmanNode} (h : Tight n) : (nodeToSplit n).topCount ≤ n.count := by
  induction n with
  | leaf c ch => exact Nat.le_refl _
  | internal c a b ha hb =>
    have h1 := ha h.2.1
    have h2 := hb h.2.2.1
    have h3 : c = a.count + b.count := h.1
    simp only [nodeToSplit, HuffmanNode.count]
    split <;> simp only <;> omega

theorem topCount_ge_leaf (c : Nat) (a b : HuffmanNode) :
    (nodeToSplit a).topCount ≤ (nodeToSplit (.internal c a b)).topCount ∧
    (nodeToSplit b).topCount ≤ (nodeToSplit (.internal c a b)).topCount := by
  simp only [nodeToSplit]
  split <;> simp only <;> omega

/-- Next to a neighbour of weight `m`, a node without its leader weighs at most `3 * m`. -/
theorem right_bound {n : HuffmanNode} {m : Nat} (ht : Tight n) (h : RightEdge n m) :
    n.count ≤ (nodeToSplit n).topCount + 3 * m := by
  cases n with
  | leaf c ch => simp only [nodeToSplit, HuffmanNode.count]; omega
  | internal c a b =>
    obtain ⟨hc, _, hb, hl, _⟩ := ht
    obtain ⟨h1, h2⟩ := h
    have h3 := (topCount_ge_leaf c a b).2
    show c ≤ _
    cases b with
    | leaf cb chb =>
      have hc' : c = a.count + cb := hc
      have h3' : cb ≤ (nodeToSplit (.internal c a (.leaf cb chb))).topCount := h3
      omega
    | internal cb b1 b2 =>
      have h4 : cb = b1.count + b2.count := hb.1
      have h5 : b2.count ≤ a.count := hl.1
      have h6 : b1.count ≤ m := h2.1
      have hc' : c = a.count + cb := hc
      omega

theorem left_bound {n : HuffmanNode} {m : Nat} (ht : Tight n) (h : LeftEdge n m) :
    n.count ≤ (nodeToSplit n).topCount + 3 * m := by
  cases n with
  | leaf c ch => simp only [nodeToSplit, HuffmanNode.count]; omega
  | internal c a b =>
    obtain ⟨hc, ha, _, _, hr⟩ := ht
    obtain ⟨h1, h2⟩ := h
    have h3 := (topCount_ge_leaf c a b).1
    show c ≤ _
    cases a with
    | leaf ca cha =>
      have hc' : c = ca + b.count := hc
      have h3' : ca ≤ (nodeToSplit (.internal c (.leaf ca cha) b)).topCount := h3
      omega
    | internal ca a1 a2 =>
      have h4 : ca = a1.count + a2.count := ha.1
      have h5 : a1.count ≤ b.count := hr.1
      have h6 : a2.count ≤ m := h2.1
      have hc' : c = ca + b.count := hc
      omega

/-- A group without its leader weighs at most three quarters of all. -/
theorem quarter {nodes : List HuffmanNode} (ht : ∀ n ∈ nodes, Tight n) (hr : Row nodes) (hl : 2 ≤ nodes.length)
    {n : HuffmanNode} (hn : n ∈ nodes) :
    4 * (n.count - (nodeToSplit n).topCount) ≤ 3 * weight (nodes.flatMap leaves) := by
  obtain ⟨l, r, e⟩ := List.append_of_mem hn
  rw [weight_flatMap ht]
  have hle := topCount_le (ht n hn)
  cases r with
  | cons m r =>
    have h1 := (hr l n m r e).1
    have h2 := right_bound (ht n hn) h1
    rw [e]
    simp only [List.map_append, List.map_cons, List.sum_append, List.sum_cons]
    omega
  | nil =>
    rcases List.eq_nil_or_concat l with rfl | ⟨l', m, rfl⟩
    · rw [e] at hl; simp at hl
    · have h1 := (hr l' m n [] (by rw [e]; simp)).2
      have h2 := left_bound (ht n hn) h1
      rw [e]
      simp only [List.concat_eq_append, List.map_append, List.map_cons, List.sum_append, List.sum_cons,
        List.map_nil, List.sum_nil]
      omega

/-- The splits with everything known about their nodes. -/
theorem optimizeSplits_tight (counts : Counts) {parts : Nat} (hp : 1 ≤ parts) :
    ∃ nodes : List HuffmanNode, optimizeSplits counts parts = .ok (nodes.map nodeToSplit) ∧
      nodes.length = min parts counts.length ∧ nodes.flatMap leaves = counts ∧
      (∀ n ∈ nodes, Tight n) ∧ Row nodes := by
  obtain ⟨nodes, h1, h2, h3⟩ := mergeLoop_spec hp counts.length
    (counts.map (fun p => .leaf p.2 p.1)) (by simp)
  have h4 := mergeLoop_tight counts.length (counts.map (fun p => HuffmanNode.leaf p.2 p.1)) nodes (by
    intro n hn
    obtain ⟨p, _, rfl⟩ := List.mem_map.1 hn
    trivial) (by
    intro l p q r e
    have hm : ∀ n ∈ counts.map (fun p => HuffmanNode.leaf p.2 p.1), ∃ c ch, n = .leaf c ch := by
      intro n hn
      obtain ⟨p, _, rfl⟩ := List.mem_map.1 hn
      exact ⟨_, _, rfl⟩
    rw [e] at hm
    obtain ⟨c, ch, rfl⟩ := hm p (by simp)
    obtain ⟨c', ch', rfl⟩ := hm q (by simp)
    exact ⟨trivial, trivial⟩) h1
  refine ⟨nodes, ?_, by simpa using h2, ?_, h4⟩
  · unfold optimizeSplits
    rw [h1]; rfl
  · rw [h3]
    clear h1 h2 h3 h4
    induction counts with
    | nil => rfl
    | cons p l ih => simp [leaves, ih]

/-- A code with `k` digits more than the first: its byte has at most the share `(3/4)^k`. -/
def ShortFor (c k w : Nat) : Prop := c * 4 ^ k ≤ 3 ^ k * w

theorem ShortFor.step {c k w w' : Nat} (h : ShortFor c k w) (hw : 4 * w ≤ 3 * w') : ShortFor c (k + 1) w' := by
  unfold ShortFor at h ⊢
  rw [Nat.pow_succ, Nat.pow_succ]
  calc c * (4 ^ k * 4) = c * 4 ^ k * 4 := by rw [Nat.mul_assoc]
    _ ≤ 3 ^ k * w * 4 := Nat.mul_le_mul_right _ h
    _ = 3 ^ k * (4 * w) := by rw [Nat.mul_assoc, Nat.mul_comm w 4]
    _ ≤ 3 ^ k * (3 * w') := Nat.mul_le_mul_left _ hw
    _ = 3 ^ k * 3 * w' := by rw [Nat.mul_assoc]

theorem ShortFor.mono {c k w w' : Nat} (h : ShortFor c k w) (hw : w ≤ w') : ShortFor c k w' :=
  Nat.le_trans h (Nat.mul_le_mul_left _ hw)

theorem weight_mem {l : Counts} {p : UInt8 × Nat} (h : p ∈ l) : p.2 ≤ weight l := by
  obtain ⟨a, b, rfl⟩ := List.append_of_mem h
  rw [weight_append]
  unfold weight
  simp only [List.map_cons, List.sum_cons]
  omega

theorem weight_sub {n : HuffmanNode} (ht : Tight n) {a b : Counts}
    (e : leaves n = a ++ ((nodeToSplit n).top, (nodeToSplit n).topCount) :: b) :
    weight (a ++ b) = n.count - (nodeToSplit n).topCount := by
  have h1 := tight_weight ht
  rw [e, weight_append] at h1
  rw [weight_append]
  have : weight (((nodeToSplit n).top, (nodeToSplit n).topCount) :: b) = (nodeToSplit n).topCount + weight b := by
    unfold weight; simp
  omega

/-- The codes of the ext tokens. -/
def ShortCodes (u : UInt8 → Nat) (w : Nat) (encs : List (UInt8 × List Nat)) : Prop :=
  ∀ e ∈ encs, ShortFor (u e.1) (e.2.length - 1) w

theorem extLoop_short {u : UInt8 → Nat} {rec : Counts → R (List (UInt8 × List Nat))} {w : Nat}
    (hrec : ∀ l encs, Ordered l → Agrees u l → rec l = .ok encs →
      ShortCodes u (weight l) encs ∧ ∀ e ∈ encs, e.2 ≠ [])
    (nodes : List HuffmanNode) : ∀ (pre : Counts) (i : Nat) (encs out : List (UInt8 × List Nat)),
    Ordered (pre ++ nodes.flatMap leaves) → Agrees u (pre ++ nodes.flatMap leaves) →
    (∀ p ∈ pre ++ nodes.flatMap leaves, p.2 ≤ w) →
    (∀ n ∈ nodes, Tight n ∧ 4 * (n.count - (nodeToSplit n).topCount) ≤ 3 * w) →
    ShortCodes u w encs → (∀ e ∈ encs, e.2 ≠ []) →
    extLoop rec (pre ++ nodes.flatMap leaves) (nodes.map nodeToSplit) i encs = .ok out →
    ShortCodes u w out ∧ ∀ e ∈ out, e.2 ≠ [] := by
  induction nodes with
  | nil =>
    intro pre i encs out _ _ _ _ h1 h2 h
    have := Except.ok.inj h
    subst this
    exact ⟨h1, h2⟩
  | cons n nodes ih =>
    intro pre i encs out h1 hag hw ht hs hne h
    rw [List.flatMap_cons] at h1 hag hw h
    have hn : Ordered (leaves n) := h1.sublist
      ((List.sublist_append_left _ _).trans (List.sublist_append_right _ _))
    have hagn : Agrees u (leaves n) := fun q hq =>
      hag q (List.mem_append_right _ (List.mem_append_left _ hq))
    have htop := (node_spec n hn.sorted).2.1
    have hs' : ShortCodes u w (encs ++ [((nodeToSplit n).top, [i])]) := by
      intro e he
      rcases List.mem_append.1 he with he | he
      · exact hs e he
      · rw [List.mem_singleton] at he
        subst he
        have h3 := hagn _ htop
        have h4 := hw _ (List.mem_append_right _ (List.mem_append_left _ htop))
        simp only at h3 h4
        show u (nodeToSplit n).top * 4 ^ 0 ≤ 3 ^ 0 * w
        omega
    have hne' : ∀ e ∈ encs ++ [((nodeToSplit n).top, [i])], e.2 ≠ [] := by
      intro e he
      rcases List.mem_append.1 he with he | he
      · exact hne e he
      · rw [List.mem_singleton] at he
        subst he
        simp
    rw [List.map_cons, extLoop, groupBounds_spec h1] at h
    simp only [R.ok_bind] at h
    have next := fun encs' out hs hne => ih (pre ++ leaves n) (i + 1) encs' out
      (by rw [List.append_assoc]; exact h1) (by rw [List.append_assoc]; exact hag)
      (by rw [List.append_assoc]; exact hw) (fun m hm => ht m (List.mem_cons_of_mem _ hm)) hs hne
    rw [← List.append_assoc] at h
    by_cases hl : pre.length + (leaves n).length = pre.length + 1
    · rw [if_pos hl] at h
      exact next _ out hs' hne' h
    · rw [if_neg hl] at h
      obtain ⟨a, b, e, hsub⟩ := subCounts_spec h1
      rw [List.append_assoc, hsub] at h
      simp only [R.ok_bind] at h
      cases hr : rec (a ++ b) with
      | error er => rw [hr] at h; cases h
      | ok sub =>
        rw [hr] at h
        simp only [R.ok_bind] at h
        have hab : Ordered (a ++ b) := hn.sublist (by
          rw [e]; exact .append (List.Sublist.refl _) (List.sublist_cons_self _ _))
        obtain ⟨hsc, hsn⟩ := hrec (a ++ b) sub hab (agrees_ab hagn e) hr
        rw [← List.append_assoc pre] at h
        refine next _ out ?_ ?_ h
        · intro x hx
          rcases List.mem_append.1 hx with hx | hx
          · exact hs' x hx
          · obtain ⟨y, hy, rfl⟩ := List.mem_map.1 hx
            have h5 := (hsc y hy).step (w' := w) (by rw [weight_sub (ht n (by simp)).1 e]; exact (ht n (by simp)).2)
            have h6 := List.length_pos_iff.2 (hsn y hy)
            have h7 : (i :: y.2).length - 1 = y.2.length - 1 + 1 := by simp only [List.length_cons]; omega
            show ShortFor (u y.1) ((i :: y.2).length - 1) w
            rw [h7]
            exact h5
        · intro x hx
          rcases List.mem_append.1 hx with hx | hx
          · exact hne' x hx
          · obtain ⟨y, hy, rfl⟩ := List.mem_map.1 hx
            simp

theorem extEncoding_short {u : UInt8 → Nat} {nExt : Nat} (hx : 2 ≤ nExt) : ∀ (fuel : Nat) (counts : Counts)
    (encs : List (UInt8 × List Nat)), Ordered counts → Agrees u counts →
    extEncoding nExt fuel counts = .ok encs → ShortCodes u (weight counts) encs ∧ ∀ e ∈ encs, e.2 ≠ [] := by
  intro fuel
  induction fuel with
  | zero => intro counts encs _ _ h; cases h
  | succ fuel ih =>
    intro counts encs ho hag h
    rw [extEncoding] at h
    by_cases hl : counts.length ≤ nExt
    · rw [if_pos hl] at h
      have := Except.ok.inj h
      subst this
      refine ⟨?_, ?_⟩
      · intro e he
        obtain ⟨x, hx', rfl⟩ := List.mem_map.1 he
        have hm : x.1 ∈ counts := by
          have := List.mem_map_of_mem (f := Prod.fst) hx'
          rwa [List.zipIdx_map_fst] at this
        have h3 := hag _ hm
        have h4 := weight_mem hm
        show u x.1.1 * 4 ^ 0 ≤ 3 ^ 0 * weight counts
        omega
      · intro e he
        obtain ⟨x, _, rfl⟩ := List.mem_map.1 he
        simp
    · rw [if_neg hl] at h
      obtain ⟨nodes, h1, h2, h3, h4, h5⟩ := optimizeSplits_tight counts (show 1 ≤ nExt by omega)
      rw [h1] at h
      simp only [R.ok_bind] at h
      have := extLoop_short (u := u) (rec := extEncoding nExt fuel) (w := weight counts)
        (fun l encs h1 h2 h3 => ih l encs h1 h2 h3) nodes [] 0 [] encs
      simp only [List.nil_append] at this
      rw [h3] at this
      refine this ho hag (fun p hp => weight_mem hp) ?_ (by intro e he; cases he) (by intro e he; cases he) h
      intro n hn
      refine ⟨h4 n hn, ?_⟩
      have := quarter h4 h5 (by omega) hn
      rw [h3] at this
      exact this

end Tokens
