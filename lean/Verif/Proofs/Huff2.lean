import Verif.Proofs.Huff

/-! The codes made of ext tokens. -/

set_option linter.unusedSimpArgs false
set_option linter.unusedVariables false

namespace Tokens
open Spec TokenSet OptimizeBytes

/-- A code for every byte of `counts`: non-empty lists of digits below `nExt`, all different. -/
structure GoodEnc (u : UInt8 → Nat) (nExt : Nat) (counts : Counts) (encs : List (UInt8 × List Nat)) : Prop where
  bytes : (encs.map Prod.fst).Perm (counts.map Prod.fst)
  nonempty : ∀ e ∈ encs, e.2 ≠ []
  digits : ∀ e ∈ encs, ∀ d ∈ e.2, d < nExt
  nodup : (encs.map Prod.snd).Nodup
  order : ∀ e ∈ encs, ∀ e' ∈ encs, e.2 <+: e'.2 → u e'.1 ≤ u e.1
  short : ∀ e ∈ encs, e.2.length ≤ counts.length

/-- The counts are those of `u`. -/
def Agrees (u : UInt8 → Nat) (l : Counts) : Prop := ∀ p ∈ l, p.2 = u p.1

/-- All codes start with a digit below `i`. -/
def HeadsBelow (i : Nat) (encs : List (UInt8 × List Nat)) : Prop :=
  ∀ e ∈ encs, ∃ d t, e.2 = d :: t ∧ d < i

theorem GoodEnc.snoc_group {u : UInt8 → Nat} {nExt i : Nat} {pre : Counts} {encs : List (UInt8 × List Nat)}
    (h : GoodEnc u nExt pre encs) (hh : HeadsBelow i encs) (hi : i < nExt) {a b : Counts}
    {p : UInt8 × Nat} {sub : List (UInt8 × List Nat)} (hs : GoodEnc u nExt (a ++ b) sub)
    (htop : ∀ q ∈ a ++ b, u q.1 ≤ u p.1) :
    GoodEnc u nExt (pre ++ (a ++ p :: b))
      (encs ++ [(p.1, [i])] ++ sub.map (fun e => (e.1, i :: e.2))) ∧
    HeadsBelow (i + 1) (encs ++ [(p.1, [i])] ++ sub.map (fun e => (e.1, i :: e.2))) := by
  refine ⟨⟨?_, ?_, ?_, ?_, ?_, ?_⟩, ?_⟩
  · simp only [List.map_append, List.map_cons, List.map_nil, List.map_map, List.append_assoc]
    refine .append h.bytes ?_
    have h1 : (List.map (Prod.fst ∘ fun e : UInt8 × List Nat => (e.1, i :: e.2)) sub) = sub.map Prod.fst := rfl
    rw [h1]
    have h2 : (sub.map Prod.fst).Perm (a.map Prod.fst ++ b.map Prod.fst) := by
      have := hs.bytes
      rwa [List.map_append] at this
    exact (h2.cons p.1).trans List.perm_middle.symm
  · intro e he
    rcases List.mem_append.1 he with he | he
    · rcases List.mem_append.1 he with he | he
      · exact h.nonempty e he
      · simp at he; subst he; simp
    · obtain ⟨x, _, rfl⟩ := List.mem_map.1 he
      simp
  · intro e he d hd
    rcases List.mem_append.1 he with he | he
    · rcases List.mem_append.1 he with he | he
      · exact h.digits e he d hd
      · simp at he; subst he; simp at hd; omega
    · obtain ⟨x, hx, rfl⟩ := List.mem_map.1 he
      rcases List.mem_cons.1 hd with rfl | hd
      · exact hi
      · exact hs.digits x hx d hd
  · simp only [List.map_append, List.map_cons, List.map_nil, List.map_map]
    have h1 : (List.map (Prod.snd ∘ fun e : UInt8 × List Nat => (e.1, i :: e.2)) sub) =
        (sub.map Prod.snd).map (fun t => i :: t) := by rw [List.map_map]; rfl
    rw [h1, List.nodup_append, List.nodup_append]
    refine ⟨⟨h.nodup, by simp, ?_⟩, ?_, ?_⟩
    · intro x hx y hy hxy
      simp at hy
      subst hy
      obtain ⟨e, he, rfl⟩ := List.mem_map.1 hx
      obtain ⟨d, t, e1, e2⟩ := hh e he
      rw [e1] at hxy
      simp at hxy
      omega
    · rw [List.Nodup, List.pairwise_map]
      exact hs.nodup.imp (fun hne he => hne (by simpa using he))
    · intro x hx y hy hxy
      subst hxy
      obtain ⟨t, ht, rfl⟩ := List.mem_map.1 hy
      obtain ⟨e, he, rfl⟩ := List.mem_map.1 ht
      rcases List.mem_append.1 hx with hx | hx
      · obtain ⟨e', he', e3⟩ := List.mem_map.1 hx
        obtain ⟨d, t, e1, e2⟩ := hh e' he'
        rw [e1] at e3
        simp at e3
        omega
      · simp at hx
        exact hs.nonempty e he hx
  · intro e he e' he' hpre
    have cases : ∀ e ∈ encs ++ [(p.1, [i])] ++ sub.map (fun e => (e.1, i :: e.2)),
        (e ∈ encs ∧ ∃ d t, e.2 = d :: t ∧ d < i) ∨ e = (p.1, [i]) ∨
        ∃ x ∈ sub, e = (x.1, i :: x.2) ∧ x.2 ≠ [] := by
      intro e he
      rcases List.mem_append.1 he with he | he
      · rcases List.mem_append.1 he with he | he
        · exact .inl ⟨he, hh e he⟩
        · exact .inr (.inl (by simpa using he))
      · obtain ⟨x, hx, rfl⟩ := List.mem_map.1 he
        exact .inr (.inr ⟨x, hx, rfl, hs.nonempty x hx⟩)
    have heads : ∀ {d t l}, (d :: t : List Nat) <+: l → l.head? = some d := by
      intro d t l h
      obtain ⟨r, rfl⟩ := h
      rfl
    rcases cases e he with ⟨m, d, t, e1, e2⟩ | rfl | ⟨x, hx, rfl, hne⟩
    · rcases cases e' he' with ⟨m', d', t', e1', e2'⟩ | rfl | ⟨x', hx', rfl, hne'⟩
      · exact h.order e m e' m' hpre
      · rw [e1] at hpre
        have := heads hpre
        simp at this
        omega
      · rw [e1] at hpre
        have := heads hpre
        simp at this
        omega
    · rcases cases e' he' with ⟨m', d', t', e1', e2'⟩ | rfl | ⟨x', hx', rfl, hne'⟩
      · have := heads hpre
        rw [e1'] at this
        simp at this
        omega
      · exact Nat.le_refl _
      · have : x'.1 ∈ (a ++ b).map Prod.fst := hs.bytes.mem_iff.1 (List.mem_map.2 ⟨x', hx', rfl⟩)
        obtain ⟨q, hq, e⟩ := List.mem_map.1 this
        simp only
        rw [← e]
        exact htop q hq
    · rcases cases e' he' with ⟨m', d', t', e1', e2'⟩ | rfl | ⟨x', hx', rfl, hne'⟩
      · have := heads hpre
        rw [e1'] at this
        simp at this
        omega
      · obtain ⟨r, hr⟩ := hpre
        simp at hr
        exact absurd hr.1 hne
      · simp only at hpre ⊢
        rw [List.cons_prefix_cons] at hpre
        exact hs.order x hx x' hx' hpre.2
  · intro e he
    simp only [List.length_append, List.length_cons]
    rcases List.mem_append.1 he with he | he
    · rcases List.mem_append.1 he with he | he
      · have := h.short e he
        omega
      · simp at he; subst he; simp; omega
    · obtain ⟨x, hx, rfl⟩ := List.mem_map.1 he
      have := hs.short x hx
      simp only [List.length_append, List.length_cons] at this ⊢
      omega
  · intro e he
    rcases List.mem_append.1 he with he | he
    · rcases List.mem_append.1 he with he | he
      · obtain ⟨d, t, e1, e2⟩ := hh e he
        exact ⟨d, t, e1, by omega⟩
      · simp at he; subst he; exact ⟨i, [], rfl, by omega⟩
    · obtain ⟨x, _, rfl⟩ := List.mem_map.1 he
      exact ⟨i, x.2, rfl, by omega⟩

theorem goodEnc_nil (u : UInt8 → Nat) (nExt : Nat) : GoodEnc u nExt [] [] :=
  ⟨.refl _, by simp, by simp, by simp, by simp, by simp⟩

theorem leaves_single {n : HuffmanNode} (hs : Ordered (leaves n)) (hl : (leaves n).length = 1) :
    leaves n = [((nodeToSplit n).top, (nodeToSplit n).topCount)] := by
  obtain ⟨_, ht, _⟩ := node_spec n hs.sorted
  match hx : leaves n, hl with
  | [p], _ =>
    rw [hx] at ht
    simp at ht
    rw [ht]

theorem agrees_ab {u : UInt8 → Nat} {l a b : Counts} {p : UInt8 × Nat} (h : Agrees u l)
    (e : l = a ++ p :: b) : Agrees u (a ++ b) := by
  intro q hq
  refine h q ?_
  rw [e]
  rcases List.mem_append.1 hq with hq | hq
  · exact List.mem_append_left _ hq
  · exact List.mem_append_right _ (List.mem_cons_of_mem _ hq)

theorem top_max {u : UInt8 → Nat} {n : HuffmanNode} {a b : Counts} (hn : Ordered (leaves n))
    (h : Agrees u (leaves n))
    (e : leaves n = a ++ ((nodeToSplit n).top, (nodeToSplit n).topCount) :: b) :
    ∀ q ∈ a ++ b, u q.1 ≤ u (nodeToSplit n).top := by
  intro q hq
  have hm : q ∈ leaves n := by
    rw [e]
    rcases List.mem_append.1 hq with hq | hq
    · exact List.mem_append_left _ hq
    · exact List.mem_append_right _ (List.mem_cons_of_mem _ hq)
  obtain ⟨_, ht, hmax⟩ := node_spec n hn.sorted
  have h1 := hmax q hm
  have h2 := h q hm
  have h3 := h _ ht
  simp only at h3
  omega

theorem extLoop_spec {u : UInt8 → Nat} {nExt : Nat} {rec : Counts → R (List (UInt8 × List Nat))} {N : Nat}
    (hrec : ∀ l, Ordered l → Agrees u l → l.length < N → ∃ encs, rec l = .ok encs ∧ GoodEnc u nExt l encs)
    (nodes : List HuffmanNode) : ∀ (pre : Counts) (i : Nat) (encs : List (UInt8 × List Nat)),
    Ordered (pre ++ nodes.flatMap leaves) → Agrees u (pre ++ nodes.flatMap leaves) → (pre ++ nodes.flatMap leaves).length ≤ N →
    i + nodes.length ≤ nExt → GoodEnc u nExt pre encs → HeadsBelow i encs →
    ∃ out, extLoop rec (pre ++ nodes.flatMap leaves) (nodes.map nodeToSplit) i encs = .ok out ∧
      GoodEnc u nExt (pre ++ nodes.flatMap leaves) out := by
  induction nodes with
  | nil =>
    intro pre i encs _ _ _ _ h4 h5
    refine ⟨encs, rfl, ?_⟩
    simpa using h4
  | cons n nodes ih =>
    intro pre i encs h1 hag h2 h3 h4 h5
    simp only [List.length_cons] at h3
    rw [List.flatMap_cons] at h1 hag h2 ⊢
    have hn : Ordered (leaves n) := h1.sublist
      ((List.sublist_append_left _ _).trans (List.sublist_append_right _ _))
    have hagn : Agrees u (leaves n) := fun q hq =>
      hag q (List.mem_append_right _ (List.mem_append_left _ hq))
    rw [List.map_cons, extLoop, groupBounds_spec h1]
    simp only [R.ok_bind]
    by_cases hl : pre.length + (leaves n).length = pre.length + 1
    · rw [if_pos hl]
      have e := leaves_single hn (by omega)
      obtain ⟨g1, g2⟩ := h4.snoc_group h5 (show i < nExt by omega) (a := []) (b := [])
        (p := ((nodeToSplit n).top, (nodeToSplit n).topCount)) (goodEnc_nil u nExt) (by simp)
      simp only [List.map_nil, List.append_nil, List.nil_append, ← e] at g1 g2
      rw [← List.append_assoc]
      exact ih (pre ++ leaves n) (i + 1) _ (by rw [List.append_assoc]; exact h1)
        (by rw [List.append_assoc]; exact hag) (by rw [List.append_assoc]; exact h2) (by omega) g1 g2
    · rw [if_neg hl]
      obtain ⟨a, b, e, hsub⟩ := subCounts_spec h1
      rw [hsub]
      simp only [R.ok_bind]
      have hlen : (leaves n).length = (a ++ b).length + 1 := by rw [e]; simp; omega
      have hab : Ordered (a ++ b) := hn.sublist (by
        rw [e]; exact .append (List.Sublist.refl _) (List.sublist_cons_self _ _))
      obtain ⟨sub, hr, hg⟩ := hrec (a ++ b) hab (agrees_ab hagn e) (by
        simp only [List.length_append] at h2 hlen ⊢
        omega)
      rw [hr]
      simp only [R.ok_bind]
      obtain ⟨g1, g2⟩ := h4.snoc_group h5 (show i < nExt by omega)
        (p := ((nodeToSplit n).top, (nodeToSplit n).topCount)) hg (top_max hn hagn e)
      rw [← e] at g1
      rw [← List.append_assoc pre]
      exact ih (pre ++ leaves n) (i + 1) _ (by rw [List.append_assoc]; exact h1)
        (by rw [List.append_assoc]; exact hag) (by rw [List.append_assoc]; exact h2) (by omega) g1 g2

theorem extEncoding_spec {u : UInt8 → Nat} {nExt : Nat} (hx : 1 ≤ nExt) : ∀ (fuel : Nat) (counts : Counts),
    Ordered counts → Agrees u counts → counts.length < fuel →
    ∃ encs, extEncoding nExt fuel counts = .ok encs ∧ GoodEnc u nExt counts encs := by
  intro fuel
  induction fuel with
  | zero => intro counts _ _ h; omega
  | succ fuel ih =>
    intro counts ho hag hf
    rw [extEncoding]
    by_cases hl : counts.length ≤ nExt
    · rw [if_pos hl]
      refine ⟨_, rfl, ?_, ?_, ?_, ?_, ?_, ?_⟩
      · rw [List.map_map]
        have : (Prod.fst ∘ fun (x : (UInt8 × Nat) × Nat) => (x.1.1, [x.2])) = Prod.fst ∘ Prod.fst := rfl
        rw [show List.map (Prod.fst ∘ fun (x : (UInt8 × Nat) × Nat) => match x with
          | (p, i) => (p.1, [i])) counts.zipIdx = (counts.zipIdx.map Prod.fst).map Prod.fst by
            rw [List.map_map]; rfl]
        rw [List.zipIdx_map_fst]
      · intro e he
        obtain ⟨x, _, rfl⟩ := List.mem_map.1 he
        simp
      · intro e he d hd
        obtain ⟨x, hx', rfl⟩ := List.mem_map.1 he
        simp at hd
        subst hd
        have := List.mem_zipIdx hx'
        omega
      · rw [List.map_map]
        rw [show List.map (Prod.snd ∘ fun (x : (UInt8 × Nat) × Nat) => match x with
          | (p, i) => (p.1, [i])) counts.zipIdx = (counts.zipIdx.map Prod.snd).map (fun i => [i]) by
            rw [List.map_map]; rfl]
        rw [List.zipIdx_map_snd, List.Nodup, List.pairwise_map]
        exact (List.nodup_range' (step := 1)).imp (fun hne he => hne (by simpa using he))
      · intro e he e' he' hpre
        obtain ⟨x, hx1, rfl⟩ := List.mem_map.1 he
        obtain ⟨x', hx1', rfl⟩ := List.mem_map.1 he'
        have hi : x.2 = x'.2 := by
          obtain ⟨r, hr⟩ := hpre
          simp at hr
          exact hr.1
        have g1 := List.mk_mem_zipIdx_iff_getElem?.1 hx1
        have g2 := List.mk_mem_zipIdx_iff_getElem?.1 hx1'
        rw [hi, g2] at g1
        simp at g1
        simp [g1]
      · intro e he
        obtain ⟨x, hx', rfl⟩ := List.mem_map.1 he
        have := List.mem_zipIdx hx'
        simp only [List.length_cons, List.length_nil]
        omega
    · rw [if_neg hl]
      obtain ⟨nodes, h1, h2, h3⟩ := optimizeSplits_spec counts hx
      rw [h1]
      simp only [R.ok_bind]
      have := extLoop_spec (u := u) (nExt := nExt) (N := counts.length) (rec := extEncoding nExt fuel)
        (fun l h hag hlt => ih l h hag (by omega)) nodes [] 0 []
      simp only [List.nil_append] at this
      rw [h3] at this
      exact this ho hag (Nat.le_refl _) (by omega) (goodEnc_nil u nExt) (by intro e he; simp at he)

end Tokens
