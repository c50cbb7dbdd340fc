import Verif.Model.MachineOpt
import Verif.Proofs.Machine
import Verif.Proofs.Start
import Verif.Proofs.Fits

/-! The arithmetic of the optimizer does not overflow: the functions without interaction. -/

set_option linter.unusedSimpArgs false
set_option linter.unusedVariables false

namespace Tokens
open Spec TokenSet Batch OptimizeBytes Optimize

namespace MachineOpt

/-- Arithmetic that is exact as long as the result fits. -/
structure Exact (A : Arith) : Prop where
  add : Machine.Exact A.add
  mul : ∀ a b, a * b < 2 ^ 64 → A.mul a b = .ok (a * b)
  neg : ∀ n : Nat, n < 2 ^ 63 → A.neg (n : Int) = .ok (-(n : Int))
  sub : ∀ m n : Nat, m < 2 ^ 63 → n < 2 ^ 63 → A.sub (m : Int) (n : Int) = .ok ((m : Int) - (n : Int))

theorem wrapI64_of {x : Int} (h1 : -2 ^ 63 ≤ x) (h2 : x < 2 ^ 63) : wrapI64 x = x := by
  unfold wrapI64
  omega

theorem toI64_of {n : Nat} (h : n < 2 ^ 63) : toI64 n = n := wrapI64_of (by omega) (by omega)

theorem checked_exact : Exact checked where
  add := Machine.checked_exact
  mul := fun a b h => by simp only [checked, if_pos h]
  neg := fun n h => by
    show (if _ then _ else _) = _
    rw [if_pos (by omega)]
  sub := fun m n h1 h2 => by
    show (if _ then _ else _) = _
    rw [if_pos (by omega)]

theorem wrapping_exact : Exact wrapping where
  add := Machine.wrapping_exact
  mul := fun a b h => by simp only [wrapping, Nat.mod_eq_of_lt h]
  neg := fun n h => by
    show Except.ok _ = _
    rw [wrapI64_of (by omega) (by omega)]
  sub := fun m n h1 h2 => by
    show Except.ok _ = _
    rw [wrapI64_of (by omega) (by omega)]

variable {A : Arith}

/-! ### Sorting by a negated count -/

theorem mapM_ok {α β : Type} (f : α → R β) (g : α → β) (l : List α) (h : ∀ a ∈ l, f a = .ok (g a)) :
    l.mapM f = .ok (l.map g) := by
  induction l with
  | nil => rfl
  | cons a l ih =>
    rw [List.mapM_cons, h a (by simp), R.ok_bind, ih (fun x hx => h x (by simp [hx])), R.ok_bind]
    rfl

theorem sortByKey_eq {α : Type} (key : α → R Int) (c : α → Nat) (l : List α)
    (h : ∀ a ∈ l, key a = .ok (-(c a : Int))) :
    sortByKey key l = .ok (l.mergeSort (fun a b => decide (c b ≤ c a))) := by
  unfold sortByKey
  rw [mapM_ok _ (fun a => (a, -(c a : Int))) l (fun a ha => by rw [h a ha]; rfl), R.ok_bind]
  congr 1
  rw [← List.map_mergeSort (r := fun a b => decide (c b ≤ c a)), List.map_map]
  · have : (Prod.fst ∘ fun a => (a, -(c a : Int))) = (id : α → α) := rfl
    rw [this, List.map_id]
  · intro a _ b _
    simp only [decide_eq_decide]
    omega

theorem pairOrder_same (hA : Exact A) (counts : List Nat) (h : ∀ c ∈ counts, c < 2 ^ 63) :
    pairOrder A counts = .ok (Optimize.pairOrder counts) := by
  unfold pairOrder
  refine sortByKey_eq _ (fun i => counts.getD i 0) _ ?_
  intro i hi
  have hlt : counts.getD i 0 < 2 ^ 63 := by
    rw [List.getD_eq_getElem?_getD]
    cases e : counts[i]? with
    | none => simp
    | some x => exact h x (List.mem_of_getElem? e)
  rw [toI64_of hlt, hA.neg _ hlt]

theorem bpeLoop_count {st : TokenStats} {ps : List Nat} {new new' : Bytes} {count : Nat}
    (h : bpeLoop st ps new = .ok (new', count)) : count = 0 ∨ count ∈ st.pairCounts := by
  induction ps generalizing new with
  | nil =>
    cases h
    exact .inl rfl
  | cons p ps ih =>
    rw [bpeLoop] at h
    split at h
    · cases h
    · obtain ⟨t1, h1, h⟩ := ok_bind_inv h
      obtain ⟨t2, h2, h⟩ := ok_bind_inv h
      split at h
      · obtain ⟨ok, h3, h⟩ := ok_bind_inv h
        split at h
        · obtain ⟨c, h4, h⟩ := ok_bind_inv h
          cases h
          right
          unfold getR at h4
          split at h4
          · next e => cases h4; exact List.mem_of_getElem? e
          · cases h4
        · exact ih h
      · cases h

theorem addTokenBpe_same (hA : Exact A) (st : TokenStats) (h : ∀ c ∈ st.pairCounts, c < 2 ^ 63) :
    addTokenBpe A st = Optimize.addTokenBpe st := by
  unfold addTokenBpe Optimize.addTokenBpe
  rw [pairOrder_same hA _ h, R.ok_bind]
  cases hb : bpeLoop st (Optimize.pairOrder st.pairCounts) [] with
  | error e => simp only [R.error_bind, Except.map]
  | ok x =>
    obtain ⟨new, count⟩ := x
    simp only [R.ok_bind]
    have : count < 2 ^ 63 := by
      rcases bpeLoop_count hb with h0 | hm
      · omega
      · exact h _ hm
    rw [toI64_of this]

/-! ### SimpleBytesOptimizer -/

theorem mem_getR {α : Type} {l : List α} {i : Nat} {a : α} (h : getR l i = .ok a) : a ∈ l := by
  unfold getR at h
  split at h
  · next e => cases h; exact List.mem_of_getElem? e
  · cases h

theorem cast_set (a : ByteArr Nat) (b : UInt8) (c : Nat) :
    ByteArr.set (fun x => (a x : Int)) b (c : Int) = fun x => ((ByteArr.set a b c x : Nat) : Int) := by
  funext x
  unfold ByteArr.set
  split <;> rfl

/-- The array of exact counts as one of `i64`. -/
def castArr (a : ByteArr Nat) : ByteArr Int := fun x => (a x : Int)

theorem countTokens_same (counts : List Nat) (h : ∀ c ∈ counts, c < 2 ^ 63) (toks : List Token)
    (i : Nat) (a : ByteArr Nat) : countTokens counts toks i (castArr a) =
      (OptimizeBytes.countTokens counts toks i a).map castArr := by
  fun_induction OptimizeBytes.countTokens counts toks i a with
  | case1 => rfl
  | case2 b ts i a ih =>
    rw [countTokens]
    cases hg : getR counts i with
    | error e => simp only [R.error_bind, Except.map]
    | ok c =>
      simp only [R.ok_bind]
      rw [toI64_of (h c (mem_getR hg)), ← ih c]
      unfold castArr
      rw [cast_set]
  | case3 t ts i a hne ih =>
    rw [countTokens]
    · exact ih
    · exact hne

theorem countSeqs_same (counts : List Nat) (h : ∀ c ∈ counts, c < 2 ^ 63) (qs : List Sequence)
    (i : Nat) (a : ByteArr Nat) : countSeqs counts qs i (castArr a) =
      (OptimizeBytes.countSeqs counts qs i a).map castArr := by
  fun_induction OptimizeBytes.countSeqs counts qs i a with
  | case1 => rfl
  | case2 b l ts i a ih =>
    rw [countSeqs]
    cases hg : getR counts i with
    | error e => simp only [R.error_bind, Except.map]
    | ok c =>
      simp only [R.ok_bind]
      rw [toI64_of (h c (mem_getR hg)), ← ih c]
      unfold castArr
      rw [cast_set]
  | case3 t ts i a hne ih =>
    rw [countSeqs]
    · exact ih
    · exact hne

theorem countTokens_small (counts : List Nat) (B : Nat) (h : ∀ c ∈ counts, c < B) (l : List Token)
    (i : Nat) (a a' : ByteArr Nat) (ha : ∀ b, a b < B) (e : OptimizeBytes.countTokens counts l i a = .ok a') :
      ∀ b, a' b < B := by
  fun_induction OptimizeBytes.countTokens counts l i a with
  | case1 => cases e; exact ha
  | case2 b ts i a ih =>
    obtain ⟨c, hc, e⟩ := ok_bind_inv e
    refine ih c ?_ e
    intro b
    unfold ByteArr.set
    split
    · exact h c (mem_getR hc)
    · exact ha b
  | case3 t ts i a hne ih => exact ih ha e

theorem countSeqs_small (counts : List Nat) (B : Nat) (h : ∀ c ∈ counts, c < B) (l : List Sequence)
    (i : Nat) (a a' : ByteArr Nat) (ha : ∀ b, a b < B) (e : OptimizeBytes.countSeqs counts l i a = .ok a') :
      ∀ b, a' b < B := by
  fun_induction OptimizeBytes.countSeqs counts l i a with
  | case1 => cases e; exact ha
  | case2 b q ts i a ih =>
    obtain ⟨c, hc, e⟩ := ok_bind_inv e
    refine ih c ?_ e
    intro b
    unfold ByteArr.set
    split
    · exact h c (mem_getR hc)
    · exact ha b
  | case3 t ts i a hne ih => exact ih ha e

theorem simple_same (hA : Exact A) (st : TokenStats) (n : Nat) (h1 : ∀ c ∈ st.tokenCounts, c < 2 ^ 63)
    (h2 : ∀ c ∈ st.seqCounts, c < 2 ^ 63) : simple A st n = OptimizeBytes.simple st n := by
  unfold simple OptimizeBytes.simple
  cases subR n st.tokenSet.nExt with
  | error e => simp only [R.error_bind, Except.map]
  | ok k =>
    simp only [R.ok_bind]
    have e0 : (fun _ => 0 : ByteArr Int) = castArr (fun _ => 0) := rfl
    rw [e0, countTokens_same _ h1]
    cases hc : OptimizeBytes.countTokens st.tokenCounts st.tokenSet.tokens 0 (fun _ => 0) with
    | error e => simp only [R.error_bind, Except.map]
    | ok a =>
      have ha := countTokens_small _ _ h1 _ _ _ _ (fun b => Nat.two_pow_pos 63) hc
      simp only [Except.map, R.ok_bind]
      rw [countSeqs_same _ h2]
      cases hc' : OptimizeBytes.countSeqs st.seqCounts st.tokenSet.sequences 0 a with
      | error e => simp only [R.error_bind, Except.map]
      | ok a' =>
        have ha' := countSeqs_small _ _ h2 _ _ _ _ ha hc'
        have hs := sortByKey_eq (fun b => A.neg (castArr a' b)) a' allBytes (fun b _ => hA.neg _ (ha' b))
        simp only [Except.map, R.ok_bind, hs, byCount]

/-! ### The Huffman-like encoding -/

/-- The sum of the counts of the nodes. -/
def weight (l : List HuffmanNode) : Nat := (l.map HuffmanNode.count).sum

theorem bestPair_same (hA : Exact A) (l : List HuffmanNode) : ∀ (i : Nat) (best : Option (Nat × Nat)),
    weight l < 2 ^ 64 → bestPair A l i best = .ok (OptimizeBytes.bestPair l i best) := by
  induction l with
  | nil => intro i best _; rfl
  | cons a l ih =>
    intro i best h
    cases l with
    | nil => rfl
    | cons b rest =>
      unfold bestPair OptimizeBytes.bestPair
      unfold weight at h
      simp only [List.map_cons, List.sum_cons] at h
      rw [hA.add _ _ (by omega), R.ok_bind]
      exact ih _ _ (by unfold weight; simp only [List.map_cons, List.sum_cons]; omega)

theorem weight_split (l : List HuffmanNode) (i : Nat) (a b : HuffmanNode) (h1 : l[i]? = some a)
    (h2 : l[i + 1]? = some b) :
    l = l.take i ++ a :: b :: l.drop (i + 2) := by
  obtain ⟨g1, g2⟩ := List.getElem?_eq_some_iff.1 h1
  obtain ⟨g3, g4⟩ := List.getElem?_eq_some_iff.1 h2
  conv => lhs; rw [← List.take_append_drop i l]
  rw [List.drop_eq_getElem_cons g1, g2, List.drop_eq_getElem_cons g3, g4]

theorem mergeAt_same (hA : Exact A) (l : List HuffmanNode) (i : Nat) (h : weight l < 2 ^ 64) :
    mergeAt A l i = OptimizeBytes.mergeAt l i ∧
      ∀ l', OptimizeBytes.mergeAt l i = .ok l' → weight l' = weight l := by
  unfold mergeAt OptimizeBytes.mergeAt
  unfold getR
  cases h1 : l[i]? with
  | none => exact ⟨rfl, fun l' e => by cases e⟩
  | some a =>
    simp only [R.ok_bind]
    cases h2 : l[i + 1]? with
    | none => exact ⟨rfl, fun l' e => by cases e⟩
    | some b =>
      simp only [R.ok_bind]
      have hsp := weight_split l i a b h1 h2
      have hi : (l.take i).length = i := by
        rw [List.length_take]
        have := (List.getElem?_eq_some_iff.1 h1).1
        omega
      have hw : weight l = weight (l.take i) + (a.count + b.count + weight (l.drop (i + 2))) := by
        conv => lhs; rw [hsp]
        unfold weight
        simp only [List.map_append, List.map_cons, List.sum_append, List.sum_cons]
        omega
      rw [hA.add _ _ (by omega), R.ok_bind]
      refine ⟨rfl, ?_⟩
      intro l' e
      have e' := (Except.ok.inj e).symm
      rw [e']
      generalize hx : (HuffmanNode.internal (a.count + b.count) a b) = x
      have hxc : x.count = a.count + b.count := by rw [← hx]; rfl
      have : (l.eraseIdx (i + 1)).set i x = l.take i ++ x :: l.drop (i + 2) := by
        conv => lhs; rw [hsp]
        rw [List.eraseIdx_append_of_length_le (by omega), List.set_append_right _ _ (by omega), hi,
          show i + 1 - i = 1 by omega, show i - i = 0 by omega]
        rfl
      rw [this, hw]
      unfold weight
      simp only [List.map_append, List.map_cons, List.sum_append, List.sum_cons, hxc]

theorem mergeLoop_same (hA : Exact A) (parts fuel : Nat) : ∀ (l : List HuffmanNode), weight l < 2 ^ 64 →
    mergeLoop A parts fuel l = OptimizeBytes.mergeLoop parts fuel l := by
  induction fuel with
  | zero => intro l _; rfl
  | succ fuel ih =>
    intro l h
    unfold mergeLoop OptimizeBytes.mergeLoop
    split
    · rw [bestPair_same hA _ _ _ h, R.ok_bind]
      cases hb : unwrapR (OptimizeBytes.bestPair l 0 none) with
      | error e => simp only [R.error_bind, Except.map]
      | ok x =>
        obtain ⟨i, m⟩ := x
        simp only [R.ok_bind]
        obtain ⟨g1, g2⟩ := mergeAt_same hA l i h
        rw [g1]
        cases hm : OptimizeBytes.mergeAt l i with
        | error e => simp only [R.error_bind, Except.map]
        | ok l' =>
          simp only [R.ok_bind]
          exact ih l' (by rw [g2 l' hm]; exact h)
    · rfl

/-- The sum of the counts. -/
def countSum (l : Counts) : Nat := (l.map Prod.snd).sum

theorem optimizeSplits_same (hA : Exact A) (counts : Counts) (parts : Nat) (h : countSum counts < 2 ^ 64) :
    optimizeSplits A counts parts = OptimizeBytes.optimizeSplits counts parts := by
  unfold optimizeSplits OptimizeBytes.optimizeSplits
  rw [mergeLoop_same hA _ _ _ (by
    unfold weight countSum at *
    rw [List.map_map]
    exact h)]

theorem countSum_sublist {a b : Counts} (h : a.Sublist b) : countSum a ≤ countSum b := by
  induction h with
  | slnil => exact Nat.le_refl _
  | cons x _ ih => unfold countSum at *; simp only [List.map_cons, List.sum_cons]; omega
  | cons_cons x _ ih => unfold countSum at *; simp only [List.map_cons, List.sum_cons]; omega

theorem subCounts_sublist {counts sub : Counts} {split : CharsSplit} {lo hi : Nat}
    (h : subCounts counts split lo hi = .ok sub) : sub.Sublist counts := by
  unfold subCounts at h
  obtain ⟨x, h1, h⟩ := ok_bind_inv h
  obtain ⟨i, h2, h⟩ := ok_bind_inv h
  split at h
  · have e := (Except.ok.inj h).symm
    rw [e]
    unfold OptimizeBytes.sliceR at h1
    split at h1
    · have e1 := (Except.ok.inj h1).symm
      rw [e1]
      exact (List.eraseIdx_sublist _ _).trans ((List.take_sublist _ _).trans (List.drop_sublist _ _))
    · cases h1
  · cases h

theorem extLoop_congr {r1 r2 : Counts → R (List (UInt8 × List Nat))} {counts : Counts}
    (h : ∀ l, l.Sublist counts → r1 l = r2 l) (splits : List CharsSplit) :
    ∀ (i : Nat) (encs : List (UInt8 × List Nat)),
    extLoop r1 counts splits i encs = extLoop r2 counts splits i encs := by
  induction splits with
  | nil => intro i encs; rfl
  | cons s rest ih =>
    intro i encs
    unfold extLoop
    cases hg : groupBounds counts s rest.head? with
    | error e => simp only [R.error_bind, Except.map]
    | ok x =>
      obtain ⟨lo, hi⟩ := x
      simp only [R.ok_bind]
      split
      · exact ih _ _
      · cases hs : subCounts counts s lo hi with
        | error e => simp only [R.error_bind, Except.map]
        | ok sub =>
          simp only [R.ok_bind]
          rw [h sub (subCounts_sublist hs)]
          cases r2 sub with
          | error e => simp only [R.error_bind, Except.map]
          | ok es => exact ih _ _

theorem extEncoding_same (hA : Exact A) (nExt fuel : Nat) : ∀ (counts : Counts),
    countSum counts < 2 ^ 64 → extEncoding A nExt fuel counts = OptimizeBytes.extEncoding nExt fuel counts := by
  induction fuel with
  | zero => intro counts _; rfl
  | succ fuel ih =>
    intro counts h
    unfold extEncoding OptimizeBytes.extEncoding
    split
    · rfl
    · rw [optimizeSplits_same hA _ _ h]
      cases OptimizeBytes.optimizeSplits counts nExt with
      | error e => simp only [R.error_bind, Except.map]
      | ok splits =>
        simp only [R.ok_bind]
        exact extLoop_congr (fun l hl => ih l (Nat.lt_of_le_of_lt (countSum_sublist hl) h)) _ _ _

theorem tokensetLoop_same (hA : Exact A) (counts : Counts) (nExt : Nat) (h : countSum counts < 2 ^ 64)
    (splits : List CharsSplit) : ∀ ts,
    tokensetLoop A counts nExt splits ts = OptimizeBytes.tokensetLoop counts nExt splits ts := by
  induction splits with
  | nil => intro ts; rfl
  | cons s rest ih =>
    intro ts
    unfold tokensetLoop OptimizeBytes.tokensetLoop
    cases ts.addToken [s.top] with
    | error e => simp only [R.error_bind, Except.map]
    | ok x =>
      obtain ⟨ts1, top⟩ := x
      simp only [R.ok_bind]
      cases hg : groupBounds counts s rest.head? with
      | error e => simp only [R.error_bind, Except.map]
      | ok x =>
        obtain ⟨lo, hi⟩ := x
        simp only [R.ok_bind]
        split
        · exact ih _
        · cases hs : subCounts counts s lo hi with
          | error e => simp only [R.error_bind, Except.map]
          | ok sub =>
            simp only [R.ok_bind]
            rw [extEncoding_same hA _ _ _ (Nat.lt_of_le_of_lt (countSum_sublist (subCounts_sublist hs)) h)]
            cases OptimizeBytes.extEncoding nExt (sub.length + 1) sub with
            | error e => simp only [R.error_bind, Except.map]
            | ok es => exact ih _

theorem bytesTokenset_same (hA : Exact A) (counts : Counts) (nChar nExt : Nat) (p : Processing)
    (h : countSum counts < 2 ^ 64) :
    bytesTokenset A counts nChar nExt p = OptimizeBytes.bytesTokenset counts nChar nExt p := by
  unfold bytesTokenset OptimizeBytes.bytesTokenset
  cases TokenSet.new nExt p .bytesHuff true with
  | error e => simp only [R.error_bind, Except.map]
  | ok ts =>
    simp only [R.ok_bind]
    rw [optimizeSplits_same hA _ _ h]
    cases OptimizeBytes.optimizeSplits counts nChar with
    | error e => simp only [R.error_bind, Except.map]
    | ok splits => exact tokensetLoop_same hA _ _ h _ _

theorem huffTokens_same (hA : Exact A) (l : List (Token × Nat)) (h : ∀ p ∈ l, p.2 + 1 < 2 ^ 64)
    (cs : Counts) : huffTokens A l cs = .ok (OptimizeBytes.huffTokens l cs) := by
  fun_induction OptimizeBytes.huffTokens l cs with
  | case1 => rfl
  | case2 b c l cs ih =>
    rw [huffTokens, hA.add c 1 (h (.str [b], c) (by simp)), R.ok_bind]
    exact ih (fun q hq => h q (by simp [hq]))
  | case3 p l cs hne ih =>
    rw [huffTokens]
    · exact ih (fun q hq => h q (by simp [hq]))
    · exact hne

theorem huffSeqs_same (hA : Exact A) (l : List (Sequence × Nat)) (h : ∀ p ∈ l, p.2 + 1 < 2 ^ 64)
    (cs : Counts) : huffSeqs A l cs = OptimizeBytes.huffSeqs l cs := by
  fun_induction OptimizeBytes.huffSeqs l cs with
  | case1 => rfl
  | case2 q c l cs b hq ih =>
    rw [huffSeqs]
    simp only [hq]
    rw [hA.add c 1 (h (q, c) (by simp)), R.ok_bind]
    exact ih (fun q hq => h q (by simp [hq]))
  | case3 q c l cs hne =>
    rw [huffSeqs]
    split
    · next b hb => exact absurd hb (hne b)
    · rfl

theorem huffCounts_same (hA : Exact A) (st : TokenStats) (h1 : ∀ c ∈ st.tokenCounts, c + 1 < 2 ^ 64)
    (h2 : ∀ c ∈ st.seqCounts, c + 1 < 2 ^ 64) : huffCounts A st = OptimizeBytes.huffCounts st := by
  unfold huffCounts OptimizeBytes.huffCounts
  rw [huffTokens_same hA _ (fun p hp => h1 _ (List.of_mem_zip hp).2), R.ok_bind,
    huffSeqs_same hA _ (fun p hp => h2 _ (List.of_mem_zip hp).2)]

theorem costTokens_same (hA : Exact A) (counts : Counts) (toks : List Token) : ∀ (total t : Nat),
    OptimizeBytes.costTokens counts toks total = .ok t → t < 2 ^ 64 →
    costTokens A counts toks total = .ok t ∧ total ≤ t := by
  induction toks with
  | nil => intro total t h _; cases h; exact ⟨rfl, Nat.le_refl _⟩
  | cons x toks ih =>
    intro total t h ht
    unfold OptimizeBytes.costTokens at h
    unfold costTokens
    cases x with
    | ext n => exact ih _ _ h ht
    | str s =>
      simp only at h ⊢
      split at h
      · obtain ⟨c, hc, h⟩ := ok_bind_inv h
        have hle : total + c ≤ t := by
          have := ih _ _ h ht
          exact this.2
        simp only [hc, R.ok_bind]
        rw [hA.add _ _ (by omega), R.ok_bind]
        exact ⟨(ih _ _ h ht).1, by omega⟩
      · cases h

theorem costSeqs_same (hA : Exact A) (counts : Counts) (qs : List Sequence) : ∀ (total t : Nat),
    OptimizeBytes.costSeqs counts qs total = .ok t → t < 2 ^ 64 →
    costSeqs A counts qs total = .ok t ∧ total ≤ t := by
  induction qs with
  | nil => intro total t h _; cases h; exact ⟨rfl, Nat.le_refl _⟩
  | cons q qs ih =>
    intro total t h ht
    unfold OptimizeBytes.costSeqs at h
    unfold costSeqs
    split at h
    · next b hb =>
      obtain ⟨c, hc, h⟩ := ok_bind_inv h
      have hle : total + c * q.tokens.length ≤ t := (ih _ _ h ht).2
      simp only [hb, hc, R.ok_bind]
      rw [hA.mul _ _ (by omega), R.ok_bind, hA.add _ _ (by omega), R.ok_bind]
      exact ⟨(ih _ _ h ht).1, by omega⟩
    · cases h

end MachineOpt
end Tokens
