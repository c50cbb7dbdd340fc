import Verif.Spec.AddUp
import Verif.Proofs.Accounting
import Verif.Proofs.Traceback

/-!
The counters of a tokenization add up: first for one segmentation, then for all samples.
-/

namespace Tokens
open Spec

theorem sumTo_append (n m : Nat) (f : Nat → Nat) : sumTo (n + m) f = sumTo n f + sumTo m (fun i => f (n + i)) := by
  induction m with
  | zero => simp [sumTo]
  | succ m ih => rw [← Nat.add_assoc, sumTo_succ, ih, sumTo_succ]; omega

theorem sumTo_mul (n m : Nat) (f : Nat → Nat) :
    sumTo (n * m) f = sumTo n (fun a => sumTo m (fun b => f (a * m + b))) := by
  induction n with
  | zero => simp [sumTo]
  | succ n ih => rw [Nat.succ_mul, sumTo_append, ih, sumTo_succ]

theorem sumTo_le {n : Nat} {f g : Nat → Nat} (h : ∀ i < n, f i ≤ g i) : sumTo n f ≤ sumTo n g := by
  induction n with
  | zero => exact Nat.le_refl _
  | succ n ih =>
    rw [sumTo_succ, sumTo_succ]
    have := ih (fun i hi => h i (by omega)); have := h n (by omega); omega

theorem le_sumTo {n k : Nat} {f : Nat → Nat} (hk : k < n) : f k ≤ sumTo n f := by
  have h := sumTo_single hk (f k)
  rw [← h]
  refine sumTo_le fun i _ => ?_
  split
  · next e => rw [e]; exact Nat.le_refl _
  · exact Nat.zero_le _

/-- All pieces are pieces of the set. -/
def PiecesIn (N M : Nat) (ps : List Piece) : Prop :=
  ∀ p ∈ ps, match p with
    | .tok i => i < N
    | .seq j => j < M

theorem count_tok_cons (x i : Nat) (ps : List Piece) :
    (Piece.tok x :: ps).count (.tok i) = ps.count (.tok i) + if i = x then 1 else 0 := by
  rw [List.count_cons]
  by_cases h : i = x
  · subst h; simp
  · have : (Piece.tok x == Piece.tok i) = false := by simp; exact fun h' => h h'.symm
    simp [this, h]

theorem count_seq_cons (x i : Nat) (ps : List Piece) :
    (Piece.seq x :: ps).count (.seq i) = ps.count (.seq i) + if i = x then 1 else 0 := by
  rw [List.count_cons]
  by_cases h : i = x
  · subst h; simp
  · have : (Piece.seq x == Piece.seq i) = false := by simp; exact fun h' => h h'.symm
    simp [this, h]

theorem count_tok_seq (x i : Nat) (ps : List Piece) : (Piece.seq x :: ps).count (.tok i) = ps.count (.tok i) := by
  rw [List.count_cons]; simp

theorem count_seq_tok (x i : Nat) (ps : List Piece) : (Piece.tok x :: ps).count (.seq i) = ps.count (.seq i) := by
  rw [List.count_cons]; simp

/-- The pairs that begin with `a`. -/
theorem row_le (N a : Nat) (ps : List Piece) : sumTo N (fun b => pairOcc a b ps) ≤ ps.count (.tok a) := by
  induction ps with
  | nil => simp [pairOcc, sumTo_zero]
  | cons p rest ih =>
    cases p with
    | seq j => rw [count_tok_seq]; simpa [pairOcc] using ih
    | tok x =>
      rw [count_tok_cons]
      cases rest with
      | nil => simp [pairOcc, sumTo_zero]
      | cons q rest =>
        cases q with
        | seq j => simp only [pairOcc] at ih ⊢; omega
        | tok y =>
          simp only [pairOcc] at ih ⊢
          rw [sumTo_add]
          by_cases hx : a = x
          · subst hx
            by_cases hy : y < N
            · have := sumTo_single hy 1
              rw [sumTo_congr (f := fun i => if a = a ∧ y = i then 1 else 0) (g := fun i => if i = y then 1 else 0)
                (fun i _ => by by_cases h : i = y <;> simp [h, eq_comm (b := i)])]
              rw [this]; simp only [if_true]; omega
            · rw [sumTo_congr (f := fun i => if a = a ∧ y = i then 1 else 0) (g := fun _ => 0)
                (fun i hi => if_neg (by omega)), sumTo_zero]
              omega
          · rw [sumTo_congr (f := fun i => if x = a ∧ y = i then 1 else 0) (g := fun _ => 0)
              (fun i hi => if_neg (by omega)), sumTo_zero]
            omega

/-- The pairs that end with `b`. -/
theorem column_cons_le (N b : Nat) (ps : List Piece) : ∀ p : Piece,
    sumTo N (fun a => pairOcc a b (p :: ps)) ≤ ps.count (.tok b) := by
  induction ps with
  | nil => intro p; cases p <;> simp [pairOcc, sumTo_zero]
  | cons q rest ih =>
    intro p
    have ihq := ih q
    have hle : sumTo N (fun a => pairOcc a b (q :: rest)) ≤ (q :: rest).count (.tok b) := by
      refine Nat.le_trans ihq ?_
      rw [List.count_cons]; omega
    cases p with
    | seq j => simpa [pairOcc] using hle
    | tok x =>
      cases q with
      | seq j => simp only [pairOcc] at hle ⊢; exact hle
      | tok y =>
        simp only [pairOcc]
        rw [sumTo_add, count_tok_cons]
        by_cases hy : b = y
        · subst hy
          by_cases hx : x < N
          · rw [sumTo_congr (f := fun i => if x = i ∧ b = b then 1 else 0) (g := fun i => if i = x then 1 else 0)
              (fun i _ => by by_cases h : i = x <;> simp [h, eq_comm (b := i)]), sumTo_single hx 1]
            simp only [if_true]; omega
          · rw [sumTo_congr (f := fun i => if x = i ∧ b = b then 1 else 0) (g := fun _ => 0)
              (fun i hi => if_neg (by omega)), sumTo_zero]
            omega
        · rw [sumTo_congr (f := fun i => if x = i ∧ y = b then 1 else 0) (g := fun _ => 0)
            (fun i hi => if_neg (by omega)), sumTo_zero]
          omega

theorem column_le (N b : Nat) (ps : List Piece) : sumTo N (fun a => pairOcc a b ps) ≤ ps.count (.tok b) := by
  cases ps with
  | nil => simp [pairOcc, sumTo_zero]
  | cons p ps =>
    have := column_cons_le N b ps p
    rw [List.count_cons]; omega

/-- All pairs of a segmentation. -/
def allPairs (N : Nat) (ps : List Piece) : Nat := sumTo N (fun a => sumTo N (fun b => pairOcc a b ps))
def allToks (N : Nat) (ps : List Piece) : Nat := sumTo N (fun i => ps.count (.tok i))
def allSeqs (M : Nat) (ps : List Piece) : Nat := sumTo M (fun j => ps.count (.seq j))

theorem allPairs_two {N x y : Nat} (hx : x < N) (hy : y < N) (ps : List Piece) :
    allPairs N (.tok x :: .tok y :: ps) = 1 + allPairs N (.tok y :: ps) := by
  unfold allPairs
  rw [← sumTo_single hx 1, ← sumTo_add]
  refine sumTo_congr fun a _ => ?_
  simp only [pairOcc]
  rw [sumTo_add]
  congr 1
  by_cases h : a = x
  · subst h
    rw [if_pos rfl, sumTo_congr (g := fun i => if i = y then 1 else 0)
      (fun i _ => by by_cases h : i = y <;> simp [h, eq_comm (b := i)]), sumTo_single hy 1]
  · rw [if_neg h, sumTo_congr (g := fun _ => 0) (fun i hi => if_neg (by omega)), sumTo_zero]

theorem allToks_tok {N x : Nat} (hx : x < N) (ps : List Piece) : allToks N (.tok x :: ps) = allToks N ps + 1 := by
  unfold allToks
  rw [sumTo_congr (fun i _ => count_tok_cons x i ps), sumTo_add, sumTo_single hx]

theorem allToks_seq (N x : Nat) (ps : List Piece) : allToks N (.seq x :: ps) = allToks N ps := by
  unfold allToks
  exact sumTo_congr (fun i _ => count_tok_seq x i ps)

theorem allSeqs_seq {M x : Nat} (hx : x < M) (ps : List Piece) : allSeqs M (.seq x :: ps) = allSeqs M ps + 1 := by
  unfold allSeqs
  rw [sumTo_congr (fun i _ => count_seq_cons x i ps), sumTo_add, sumTo_single hx]

theorem allSeqs_tok (M x : Nat) (ps : List Piece) : allSeqs M (.tok x :: ps) = allSeqs M ps := by
  unfold allSeqs
  exact sumTo_congr (fun i _ => count_seq_tok x i ps)

theorem all_nil (N M : Nat) : allPairs N [] = 0 ∧ allToks N [] = 0 ∧ allSeqs M [] = 0 := by
  simp [allPairs, allToks, allSeqs, pairOcc, sumTo_zero]

theorem allPairs_seq (N j : Nat) (ps : List Piece) : allPairs N (.seq j :: ps) = allPairs N ps := by
  simp [allPairs, pairOcc]

theorem allPairs_tok_seq (N x j : Nat) (ps : List Piece) : allPairs N (.tok x :: .seq j :: ps) = allPairs N ps := by
  simp [allPairs, pairOcc]

theorem allPairs_one (N x : Nat) : allPairs N [.tok x] = 0 := by
  simp [allPairs, pairOcc, sumTo_zero]

def one (ps : List Piece) : Nat := if ps = [] then 0 else 1

theorem one_cons (p : Piece) (ps : List Piece) : one (p :: ps) = 1 := by simp [one]

theorem one_le (ps : List Piece) : one ps ≤ 1 := by unfold one; split <;> omega

theorem pieces_few {N M : Nat} : ∀ ps : List Piece, PiecesIn N M ps →
    allPairs N ps + one ps ≤ allToks N ps + allSeqs M ps
  | [], _ => by simp [all_nil N M, one]
  | [.tok x], h => by
    have hx : x < N := h (.tok x) (by simp)
    rw [allPairs_one, allToks_tok hx]; simp [one]; omega
  | .tok x :: .tok y :: ps, h => by
    have hx : x < N := h (.tok x) (by simp)
    have hy : y < N := h (.tok y) (by simp)
    have ih := pieces_few (.tok y :: ps) (fun p hp => h p (List.mem_cons_of_mem _ hp))
    rw [allPairs_two hx hy, allToks_tok hx, allSeqs_tok]
    simp only [one_cons] at ih ⊢
    omega
  | .tok x :: .seq j :: ps, h => by
    have hx : x < N := h (.tok x) (by simp)
    have hj : j < M := h (.seq j) (by simp)
    have ih := pieces_few ps (fun p hp => h p (by simp [hp]))
    rw [allPairs_tok_seq, allToks_tok hx, allSeqs_tok, allToks_seq, allSeqs_seq hj]
    simp only [one_cons] at ih ⊢
    omega
  | .seq j :: ps, h => by
    have hj : j < M := h (.seq j) (by simp)
    have ih := pieces_few ps (fun p hp => h p (by simp [hp]))
    rw [allPairs_seq, allToks_seq, allSeqs_seq hj]
    simp only [one_cons] at ih ⊢
    omega

theorem pieces_many {N M : Nat} : ∀ ps : List Piece, PiecesIn N M ps →
    allToks N ps ≤ allPairs N ps + allSeqs M ps + one ps
  | [], _ => by simp [all_nil N M, one]
  | [.tok x], h => by
    have hx : x < N := h (.tok x) (by simp)
    rw [allPairs_one, allToks_tok hx, (all_nil N M).2.1]; simp [one]
  | .tok x :: .tok y :: ps, h => by
    have hx : x < N := h (.tok x) (by simp)
    have hy : y < N := h (.tok y) (by simp)
    have ih := pieces_many (.tok y :: ps) (fun p hp => h p (List.mem_cons_of_mem _ hp))
    rw [allPairs_two hx hy, allToks_tok hx, allSeqs_tok]
    simp only [one_cons] at ih ⊢
    omega
  | .tok x :: .seq j :: ps, h => by
    have hx : x < N := h (.tok x) (by simp)
    have hj : j < M := h (.seq j) (by simp)
    have ih := pieces_many ps (fun p hp => h p (by simp [hp]))
    have := one_le ps
    rw [allPairs_tok_seq, allToks_tok hx, allSeqs_tok, allToks_seq, allSeqs_seq hj]
    simp only [one_cons] at ih ⊢
    omega
  | .seq j :: ps, h => by
    have hj : j < M := h (.seq j) (by simp)
    have ih := pieces_many ps (fun p hp => h p (by simp [hp]))
    have := one_le ps
    rw [allPairs_seq, allToks_seq, allSeqs_seq hj]
    simp only [one_cons] at ih ⊢
    omega

theorem spells_pieces {ts : TokenSet} {ps : List Piece} {t : Bytes} (h : Spells ts ps t) :
    PiecesIn ts.tokens.length ts.sequences.length ps := by
  induction h with
  | nil => intro p hp; simp at hp
  | @cons p s ps t hp h ih =>
    intro q hq
    rcases List.mem_cons.1 hq with rfl | hq
    · cases q with
      | tok i => exact FragmentTokenizer.tok_lt hp
      | seq j =>
        rw [Piece.string_seq] at hp
        obtain ⟨q, hq, _⟩ := hp
        exact (List.getElem?_eq_some_iff.1 hq).1
    · exact ih q hq

/-- The tokens a sequence lists. -/
def seqToks (ts : TokenSet) (j : Nat) : List Nat := ((ts.sequences[j]?).map (·.tokens)).getD []

/-- Where the output tokens of a segmentation come from. -/
theorem output_count {ts : TokenSet} (i : Nat) {ps : List Piece}
    (h : PiecesIn ts.tokens.length ts.sequences.length ps) :
    (output ts ps).count i =
      ps.count (.tok i) + sumTo ts.sequences.length (fun j => ps.count (.seq j) * (seqToks ts j).count i) := by
  induction ps with
  | nil => simp [output, sumTo_zero]
  | cons p ps ih =>
    have ih := ih (fun q hq => h q (by simp [hq]))
    rw [output_cons, List.count_append, ih]
    cases p with
    | tok x =>
      rw [count_tok_cons, sumTo_congr (f := fun j => (Piece.tok x :: ps).count (.seq j) * _) (fun j _ => by rw [count_seq_tok])]
      simp only [Piece.output, List.count_cons, List.count_nil, beq_iff_eq, eq_comm (a := x)]
      omega
    | seq k =>
      have hk : k < ts.sequences.length := h (.seq k) (by simp)
      rw [count_tok_seq, sumTo_congr (f := fun j => (Piece.seq k :: ps).count (.seq j) * (seqToks ts j).count i)
        (g := fun j => ps.count (.seq j) * (seqToks ts j).count i + if j = k then (seqToks ts k).count i else 0)
        (fun j _ => by
          rw [count_seq_cons, Nat.add_mul]
          by_cases h : j = k
          · subst h; simp
          · simp [h]), sumTo_add, sumTo_single hk]
      have : (Piece.output ts (.seq k)).count i = (seqToks ts k).count i := by
        simp only [Piece.output, seqToks, List.getElem?_eq_getElem hk, Option.map_some, Option.getD_some]
      omega

theorem output_length {ts : TokenSet} {ps : List Piece}
    (h : PiecesIn ts.tokens.length ts.sequences.length ps) :
    (output ts ps).length = allToks ts.tokens.length ps +
      sumTo ts.sequences.length (fun j => ps.count (.seq j) * (seqToks ts j).length) := by
  induction ps with
  | nil => simp [output, allToks, sumTo_zero]
  | cons p ps ih =>
    have ih := ih (fun q hq => h q (by simp [hq]))
    rw [output_cons, List.length_append, ih]
    cases p with
    | tok x =>
      have hx : x < ts.tokens.length := h (.tok x) (by simp)
      rw [allToks_tok hx, sumTo_congr (f := fun j => (Piece.tok x :: ps).count (.seq j) * _) (fun j _ => by rw [count_seq_tok])]
      simp only [Piece.output, List.length_singleton]
      omega
    | seq k =>
      have hk : k < ts.sequences.length := h (.seq k) (by simp)
      rw [allToks_seq, sumTo_congr (f := fun j => (Piece.seq k :: ps).count (.seq j) * (seqToks ts j).length)
        (g := fun j => ps.count (.seq j) * (seqToks ts j).length + if j = k then (seqToks ts k).length else 0)
        (fun j _ => by
          rw [count_seq_cons, Nat.add_mul]
          by_cases h : j = k
          · subst h; simp
          · simp [h]), sumTo_add, sumTo_single hk]
      have : (Piece.output ts (.seq k)).length = (seqToks ts k).length := by
        simp only [Piece.output, seqToks, List.getElem?_eq_getElem hk, Option.map_some, Option.getD_some]
      omega


theorem spells_string {ts : TokenSet} {ps : List Piece} {t : Bytes} (h : Spells ts ps t) :
    ∀ p ∈ ps, ∃ s, p.string ts = some s := by
  induction h with
  | nil => intro p hp; simp at hp
  | @cons p s ps t hp h ih =>
    intro q hq
    rcases List.mem_cons.1 hq with rfl | hq
    · exact ⟨s, hp⟩
    · exact ih q hq

/-! ### All samples -/

theorem sumTo_sum {α : Type} (n : Nat) (g : Nat → α → Nat) (l : List α) :
    sumTo n (fun i => (l.map (g i)).sum) = (l.map (fun x => sumTo n (fun i => g i x))).sum := by
  induction l with
  | nil => simp [sumTo_zero]
  | cons x l ih => simp only [List.map_cons, List.sum_cons]; rw [sumTo_add, ih]

theorem sum_le {α : Type} {f g : α → Nat} {l : List α} (h : ∀ x ∈ l, f x ≤ g x) : (l.map f).sum ≤ (l.map g).sum := by
  induction l with
  | nil => exact Nat.le_refl _
  | cons x l ih =>
    simp only [List.map_cons, List.sum_cons]
    have := ih (fun y hy => h y (by simp [hy])); have := h x (by simp); omega

theorem sum_plus {α : Type} (f g : α → Nat) (l : List α) :
    (l.map (fun x => f x + g x)).sum = (l.map f).sum + (l.map g).sum := by
  induction l with
  | nil => rfl
  | cons x l ih => simp only [List.map_cons, List.sum_cons, ih]; omega

theorem sum_times {α : Type} (f : α → Nat) (c : Nat) (l : List α) :
    (l.map f).sum * c = (l.map (fun x => f x * c)).sum := by
  induction l with
  | nil => simp
  | cons x l ih => simp only [List.map_cons, List.sum_cons, Nat.add_mul, ih]

theorem addUp_of {ts : TokenSet} {d} {samples : List Bytes} {st : TokenStats} (hsh : Shaped ts st)
    (seg : Bytes → List Piece) (hseg : ∀ x, Spells ts (seg x) x ∧ d x = segCount ts (seg x) x.length)
    (hne : ∀ (p : Piece) s, p.string ts = some s → s ≠ [])
    (hc : ∀ ix, cnt st ix = workSum d samples ix) : AddUp samples st := by
  have hts := hsh.tokenSet
  have hin : ∀ x, PiecesIn ts.tokens.length ts.sequences.length (seg x) := fun x => spells_pieces (hseg x).1
  have hd : ∀ x ix, d x ix = segCount ts (seg x) x.length ix := fun x ix => congrFun (hseg x).2 ix
  have hseqs : ∀ j, j < ts.sequences.length →
      st.seqCounts.getD j 0 = (samples.map (fun x => (seg x).count (.seq j))).sum := by
    intro j hj
    have := hc (.seq j)
    simp only [cnt, workSum, hd, segCount, if_pos hj] at this
    exact this
  have hins : ∀ i, insideSequences st i = (samples.map (fun x => sumTo ts.sequences.length
      (fun j => (seg x).count (.seq j) * (seqToks ts j).count i))).sum := by
    intro i
    unfold insideSequences
    rw [hts, ← sumTo_sum]
    refine sumTo_congr fun j hj => ?_
    rw [hseqs j hj, sum_times]
    rfl
  have htok : ∀ i, i < ts.tokens.length → st.tokenCounts.getD i 0 =
      (samples.map (fun x => (seg x).count (.tok i))).sum + insideSequences st i := by
    intro i hi
    have := hc (.tok i)
    simp only [cnt, workSum, hd, segCount, if_pos hi] at this
    rw [this, hins, ← sum_plus]
    congr 1
    exact List.map_congr_left fun x _ => output_count i (hin x)
  have hfor : ∀ i, i < ts.tokens.length → forItself st i = (samples.map (fun x => (seg x).count (.tok i))).sum := by
    intro i hi; unfold forItself; rw [htok i hi]; omega
  have hpair : ∀ a, a < ts.tokens.length → ∀ b, b < ts.tokens.length →
      pairCount st a b = (samples.map (fun x => pairOcc a b (seg x))).sum := by
    intro a ha b hb
    have := hc (.pair (a * ts.tokens.length + b))
    have hN : 0 < ts.tokens.length := by omega
    have e1 : (a * ts.tokens.length + b) / ts.tokens.length = a := by
      rw [Nat.mul_comm, Nat.mul_add_div hN, Nat.div_eq_of_lt hb]; omega
    have e2 : (a * ts.tokens.length + b) % ts.tokens.length = b := by
      rw [Nat.mul_comm, Nat.mul_add_mod, Nat.mod_eq_of_lt hb]
    have e3 : a * ts.tokens.length + b < ts.tokens.length * ts.tokens.length := by
      have := Nat.mul_le_mul_right ts.tokens.length (show a + 1 ≤ ts.tokens.length by omega)
      rw [Nat.succ_mul] at this; omega
    simp only [cnt, workSum, hd, segCount, if_pos e3, e1, e2] at this
    unfold pairCount
    rw [hts]
    exact this
  have hpairs : st.pairCounts.sum = (samples.map (fun x => allPairs ts.tokens.length (seg x))).sum := by
    rw [sum_eq_sumTo, hsh.pairCounts, sumTo_mul]
    unfold allPairs
    rw [← sumTo_sum]
    refine sumTo_congr fun a ha => ?_
    rw [← sumTo_sum]
    refine sumTo_congr fun b hb => ?_
    have := hpair a ha b hb
    unfold pairCount at this
    rw [hts] at this
    exact this
  have htoks : sumTo ts.tokens.length (forItself st) = (samples.map (fun x => allToks ts.tokens.length (seg x))).sum := by
    unfold allToks
    rw [← sumTo_sum]
    exact sumTo_congr fun i hi => hfor i hi
  have hsq : st.seqCounts.sum = (samples.map (fun x => allSeqs ts.sequences.length (seg x))).sum := by
    rw [sum_eq_sumTo, hsh.seqCounts]
    unfold allSeqs
    rw [← sumTo_sum]
    exact sumTo_congr fun i hi => hseqs i hi
  have hone : (samples.filter (· ≠ [])).length = (samples.map (fun x => one (seg x))).sum := by
    clear hpairs htoks hsq hpair hfor htok hins hseqs hc
    induction samples with
    | nil => rfl
    | cons x l ih =>
      have hiff : seg x = [] ↔ x = [] := by
        have h := (hseg x).1
        constructor
        · intro e; rw [e] at h; cases h; rfl
        · intro e
          generalize seg x = ps at h
          subst e
          generalize he : ([] : Bytes) = t at h
          cases h with
          | nil => rfl
          | cons hp _ => exact absurd (List.append_eq_nil_iff.1 he.symm).1 (hne _ _ hp)
      simp only [List.map_cons, List.sum_cons, List.filter_cons]
      rw [← ih]
      by_cases hx : x = []
      · have h1 : one (seg x) = 0 := by rw [hiff.2 hx]; rfl
        rw [h1, if_neg (by simp [hx])]; omega
      · have : seg x ≠ [] := fun h => hx (hiff.1 h)
        simp [hx, this, one]; omega
  refine ⟨?_, ?_, ?_, ?_, ?_, ?_, ?_⟩
  · rw [hts]; intro i hi; rw [htok i hi]; omega
  · rw [hts]
    intro i k hk
    rw [hfor i (List.getElem?_eq_some_iff.1 hk).1]
    have : ∀ x, (seg x).count (.tok i) = 0 := by
      intro x
      rw [List.count_eq_zero]
      intro hmem
      obtain ⟨s, hs⟩ := spells_string (hseg x).1 _ hmem
      rw [Piece.string_tok, hk] at hs
      cases hs
    simp [this]
  · rw [hts]
    intro a ha
    rw [hfor a ha, sumTo_congr (fun b hb => hpair a ha b hb), sumTo_sum]
    exact sum_le fun x _ => row_le _ a (seg x)
  · rw [hts]
    intro b hb
    rw [hfor b hb, sumTo_congr (fun a ha => hpair a ha b hb), sumTo_sum]
    exact sum_le fun x _ => column_le _ b (seg x)
  · rw [hts, hpairs, htoks, hsq, hone, ← sum_plus, ← sum_plus]
    exact sum_le fun x _ => pieces_few _ (hin x)
  · rw [hts, hpairs, htoks, hsq, hone, ← sum_plus, ← sum_plus]
    exact sum_le fun x _ => pieces_many _ (hin x)
  · rw [hts, htoks]
    have h1 := hc .total
    simp only [cnt, workSum, hd, segCount] at h1
    rw [h1, List.map_congr_left (fun x _ => output_length (hin x)), sum_plus]
    congr 1
    rw [← sumTo_sum]
    refine sumTo_congr fun j hj => ?_
    rw [hseqs j hj, sum_times]
    rfl

end Tokens
