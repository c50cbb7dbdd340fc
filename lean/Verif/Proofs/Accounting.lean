import Verif.Proofs.Batch
import Verif.Spec.Merging
import Mathlib.Data.List.Induction

/-! Accounting identities and comparison of costs between token sets. -/

set_option linter.unusedSimpArgs false
set_option linter.unusedVariables false

namespace Tokens
open Spec FragmentTokenizer

theorem sumTo_succ (n : Nat) (f : Nat → Nat) : sumTo (n + 1) f = sumTo n f + f n := by
  simp [sumTo, List.range_succ]

theorem sumTo_add (n : Nat) (f g : Nat → Nat) :
    sumTo n (fun i => f i + g i) = sumTo n f + sumTo n g := by
  induction n with
  | zero => rfl
  | succ n ih => simp only [sumTo_succ, ih]; omega

theorem sumTo_zero (n : Nat) : sumTo n (fun _ => 0) = 0 := by
  induction n with
  | zero => rfl
  | succ n ih => simp only [sumTo_succ, ih]

theorem sumTo_congr {n : Nat} {f g : Nat → Nat} (h : ∀ i < n, f i = g i) : sumTo n f = sumTo n g := by
  induction n with
  | zero => rfl
  | succ n ih =>
    rw [sumTo_succ, sumTo_succ, ih (fun i hi => h i (by omega)), h n (by omega)]

theorem sumTo_single {n k : Nat} (hk : k < n) (v : Nat) :
    sumTo n (fun i => if i = k then v else 0) = v := by
  induction n with
  | zero => omega
  | succ n ih =>
    rw [sumTo_succ]
    by_cases h : k < n
    · rw [ih h, if_neg (by omega)]; rfl
    · have : k = n := by omega
      subst this
      rw [sumTo_congr (g := fun _ => 0) (fun i hi => if_neg (by omega)), sumTo_zero]
      simp

/-- Weighted sum of the counts of a list of numbers. -/
theorem sumTo_count {n : Nat} (w : Nat → Nat) {l : List Nat} (h : ∀ x ∈ l, x < n) :
    sumTo n (fun i => w i * l.count i) = (l.map w).sum := by
  induction l with
  | nil => simpa using sumTo_zero n
  | cons x l ih =>
    have ih := ih (fun y hy => h y (by simp [hy]))
    have : ∀ i, w i * (x :: l).count i = (w i * l.count i) + if i = x then w x else 0 := by
      intro i
      rw [List.count_cons]
      by_cases hx : i = x
      · subst hx; simp [Nat.mul_add]
      · have : (x == i) = false := by simp; exact fun h => hx h.symm
        simp [this, hx]
    rw [sumTo_congr (fun i _ => this i), sumTo_add, ih, sumTo_single (h x (by simp))]
    simp; omega

theorem sum_eq_sumTo {l : List Nat} : l.sum = sumTo l.length (fun i => l.getD i 0) := by
  induction l using List.reverseRecOn with
  | nil => rfl
  | append_singleton l a ih =>
    rw [List.length_append, List.length_singleton, sumTo_succ, List.sum_append, ih]
    congr 1
    · apply sumTo_congr
      intro i hi
      simp [List.getD_eq_getElem?_getD, List.getElem?_append_left hi]
    · simp [List.getD_eq_getElem?_getD]

theorem piece_output_lt {ts : TokenSet} (hseq : SeqsInRange ts) {p : Piece} {s : Bytes}
    (hp : p.string ts = some s) : ∀ i ∈ p.output ts, i < ts.tokens.length := by
  cases p with
  | tok i => intro j hj; simp [Piece.output] at hj; subst hj; exact tok_lt hp
  | seq j =>
    rw [Piece.string_seq] at hp
    obtain ⟨q, hq, _⟩ := hp
    intro i hi
    simp [Piece.output, hq] at hi
    exact hseq q (List.mem_iff_getElem?.2 ⟨j, hq⟩) i hi

theorem spells_output_lt {ts : TokenSet} (hseq : SeqsInRange ts) {ps : List Piece} {t : Bytes}
    (h : Spells ts ps t) : ∀ i ∈ output ts ps, i < ts.tokens.length := by
  induction h with
  | nil => simp [output]
  | cons hp _ ih =>
    intro i hi
    rw [output_cons] at hi
    rcases List.mem_append.1 hi with hi | hi
    · exact piece_output_lt hseq hp i hi
    · exact ih i hi

/-- Bytes accounting of one segmentation, over its list of pieces. -/
theorem seg_bytes {ts : TokenSet} {ps : List Piece} {t : Bytes} (h : Spells ts ps t) :
    ((output ts ps).map (textLen ts)).sum +
      sumTo ts.sequences.length (fun j => ((ts.sequences[j]?.map (·.string)).getD []).length *
        ps.count (.seq j)) =
    t.length + sumTo ts.sequences.length (fun j => ps.count (.seq j) *
      (((ts.sequences[j]?.map (·.tokens)).getD []).map (textLen ts)).sum) := by
  induction h with
  | nil => simp [output, sumTo_zero]
  | @cons p s ps t hp h ih =>
    rw [output_cons]
    cases p with
    | tok i =>
      have h1 : ∀ j, (Piece.tok i :: ps).count (Piece.seq j) = ps.count (Piece.seq j) := by
        intro j; rw [List.count_cons]; simp
      have h2 : textLen ts i = s.length := by
        rw [Piece.string_tok] at hp
        simp [textLen, hp]
      simp only [h1, Piece.output, List.map_append, List.map_cons, List.map_nil, List.sum_append,
        List.length_append, h2]
      simp
      omega
    | seq k =>
      rw [Piece.string_seq] at hp
      obtain ⟨q, hq, hs⟩ := hp
      have hk := (List.getElem?_eq_some_iff.1 hq).1
      have hcount : ∀ j, (Piece.seq k :: ps).count (Piece.seq j) =
          ps.count (Piece.seq j) + if j = k then 1 else 0 := by
        intro j
        rw [List.count_cons]
        by_cases h : j = k
        · subst h; simp
        · have : (Piece.seq k == Piece.seq j) = false := by
            simp; exact fun h' => h h'.symm
          simp [this, h]
      have e1 : sumTo ts.sequences.length (fun j =>
            ((ts.sequences[j]?.map (·.string)).getD []).length *
            (Piece.seq k :: ps).count (.seq j)) =
          sumTo ts.sequences.length (fun j =>
            ((ts.sequences[j]?.map (·.string)).getD []).length * ps.count (.seq j)) + s.length := by
        rw [← sumTo_single hk s.length, ← sumTo_add]
        apply sumTo_congr
        intro j _
        rw [hcount]
        by_cases h : j = k
        · subst h; simp [hq, hs, Nat.mul_add]
        · simp [h]
      have e2 : sumTo ts.sequences.length (fun j => (Piece.seq k :: ps).count (.seq j) *
            (((ts.sequences[j]?.map (·.tokens)).getD []).map (textLen ts)).sum) =
          sumTo ts.sequences.length (fun j => ps.count (.seq j) *
            (((ts.sequences[j]?.map (·.tokens)).getD []).map (textLen ts)).sum) +
            (q.tokens.map (textLen ts)).sum := by
        rw [← sumTo_single hk (q.tokens.map (textLen ts)).sum, ← sumTo_add]
        apply sumTo_congr
        intro j _
        rw [hcount]
        by_cases h : j = k
        · subst h; simp [hq, hs, Nat.add_mul]
        · simp [h]
      rw [e1, e2]
      simp [Piece.output, hq]
      omega

/-- All linear accounting identities of one sample. -/
theorem segCount_identities {ts : TokenSet} (hseq : SeqsInRange ts) {ps : List Piece} {t : Bytes}
    (h : Spells ts ps t) :
    sumTo ts.tokens.length (fun i => segCount ts ps t.length (.tok i)) =
      segCount ts ps t.length .total ∧
    sumTo ts.tokens.length (fun i => textLen ts i * segCount ts ps t.length (.tok i)) +
      sumTo ts.sequences.length (fun j => ((ts.sequences[j]?.map (·.string)).getD []).length *
        segCount ts ps t.length (.seq j)) =
    segCount ts ps t.length .scanned +
      sumTo ts.sequences.length (fun j => segCount ts ps t.length (.seq j) *
        (((ts.sequences[j]?.map (·.tokens)).getD []).map (textLen ts)).sum) := by
  have hlt := spells_output_lt hseq h
  constructor
  · have := sumTo_count (fun _ => 1) hlt
    simp at this
    rw [sumTo_congr (g := fun i => (output ts ps).count i) (fun i hi => by simp [segCount, hi])]
    exact this
  · have h1 := sumTo_count (textLen ts) hlt
    have h2 := seg_bytes h
    rw [sumTo_congr (g := fun i => textLen ts i * (output ts ps).count i)
        (fun i hi => by simp [segCount, hi]), h1,
      sumTo_congr (g := fun j => ((ts.sequences[j]?.map (·.string)).getD []).length *
        ps.count (.seq j)) (fun i hi => by simp only [segCount, if_pos hi]),
      sumTo_congr (f := fun j => segCount ts ps t.length (.seq j) * _)
        (g := fun j => ps.count (.seq j) *
          (((ts.sequences[j]?.map (·.tokens)).getD []).map (textLen ts)).sum)
        (fun i hi => by simp only [segCount, if_pos hi])]
    exact h2

theorem work_identities {ts : TokenSet} {tk : FragmentTokenizer} {d} (hseq : SeqsInRange ts)
    (hw : Work ts tk d) (t : Bytes) :
    sumTo ts.tokens.length (fun i => d t (.tok i)) = d t .total ∧
    sumTo ts.tokens.length (fun i => textLen ts i * d t (.tok i)) +
      sumTo ts.sequences.length (fun j => ((ts.sequences[j]?.map (·.string)).getD []).length *
        d t (.seq j)) =
    d t .scanned +
      sumTo ts.sequences.length (fun j => d t (.seq j) *
        (((ts.sequences[j]?.map (·.tokens)).getD []).map (textLen ts)).sum) := by
  obtain ⟨ps, hps, he⟩ := hw.seg t
  have := segCount_identities hseq hps.optimal.1
  rw [← he] at this
  exact this

/-! ### Comparing costs -/

/-- Every piece of `a` can be spelled in `b` with no more output tokens. -/
def Dominates (a b : TokenSet) : Prop :=
  ∀ (p : Piece) s, p.string a = some s → ∃ qs, Spells b qs s ∧ (output b qs).length ≤ (p.output a).length

theorem Dominates.spells {a b : TokenSet} (h : Dominates a b) {ps : List Piece} {t : Bytes}
    (hp : Spells a ps t) : ∃ qs, Spells b qs t ∧ (output b qs).length ≤ (output a ps).length := by
  induction hp with
  | nil => exact ⟨[], .nil, by simp [output]⟩
  | @cons p s ps t h1 _ ih =>
    obtain ⟨qs, h2, h3⟩ := ih
    obtain ⟨rs, h4, h5⟩ := h p s h1
    refine ⟨rs ++ qs, h4.append h2, ?_⟩
    rw [output_append, output_cons, List.length_append, List.length_append]
    omega

theorem Dominates.min {a b : TokenSet} (h : Dominates a b) {t : Bytes} {c d : Nat}
    (ha : IsMin a t c) (hb : IsMin b t d) : d ≤ c := by
  obtain ⟨⟨ps, h1, rfl⟩, _⟩ := ha
  obtain ⟨qs, h2, h3⟩ := h.spells h1
  have := hb.2 qs h2
  omega

theorem Dominates.refl (a : TokenSet) : Dominates a a := by
  intro p s h
  exact ⟨[p], by simpa using Spells.cons h .nil, by simp [output]⟩

theorem Dominates.trans {a b c : TokenSet} (h1 : Dominates a b) (h2 : Dominates b c) :
    Dominates a c := by
  intro p s h
  obtain ⟨qs, h3, h4⟩ := h1 p s h
  obtain ⟨rs, h5, h6⟩ := h2.spells h3
  exact ⟨rs, h5, by omega⟩

theorem Work.isMin {ts : TokenSet} {tk : FragmentTokenizer} {d} (hw : Work ts tk d) (t : Bytes) :
    IsMin ts t (d t .total) := by
  obtain ⟨ps, h1, h2⟩ := hw.seg t
  rw [h2]
  exact h1.optimal.isMin

theorem Work.scanned {ts : TokenSet} {tk : FragmentTokenizer} {d} (hw : Work ts tk d) (t : Bytes) :
    d t .scanned = t.length := by
  obtain ⟨ps, h1, h2⟩ := hw.seg t
  rw [h2]; rfl

theorem dominates_sum {a b : TokenSet} (h : Dominates a b) {tka tkb : FragmentTokenizer} {da db}
    (ha : Work a tka da) (hb : Work b tkb db) (l : List Bytes) :
    workSum db l .total ≤ workSum da l .total := by
  induction l with
  | nil => simp
  | cons s l ih =>
    have := h.min (ha.isMin s) (hb.isMin s)
    simp; omega

theorem dominates_addToken {ts ts' : TokenSet} {s : Bytes} {i : Nat}
    (hne : ∀ q ∈ ts.sequences, q.string = s → q.tokens ≠ [])
    (ha : ts.addToken s = .ok (ts', i)) : Dominates ts ts' := by
  by_cases hs : s = []
  · subst hs; simp [TokenSet.addToken_nil] at ha
  rw [TokenSet.addToken_eq ts s hs] at ha
  simp at ha
  obtain ⟨ha, hi⟩ := ha
  subst ha
  intro p r hp
  cases p with
  | tok k =>
    refine ⟨[.tok k], ?_, by simp [output, Piece.output]⟩
    rw [Piece.string_tok] at hp
    have hk := (List.getElem?_eq_some_iff.1 hp).1
    have : Piece.string { ts with
          sequences := ts.sequences.filter (fun q => q.string != s),
          tokens := ts.tokens ++ [Token.str s] } (.tok k) = some r := by
      rw [Piece.string_tok]
      simp [List.getElem?_append_left hk, hp]
    simpa using Spells.cons this .nil
  | seq j =>
    have hp0 := hp
    rw [Piece.string_seq] at hp
    obtain ⟨q, hq, hr⟩ := hp
    have hmem : q ∈ ts.sequences := List.mem_iff_getElem?.2 ⟨j, hq⟩
    by_cases hqs : q.string = s
    · refine ⟨[.tok ts.tokens.length], ?_, ?_⟩
      · have : Piece.string { ts with
              sequences := ts.sequences.filter (fun q => q.string != s),
              tokens := ts.tokens ++ [Token.str s] } (.tok ts.tokens.length) = some r := by
          rw [Piece.string_tok]
          simp [← hr, hqs]
        simpa using Spells.cons this .nil
      · have := List.length_pos_iff.2 (hne q hmem hqs)
        simp [output, Piece.output, hq]
        omega
    · have hmem' : q ∈ ts.sequences.filter (fun q => q.string != s) := by
        simp [hmem, hqs]
      obtain ⟨k, hk⟩ := List.mem_iff_getElem?.1 hmem'
      refine ⟨[.seq k], ?_, ?_⟩
      · have : Piece.string { ts with
              sequences := ts.sequences.filter (fun q => q.string != s),
              tokens := ts.tokens ++ [Token.str s] } (.seq k) = some r := by
          rw [Piece.string_seq]
          exact ⟨q, hk, hr⟩
        simpa using Spells.cons this .nil
      · simp [output, Piece.output, hq, hk]

/-- Sums over samples commute with sums over counters. -/
theorem sumTo_workSum (n : Nat) (w : Nat → Nat) (g : Nat → Ix) (d : Bytes → Ix → Nat)
    (l : List Bytes) :
    sumTo n (fun i => w i * workSum d l (g i)) =
      (l.map (fun s => sumTo n (fun i => w i * d s (g i)))).sum := by
  induction l with
  | nil => simp [sumTo_zero]
  | cons s l ih =>
    simp only [workSum_cons, Nat.mul_add, List.map_cons, List.sum_cons]
    rw [sumTo_add, ih]

/-! ### Merging -/

theorem workSum_perm {d} {l l' : List Bytes} (h : l.Perm l') (ix : Ix) :
    workSum d l ix = workSum d l' ix := by
  unfold workSum
  exact (h.map _).sum_nat

theorem plan_run {ts : TokenSet} {tk : FragmentTokenizer} {d} (hnew : new ts = .ok tk)
    (hw : Work ts tk d) (p : Plan) : ∃ st, p.run ts = .ok st ∧ Shaped ts st ∧
      st.initialSize = none ∧ ∀ ix, cnt st ix = workSum d p.samples ix := by
  induction p with
  | part ss => exact sync_ok hnew hw ss none
  | merged a b iha ihb =>
    obtain ⟨x, h1, h2, h3, h4⟩ := iha
    obtain ⟨y, g1, g2, g3, g4⟩ := ihb
    obtain ⟨z, k1, k2, k3, k4⟩ := merge_ok h2 g2
    refine ⟨z, ?_, k2, k3.trans h3, ?_⟩
    · rw [Plan.run, h1, g1]; exact k1
    · intro ix; rw [k4, h4, g4, Plan.samples, workSum_append]

end Tokens
