import Verif.Model.Machine
import Verif.Proofs.Batch

/-! `u64` addition never overflows while counting: the machine model computes the same results as
the model with natural numbers. -/

set_option linter.unusedSimpArgs false
set_option linter.unusedVariables false

namespace Tokens
namespace Machine
open Spec FragmentTokenizer

/-- An addition that is right whenever the sum fits. -/
def Exact (add : Adder) : Prop := ∀ a b, a + b < 2 ^ 64 → add a b = .ok (a + b)

theorem checked_exact : Exact checkedAdd := fun a b h => by simp only [checkedAdd, if_pos h]

theorem wrapping_exact : Exact wrappingAdd := fun a b h => by
  simp only [wrappingAdd, Nat.mod_eq_of_lt h]

variable {add : Adder}

theorem bestSpan_same (ha : Exact add) {spans : List Span} {costs : List CostState} {B K : Nat}
    (hB : ∀ c ∈ costs, c.cost ≤ B) (hK : ∀ sp ∈ spans, sp.cost ≤ K) (hBK : B + K < 2 ^ 64)
    (f i : Nat) (best : Option CostState) :
    bestSpan add spans costs f i best = FragmentTokenizer.bestSpan spans costs f i best := by
  induction f generalizing i best with
  | zero => rfl
  | succ f ih =>
    rw [bestSpan, FragmentTokenizer.bestSpan]
    split
    · rfl
    cases h1 : spans[i]? with
    | none => simp [getR, h1, bind, Except.bind]
    | some span =>
      rw [getR_of h1]
      simp only [R.ok_bind]
      by_cases hl : span.string.length ≤ costs.length
      · rw [subR_of hl]
        simp only [R.ok_bind]
        cases h2 : costs[costs.length - span.string.length]? with
        | none => simp [getR, h2, bind, Except.bind]
        | some prev =>
          rw [getR_of h2]
          simp only [R.ok_bind]
          have := hB prev (List.mem_iff_getElem?.2 ⟨_, h2⟩)
          have := hK span (List.mem_iff_getElem?.2 ⟨_, h1⟩)
          rw [ha _ _ (by omega)]
          simp only [R.ok_bind]
          exact ih _ _
      · simp [subR, hl, bind, Except.bind]

theorem processLoop_prefix {tk : FragmentTokenizer} {rest : Bytes} {state : SuffixState}
    {costs costs' : List CostState}
    (h : FragmentTokenizer.processLoop tk rest state costs = .ok costs') : costs <+: costs' := by
  induction rest generalizing state costs with
  | nil => rw [FragmentTokenizer.processLoop] at h; rw [Except.ok.inj h]; exact List.prefix_refl _
  | cons b rest ih =>
    rw [FragmentTokenizer.processLoop] at h
    cases h1 : getR tk.suffixStates (state.next b) with
    | error e => rw [h1] at h; simp [bind, Except.bind] at h
    | ok s =>
      rw [h1] at h; simp only [R.ok_bind] at h
      cases h2 : FragmentTokenizer.bestSpan tk.spans costs (s.suffix.length + 1) s.spanIdx none with
      | error e => rw [h2] at h; simp [bind, Except.bind] at h
      | ok best =>
        rw [h2] at h; simp only [R.ok_bind] at h
        cases best with
        | none => simp [unwrapR, bind, Except.bind] at h
        | some c =>
          simp only [unwrapR_some, R.ok_bind] at h
          exact (List.prefix_append _ _).trans (ih h)

theorem processLoop_same (ha : Exact add) {tk : FragmentTokenizer} {B K : Nat}
    (hK : ∀ sp ∈ tk.spans, sp.cost ≤ K) (hBK : B + K < 2 ^ 64) {rest : Bytes} {state : SuffixState}
    {costs costs' : List CostState}
    (h : FragmentTokenizer.processLoop tk rest state costs = .ok costs')
    (hB : ∀ c ∈ costs', c.cost ≤ B) : processLoop add tk rest state costs = .ok costs' := by
  induction rest generalizing state costs with
  | nil => rw [processLoop]; rw [FragmentTokenizer.processLoop] at h; exact h
  | cons b rest ih =>
    have hpre := processLoop_prefix h
    rw [FragmentTokenizer.processLoop] at h
    rw [processLoop]
    cases h1 : getR tk.suffixStates (state.next b) with
    | error e => rw [h1] at h; simp [bind, Except.bind] at h
    | ok s =>
      rw [h1] at h; simp only [R.ok_bind] at h ⊢
      rw [bestSpan_same ha (fun c hc => hB c (hpre.subset hc)) hK hBK]
      cases h2 : FragmentTokenizer.bestSpan tk.spans costs (s.suffix.length + 1) s.spanIdx none with
      | error e => rw [h2] at h; simp [bind, Except.bind] at h
      | ok best =>
        rw [h2] at h; simp only [R.ok_bind] at h ⊢
        cases best with
        | none => simp [unwrapR, bind, Except.bind] at h
        | some c =>
          simp only [unwrapR_some, R.ok_bind] at h ⊢
          exact ih h

/-- Every entry of `a` is at most the entry of `b` at the same place. -/
def Below (a b : List Nat) : Prop := ∀ i, a.getD i 0 ≤ b.getD i 0

theorem Below.refl (a : List Nat) : Below a a := fun _ => Nat.le_refl _
theorem Below.trans {a b c : List Nat} (h1 : Below a b) (h2 : Below b c) : Below a c :=
  fun i => Nat.le_trans (h1 i) (h2 i)

theorem addAt_inv {l l' : List Nat} {i n : Nat} (h : Tokens.addAt l i n = .ok l') :
    i < l.length ∧ l' = l.set i (l.getD i 0 + n) := by
  by_cases hi : i < l.length
  · rw [addAt_of hi] at h
    exact ⟨hi, (Except.ok.inj h).symm⟩
  · unfold Tokens.addAt at h
    rw [List.getElem?_eq_none (by omega)] at h
    simp at h

theorem addAt_below {l l' : List Nat} {i n : Nat} (h : Tokens.addAt l i n = .ok l') : Below l l' := by
  obtain ⟨hi, rfl⟩ := addAt_inv h
  intro j
  rw [getD_set]
  split
  · next he => rw [← he.1]; omega
  · exact Nat.le_refl _

theorem addAt_same (ha : Exact add) {l l' b : List Nat} {i n : Nat}
    (h : Tokens.addAt l i n = .ok l') (hb : Below l' b) (hlt : ∀ j, b.getD j 0 < 2 ^ 64) :
    addAt add l i n = .ok l' := by
  obtain ⟨hi, rfl⟩ := addAt_inv h
  have h1 := hb i
  rw [getD_set, if_pos ⟨rfl, hi⟩] at h1
  have h2 := hlt i
  unfold addAt
  rw [List.getElem?_eq_getElem hi]
  have h3 : l.getD i 0 = l[i] := by simp [List.getD_eq_getElem?_getD, List.getElem?_eq_getElem hi]
  rw [h3] at h1
  simp only
  rw [ha _ _ (by omega)]
  simp only [R.ok_bind, h3]

theorem traceback_below {spans : List Span} {costs : List CostState} {nt f pos : Nat}
    {next : Option Nat} {acc acc' : TraceAcc}
    (h : FragmentTokenizer.traceback spans costs nt f pos next acc = .ok acc') :
    Below acc.spanCounts acc'.spanCounts ∧ Below acc.pairCounts acc'.pairCounts ∧
      ∀ k, acc'.spanCounts.getD k 0 ≤ acc.spanCounts.getD k 0 + f := by
  induction f generalizing pos next acc with
  | zero =>
    rw [FragmentTokenizer.traceback] at h
    split at h
    · rw [Except.ok.inj h]; exact ⟨.refl _, .refl _, fun _ => by omega⟩
    · simp at h
  | succ f ih =>
    rw [FragmentTokenizer.traceback] at h
    split at h
    · rw [Except.ok.inj h]; exact ⟨.refl _, .refl _, fun _ => by omega⟩
    cases h1 : getR costs pos with
    | error e => rw [h1] at h; simp [bind, Except.bind] at h
    | ok cs =>
      rw [h1] at h; simp only [R.ok_bind] at h
      cases h2 : Tokens.addAt acc.spanCounts cs.span 1 with
      | error e => rw [h2] at h; simp [bind, Except.bind] at h
      | ok sc =>
        rw [h2] at h; simp only [R.ok_bind] at h
        cases h3 : getR spans cs.span with
        | error e => rw [h3] at h; simp [bind, Except.bind] at h
        | ok span =>
          rw [h3] at h; simp only [R.ok_bind] at h
          have hsc := addAt_below h2
          have hsc1 : ∀ k, sc.getD k 0 ≤ acc.spanCounts.getD k 0 + 1 := by
            intro k
            obtain ⟨hi, rfl⟩ := addAt_inv h2
            rw [getD_set]
            split
            · next he => rw [← he.1]; exact Nat.le_refl _
            · omega
          have fin : ∀ (pc : List Nat) (nx : Option Nat), Below acc.pairCounts pc →
              (subR pos span.string.length >>= fun pos' => FragmentTokenizer.traceback spans costs nt f
                pos' nx { spanCounts := sc, pairCounts := pc }) = .ok acc' →
              Below acc.spanCounts acc'.spanCounts ∧ Below acc.pairCounts acc'.pairCounts ∧
              ∀ k, acc'.spanCounts.getD k 0 ≤ acc.spanCounts.getD k 0 + (f + 1) := by
            intro pc nx hpc hh
            cases h4 : subR pos span.string.length with
            | error e => rw [h4] at hh; simp [bind, Except.bind] at hh
            | ok pos' =>
              rw [h4] at hh; simp only [R.ok_bind] at hh
              obtain ⟨g1, g2, g3⟩ := ih hh
              refine ⟨hsc.trans g1, hpc.trans g2, fun k => ?_⟩
              have := g3 k
              have := hsc1 k
              simp only at *
              omega
          cases hc : span.content with
          | token t =>
            cases next with
            | none => simp only [hc, R.ok_bind] at h; exact fin _ _ (.refl _) h
            | some n =>
              simp only [hc] at h
              cases h5 : Tokens.addAt acc.pairCounts (t * nt + n) 1 with
              | error e => rw [h5] at h; simp [bind, Except.bind] at h
              | ok pc =>
                rw [h5] at h; simp only [R.ok_bind] at h
                exact fin _ _ (addAt_below h5) h
          | sequence j => simp only [hc, R.ok_bind] at h; exact fin _ _ (.refl _) h
          | none => simp only [hc, R.ok_bind] at h; exact fin _ _ (.refl _) h

theorem traceback_same (ha : Exact add) {spans : List Span} {costs : List CostState} {nt f pos : Nat}
    {next : Option Nat} {acc acc' : TraceAcc}
    (h : FragmentTokenizer.traceback spans costs nt f pos next acc = .ok acc')
    (hs : ∀ k, acc'.spanCounts.getD k 0 < 2 ^ 64) (hp : ∀ k, acc'.pairCounts.getD k 0 < 2 ^ 64) :
    traceback add spans costs nt f pos next acc = .ok acc' := by
  induction f generalizing pos next acc with
  | zero => rw [FragmentTokenizer.traceback] at h; rw [traceback]; exact h
  | succ f ih =>
    rw [FragmentTokenizer.traceback] at h
    rw [traceback]
    split at h
    · next h0 => rw [if_pos h0]; exact h
    next h0 =>
    rw [if_neg h0]
    cases h1 : getR costs pos with
    | error e => rw [h1] at h; simp [bind, Except.bind] at h
    | ok cs =>
      rw [h1] at h; simp only [R.ok_bind] at h ⊢
      cases h2 : Tokens.addAt acc.spanCounts cs.span 1 with
      | error e => rw [h2] at h; simp [bind, Except.bind] at h
      | ok sc =>
        rw [h2] at h; simp only [R.ok_bind] at h
        cases h3 : getR spans cs.span with
        | error e => rw [h3] at h; simp [bind, Except.bind] at h
        | ok span =>
          rw [h3] at h; simp only [R.ok_bind] at h
          have fin : ∀ (pc : List Nat) (nx : Option Nat),
              (subR pos span.string.length >>= fun pos' => FragmentTokenizer.traceback spans costs nt f
                pos' nx { spanCounts := sc, pairCounts := pc }) = .ok acc' →
              Below sc acc'.spanCounts ∧ Below pc acc'.pairCounts ∧
              (subR pos span.string.length >>= fun pos' => traceback add spans costs nt f
                pos' nx { spanCounts := sc, pairCounts := pc }) = .ok acc' := by
            intro pc nx hh
            cases h4 : subR pos span.string.length with
            | error e => rw [h4] at hh; simp [bind, Except.bind] at hh
            | ok pos' =>
              rw [h4] at hh; simp only [R.ok_bind] at hh ⊢
              obtain ⟨g1, g2, _⟩ := traceback_below hh
              exact ⟨g1, g2, ih hh⟩
          cases hc : span.content with
          | token t =>
            cases next with
            | none =>
              simp only [hc, R.ok_bind] at h
              obtain ⟨g1, g2, g3⟩ := fin _ _ h
              rw [addAt_same ha h2 g1 hs]
              simp only [R.ok_bind, h3, hc]
              exact g3
            | some n =>
              simp only [hc] at h
              cases h5 : Tokens.addAt acc.pairCounts (t * nt + n) 1 with
              | error e => rw [h5] at h; simp [bind, Except.bind] at h
              | ok pc =>
                rw [h5] at h; simp only [R.ok_bind] at h
                obtain ⟨g1, g2, g3⟩ := fin _ _ h
                rw [addAt_same ha h2 g1 hs]
                simp only [R.ok_bind, h3, hc]
                rw [addAt_same ha h5 g2 hp]
                simp only [R.ok_bind]
                exact g3
          | sequence j =>
            simp only [hc, R.ok_bind] at h
            obtain ⟨g1, g2, g3⟩ := fin _ _ h
            rw [addAt_same ha h2 g1 hs]
            simp only [R.ok_bind, h3, hc]
            exact g3
          | none =>
            simp only [hc, R.ok_bind] at h
            obtain ⟨g1, g2, g3⟩ := fin _ _ h
            rw [addAt_same ha h2 g1 hs]
            simp only [R.ok_bind, h3, hc]
            exact g3

theorem addCounts_same (ha : Exact add) {l : List Nat} {counts c' : List Nat} {n : Nat}
    (h : FragmentTokenizer.addCounts counts l n = .ok c') :
    Below counts c' ∧ ∀ b, Below c' b → (∀ j, b.getD j 0 < 2 ^ 64) →
      addCounts add counts l n = .ok c' := by
  induction l generalizing counts with
  | nil =>
    rw [FragmentTokenizer.addCounts] at h
    rw [Except.ok.inj h]
    exact ⟨.refl _, fun _ _ _ => rfl⟩
  | cons t l ih =>
    rw [FragmentTokenizer.addCounts] at h
    cases h1 : Tokens.addAt counts t n with
    | error e => rw [h1] at h; simp [bind, Except.bind] at h
    | ok c1 =>
      rw [h1] at h; simp only [R.ok_bind] at h
      obtain ⟨g1, g2⟩ := ih h
      refine ⟨(addAt_below h1).trans g1, fun b hb hlt => ?_⟩
      rw [addCounts, addAt_same ha h1 (g1.trans hb) hlt]
      simp only [R.ok_bind]
      exact g2 b hb hlt

theorem foldSpanCounts_same (ha : Exact add) {sps : List Span} {cs : List Nat} {st st' : TokenStats}
    (h : FragmentTokenizer.foldSpanCounts sps cs st = .ok st') :
    Below st.tokenCounts st'.tokenCounts ∧ Below st.seqCounts st'.seqCounts ∧
    ((∀ j, st'.tokenCounts.getD j 0 < 2 ^ 64) → (∀ j, st'.seqCounts.getD j 0 < 2 ^ 64) →
      foldSpanCounts add sps cs st = .ok st') := by
  induction sps generalizing cs st with
  | nil =>
    rw [FragmentTokenizer.foldSpanCounts] at h
    rw [Except.ok.inj h]
    exact ⟨.refl _, .refl _, fun _ _ => by rw [foldSpanCounts]⟩
  | cons sp sps ih =>
    cases cs with
    | nil => simp [FragmentTokenizer.foldSpanCounts] at h
    | cons c cs =>
      rw [FragmentTokenizer.foldSpanCounts] at h
      rw [foldSpanCounts]
      cases hc : sp.content with
      | sequence j =>
        simp only [hc] at h ⊢
        cases h1 : Tokens.addAt st.seqCounts j c with
        | error e => rw [h1] at h; simp [bind, Except.bind] at h
        | ok sc =>
          rw [h1] at h; simp only [R.ok_bind] at h
          cases h2 : getR st.tokenSet.sequences j with
          | error e => rw [h2] at h; simp [bind, Except.bind] at h
          | ok q =>
            rw [h2] at h; simp only [R.ok_bind] at h
            cases h3 : FragmentTokenizer.addCounts st.tokenCounts q.tokens c with
            | error e => rw [h3] at h; simp [bind, Except.bind] at h
            | ok tc =>
              rw [h3] at h; simp only [R.ok_bind] at h
              obtain ⟨g1, g2, g3⟩ := ih h
              obtain ⟨g4, g5⟩ := addCounts_same ha h3
              refine ⟨g4.trans g1, (addAt_below h1).trans g2, fun b1 b2 => ?_⟩
              rw [addAt_same ha h1 g2 b2]
              simp only [R.ok_bind, h2]
              rw [g5 _ g1 b1]
              simp only [R.ok_bind]
              exact g3 b1 b2
      | token i =>
        simp only [hc] at h ⊢
        cases h1 : Tokens.addAt st.tokenCounts i c with
        | error e => rw [h1] at h; simp [bind, Except.bind] at h
        | ok tc =>
          rw [h1] at h; simp only [R.ok_bind] at h
          obtain ⟨g1, g2, g3⟩ := ih h
          refine ⟨(addAt_below h1).trans g1, g2, fun b1 b2 => ?_⟩
          rw [addAt_same ha h1 g1 b1]
          simp only [R.ok_bind]
          exact g3 b1 b2
      | none => simp [hc, bind, Except.bind] at h

/-! ### How large the counters get -/

/-- Every byte is a piece with at most `K` output tokens, so a text has a segmentation with at most
`K` output tokens for each byte. -/
theorem exists_small {ts : TokenSet} (ht : Tokenizable ts) {K : Nat} (h1 : 1 ≤ K)
    (hK : ∀ q ∈ ts.sequences, q.tokens.length ≤ K) (text : Bytes) :
    ∃ ps, Spells ts ps text ∧ (output ts ps).length ≤ K * text.length := by
  induction text with
  | nil => exact ⟨[], .nil, by simp [output]⟩
  | cons b text ih =>
    obtain ⟨ps, h2, h3⟩ := ih
    obtain ⟨p, hp⟩ : ∃ p : Piece, p.string ts = some [b] := by
      rcases List.mem_append.1 (ht.bytes b) with h | h
      · obtain ⟨tok, h1, h2⟩ := List.mem_filterMap.1 h
        obtain ⟨i, hi⟩ := List.mem_iff_getElem?.1 h1
        cases tok with
        | ext n => simp [tokenText] at h2
        | str s => simp [tokenText] at h2; exact ⟨.tok i, by simp [Piece.string, hi, h2]⟩
      · obtain ⟨q, h1, h2⟩ := List.mem_map.1 h
        obtain ⟨j, hj⟩ := List.mem_iff_getElem?.1 h1
        exact ⟨.seq j, by simp [Piece.string, hj, h2]⟩
    refine ⟨p :: ps, .cons (s := [b]) hp h2, ?_⟩
    rw [output_cons, List.length_append, List.length_cons, Nat.mul_add, Nat.mul_one]
    have := output_le h1 hK p
    omega
where
  output_le {ts : TokenSet} {K : Nat} (h1 : 1 ≤ K)
      (hK : ∀ q ∈ ts.sequences, q.tokens.length ≤ K) (p : Piece) : (p.output ts).length ≤ K := by
    cases p with
    | tok i => simpa [Piece.output] using h1
    | seq j =>
      simp only [Piece.output]
      cases h : ts.sequences[j]? with
      | none => simp
      | some q => exact hK q (List.mem_iff_getElem?.2 ⟨j, h⟩)

theorem isMin_le {ts : TokenSet} (ht : Tokenizable ts) {K : Nat} (h1 : 1 ≤ K)
    (hK : ∀ q ∈ ts.sequences, q.tokens.length ≤ K) {text : Bytes} {c : Nat} (h : IsMin ts text c) :
    c ≤ K * text.length := by
  obtain ⟨ps, h2, h3⟩ := exists_small ht h1 hK text
  exact Nat.le_trans (h.2 ps h2) h3

theorem spells_length {ts : TokenSet} (ht : Tokenizable ts) {ps : List Piece} {text : Bytes}
    (h : Spells ts ps text) : ps.length ≤ text.length := by
  induction h with
  | nil => simp
  | @cons p s ps t hp _ ih =>
    have hs : s ∈ pieceStrings ts := by
      cases p with
      | tok i =>
        simp only [Piece.string] at hp
        split at hp
        · next s' h' =>
          simp at hp; subst hp
          exact List.mem_append_left _ (List.mem_filterMap.2 ⟨_, List.mem_iff_getElem?.2 ⟨i, h'⟩, rfl⟩)
        · simp at hp
      | seq j =>
        simp only [Piece.string] at hp
        split at hp
        · next q h' =>
          simp at hp; subst hp
          exact List.mem_append_right _ (List.mem_map.2 ⟨q, List.mem_iff_getElem?.2 ⟨j, h'⟩, rfl⟩)
        · simp at hp
    have := List.length_pos_iff.2 (ht.nonempty s hs)
    simp
    omega

theorem pairOcc_le (a b : Nat) (ps : List Piece) : pairOcc a b ps ≤ ps.length := by
  induction ps with
  | nil => simp [pairOcc]
  | cons p ps ih =>
    cases p with
    | seq j => simp only [pairOcc, List.length_cons]; omega
    | tok x =>
      cases ps with
      | nil => simp [pairOcc]
      | cons q qs =>
        cases q with
        | seq j => simp only [pairOcc, List.length_cons] at ih ⊢; omega
        | tok y =>
          simp only [pairOcc, List.length_cons] at ih ⊢
          split <;> omega

/-- The largest value a counter can reach for `len` bytes. -/
def limit (K len : Nat) : Ix → Nat
  | .total => K * len
  | .scanned => len
  | .tok _ => K * len
  | .seq _ => len
  | .pair _ => len

theorem limit_le {K len : Nat} (h1 : 1 ≤ K) (ix : Ix) : limit K len ix ≤ K * len := by
  have : len ≤ K * len := Nat.le_mul_of_pos_left _ h1
  cases ix <;> simp only [limit] <;> omega

theorem segCount_le {ts : TokenSet} (ht : Tokenizable ts) {K : Nat} (h1 : 1 ≤ K)
    (hK : ∀ q ∈ ts.sequences, q.tokens.length ≤ K) {ps : List Piece} {text : Bytes}
    (h : LongestLast ts ps text) (ix : Ix) :
    segCount ts ps text.length ix ≤ limit K text.length ix := by
  have ho := h.optimal
  have h2 := isMin_le ht h1 hK ho.isMin
  have h3 := spells_length ht ho.1
  cases ix with
  | total => exact h2
  | scanned => exact Nat.le_refl _
  | tok i =>
    simp only [segCount, limit]
    split
    · have := List.count_le_length (a := i) (l := output ts ps); omega
    · omega
  | seq j =>
    simp only [segCount, limit]
    split
    · have := List.count_le_length (a := Piece.seq j) (l := ps); omega
    · omega
  | pair k =>
    simp only [segCount, limit]
    split
    · have := pairOcc_le (k / ts.tokens.length) (k % ts.tokens.length) ps; omega
    · omega

theorem workSum_le {ts : TokenSet} {tk : FragmentTokenizer} {d} (hw : Work ts tk d)
    (ht : Tokenizable ts) {K : Nat} (h1 : 1 ≤ K)
    (hK : ∀ q ∈ ts.sequences, q.tokens.length ≤ K) (samples : List Bytes) (ix : Ix) :
    workSum d samples ix ≤ limit K (samples.map List.length).sum ix := by
  induction samples with
  | nil => simp
  | cons s ss ih =>
    rw [workSum_cons]
    obtain ⟨ps, g1, g2⟩ := hw.seg s
    have g3 := segCount_le ht h1 hK g1 ix
    rw [← g2] at g3
    simp only [List.map_cons, List.sum_cons]
    cases ix <;> simp only [limit, Nat.mul_add] at * <;> omega

theorem workSum_scanned {ts : TokenSet} {tk : FragmentTokenizer} {d} (hw : Work ts tk d)
    (samples : List Bytes) : workSum d samples .scanned = (samples.map List.length).sum := by
  induction samples with
  | nil => simp
  | cons s ss ih =>
    obtain ⟨ps, g1, g2⟩ := hw.seg s
    rw [workSum_cons, ih, g2]
    simp [segCount]

theorem length_le_sum {s : Bytes} {samples : List Bytes} (h : s ∈ samples) :
    s.length ≤ (samples.map List.length).sum := by
  obtain ⟨a, b, rfl⟩ := List.append_of_mem h
  simp
  omega

/-! ### The same results -/

theorem fold_keeps {sps : List Span} {cs : List Nat} {st st' : TokenStats}
    (h : FragmentTokenizer.foldSpanCounts sps cs st = .ok st') :
    st'.totalTokens = st.totalTokens ∧ st'.scannedBytes = st.scannedBytes ∧
    st'.pairCounts = st.pairCounts ∧ st'.tokenSet = st.tokenSet ∧
    st'.initialSize = st.initialSize := by
  induction sps generalizing cs st with
  | nil =>
    rw [FragmentTokenizer.foldSpanCounts] at h
    rw [Except.ok.inj h]
    exact ⟨rfl, rfl, rfl, rfl, rfl⟩
  | cons sp sps ih =>
    cases cs with
    | nil => simp [FragmentTokenizer.foldSpanCounts] at h
    | cons c cs =>
      rw [FragmentTokenizer.foldSpanCounts] at h
      cases hc : sp.content with
      | sequence j =>
        simp only [hc] at h
        cases h1 : Tokens.addAt st.seqCounts j c with
        | error e => rw [h1] at h; simp [bind, Except.bind] at h
        | ok sc =>
          rw [h1] at h; simp only [R.ok_bind] at h
          cases h2 : getR st.tokenSet.sequences j with
          | error e => rw [h2] at h; simp [bind, Except.bind] at h
          | ok q =>
            rw [h2] at h; simp only [R.ok_bind] at h
            cases h3 : FragmentTokenizer.addCounts st.tokenCounts q.tokens c with
            | error e => rw [h3] at h; simp [bind, Except.bind] at h
            | ok tc =>
              rw [h3] at h; simp only [R.ok_bind] at h
              have h9 := ih h
              exact h9
      | token i =>
        simp only [hc] at h
        cases h1 : Tokens.addAt st.tokenCounts i c with
        | error e => rw [h1] at h; simp [bind, Except.bind] at h
        | ok tc =>
          rw [h1] at h; simp only [R.ok_bind] at h
          have h9 := ih h
          exact h9
      | none => simp [hc, bind, Except.bind] at h

theorem processSlice_same (ha : Exact add) {ts : TokenSet} {tk : FragmentTokenizer}
    (hk : TokenizerOK ts tk) (ht : Tokenizable ts) (hseq : SeqsInRange ts) {K : Nat} (h1 : 1 ≤ K)
    (hK : ∀ q ∈ ts.sequences, q.tokens.length ≤ K) {text : Bytes} {st st' : TokenStats}
    (hst : Shaped ts st) (h : FragmentTokenizer.processSlice tk text st = .ok st')
    (hlen : K * (text.length + 1) < 2 ^ 64) (hfit : ∀ ix, cnt st' ix < 2 ^ 64) :
    processSlice add tk text st = .ok st' := by
  obtain ⟨st'', ps, h', hLL, hcnt⟩ := processSlice_ok hk hseq text st hst
  have he : st'' = st' := Except.ok.inj (h'.symm.trans h)
  subst he
  have hlen' : text.length < 2 ^ 64 := by
    have : text.length + 1 ≤ K * (text.length + 1) := Nat.le_mul_of_pos_left _ h1
    omega
  obtain ⟨hts, ⟨spanBy, stateBy, hs, hstates⟩, hb, hnd⟩ := hk
  obtain ⟨st0, h0, hsuf0⟩ := hstates.head
  have hspans : ∀ sp ∈ tk.spans, sp.cost ≤ K := by
    intro sp hsp
    obtain ⟨k, hk⟩ := List.mem_iff_getElem?.1 hsp
    rcases Nat.eq_zero_or_pos k with rfl | h0
    · rw [hs.head] at hk
      simp at hk; subst hk; simp [emptySpan]
    · obtain ⟨_, _, p, _, _, hc⟩ := hs.sound k sp h0 hk
      rw [hc]; exact exists_small.output_le h1 hK p
  unfold FragmentTokenizer.processSlice at h
  unfold processSlice
  rw [getR_of h0] at h ⊢
  simp only [R.ok_bind] at h ⊢
  obtain ⟨costs, hpl, hc⟩ := processLoop_ok hs hstates hb text [] 0 st0 [{ cost := 0, span := 0 }] h0
    (by rw [hsuf0]; exact List.suffix_refl _)
    (by intro u hu _; rw [List.suffix_nil.1 hu]; simp) (costsOK_init ts tk.spans)
  rw [List.nil_append] at hc
  have hB : ∀ c ∈ costs, c.cost ≤ K * text.length := by
    intro c hcm
    obtain ⟨j, hj⟩ := List.mem_iff_getElem?.1 hcm
    have hmin := (hc.row j c hj).min
    have h2 := isMin_le ht h1 hK hmin
    have h3 : (text.take j).length ≤ text.length := by simp; omega
    exact Nat.le_trans h2 (Nat.mul_le_mul_left K h3)
  rw [processLoop_same ha hspans (by rw [Nat.mul_add] at hlen; omega) hpl hB]
  rw [hpl] at h
  simp only [R.ok_bind] at h ⊢
  unfold FragmentTokenizer.updateStats at h
  unfold updateStats
  cases hl : costs.getLast? with
  | none => rw [hl] at h; simp [unwrapR, bind, Except.bind] at h
  | some last =>
    rw [hl] at h
    simp only [unwrapR_some, R.ok_bind] at h ⊢
    cases htb : FragmentTokenizer.traceback tk.spans costs st.tokenSet.ntokens text.length text.length
        none { spanCounts := List.replicate tk.spans.length 0, pairCounts := st.pairCounts } with
    | error e => rw [htb] at h; simp [bind, Except.bind] at h
    | ok acc =>
      rw [htb] at h
      simp only [R.ok_bind] at h
      obtain ⟨f1, f2, f3⟩ := foldSpanCounts_same ha h
      obtain ⟨g1, g2, g3, g4, g5⟩ := fold_keeps h
      have ht1 := hfit .total
      have ht2 := hfit .scanned
      simp only [cnt, g1, g2] at ht1 ht2
      rw [ha _ _ ht1]
      simp only [R.ok_bind]
      rw [ha _ _ ht2]
      simp only [R.ok_bind]
      rw [traceback_same ha htb]
      · simp only [R.ok_bind]
        exact f3 (fun j => hfit (.tok j)) (fun j => hfit (.seq j))
      · intro k
        have := (traceback_below htb).2.2 k
        have hz : (List.replicate tk.spans.length 0).getD k 0 = 0 := by
          rw [List.getD_eq_getElem?_getD, List.getElem?_replicate]
          split <;> rfl
        simp only at this
        rw [hz] at this
        omega
      · intro k
        have := hfit (.pair k)
        simp only [cnt, g3] at this
        exact this

theorem addVec_same (ha : Exact add) {a b : List Nat}
    (h : ∀ i, a.getD i 0 + b.getD i 0 < 2 ^ 64) : addVec add a b = TokenStats.addVec a b := by
  induction a generalizing b with
  | nil => rw [addVec, TokenStats.addVec]
  | cons x a ih =>
    cases b with
    | nil => rw [addVec, TokenStats.addVec]
    | cons y b =>
      rw [addVec, TokenStats.addVec, ha x y (by simpa using h 0), ih (fun i => by simpa using h (i + 1))]
      rfl

theorem merge_same (ha : Exact add) {a b : TokenStats}
    (h : ∀ ix, cnt a ix + cnt b ix < 2 ^ 64) : merge add a b = a.merge b := by
  unfold merge TokenStats.merge
  have h1 := h .total
  have h2 := h .scanned
  simp only [cnt] at h1 h2
  rw [ha _ _ h1, ha _ _ h2, addVec_same ha (fun i => h (.tok i)), addVec_same ha (fun i => h (.seq i)),
    addVec_same ha (fun i => h (.pair i))]
  rfl

theorem processAll_same (ha : Exact add) {ts : TokenSet} {tk : FragmentTokenizer} {d}
    (hw : Work ts tk d) (hk : TokenizerOK ts tk) (ht : Tokenizable ts) (hseq : SeqsInRange ts) {K : Nat}
    (h1 : 1 ≤ K) (hK : ∀ q ∈ ts.sequences, q.tokens.length ≤ K) (samples : List Bytes)
    (st : TokenStats) (hst : Shaped ts st)
    (hlen : ∀ s ∈ samples, K * (s.length + 1) < 2 ^ 64)
    (hfit : ∀ ix, cnt st ix + workSum d samples ix < 2 ^ 64) :
    processAll add tk samples st = Batch.processAll tk samples st := by
  induction samples generalizing st with
  | nil => rfl
  | cons s ss ih =>
    obtain ⟨st1, g1, g2, g3, g4⟩ := hw.ok s st hst
    rw [processAll, Batch.processAll, g1, processSlice_same ha hk ht hseq h1 hK hst g1
      (hlen s (by simp)) (fun ix => by
        have := hfit ix
        rw [workSum_cons] at this
        rw [g4]; omega)]
    simp only [R.ok_bind]
    refine ih st1 g2 (fun s hs => hlen s (by simp [hs])) (fun ix => ?_)
    have := hfit ix
    rw [workSum_cons] at this
    rw [g4]; omega

/-! ### The parallel path -/

open Batch

/-- What the invariant of the parallel path says about sizes. -/
theorem fits_worker {ts : TokenSet} {d} {samples : List Bytes} {n : Option Nat} {N : Nat}
    {s : PState} (hi : Inv ts d samples n N s) (hc : Clean s) {i : Nat} {st : TokenStats} {x : Bytes}
    (hw : s.workers[i]? = some (.working st x)) (ix : Ix) :
    cnt st ix + d x ix ≤ workSum d samples ix := by
  have hp : lsum isPan s.workers = 0 := lsum_eq_zero.2 (fun w hw => by
    have := hc.workers w hw
    cases w <;> simp [jobOK, isPan] at this ⊢)
  have h := hi.cons hp ix
  have : wcnt d ix (.working st x) ≤ lsum (wcnt d ix) s.workers := by
    have hm := mem_of_get hw
    obtain ⟨l1, l2, hl⟩ := List.append_of_mem hm
    rw [hl, lsum_append, lsum_cons]
    omega
  simp only [wcnt] at this
  omega

theorem fits_merge {ts : TokenSet} {d} {samples : List Bytes} {n : Option Nat} {N : Nat}
    {s : PState} (hi : Inv ts d samples n N s) (hc : Clean s) {r : TokenStats} {rest : List TokenStats}
    (hr : s.results = r :: rest) (ix : Ix) :
    cnt s.stats ix + cnt r ix ≤ workSum d samples ix := by
  have hp : lsum isPan s.workers = 0 := lsum_eq_zero.2 (fun w hw => by
    have := hc.workers w hw
    cases w <;> simp [jobOK, isPan] at this ⊢)
  have h := hi.cons hp ix
  rw [hr, lsum_cons] at h
  omega

theorem size_worker {ts : TokenSet} {tk : FragmentTokenizer} {d} (hw : Work ts tk d)
    {samples : List Bytes} {n : Option Nat} {N : Nat} {s : PState} (hi : Inv ts d samples n N s)
    (hc : Clean s) {i : Nat} {st : TokenStats} {x : Bytes}
    (hwk : s.workers[i]? = some (.working st x)) : x.length ≤ (samples.map List.length).sum := by
  have h := fits_worker hi hc hwk .scanned
  rw [workSum_scanned hw] at h
  obtain ⟨ps, _, g⟩ := hw.seg x
  have : d x .scanned = x.length := by rw [g]; rfl
  omega

/-- In a state the parallel path can reach, both systems take the same steps. -/
theorem step_same (ha : Exact add) {ts : TokenSet} {tk : FragmentTokenizer} {d}
    (hw : Work ts tk d) (hk : TokenizerOK ts tk) (ht : Tokenizable ts) (hseq : SeqsInRange ts) {K : Nat}
    (h1 : 1 ≤ K) (hK : ∀ q ∈ ts.sequences, q.tokens.length ≤ K) {samples : List Bytes}
    (hlen : K * ((samples.map List.length).sum + 1) < 2 ^ 64) {n : Option Nat} {N : Nat} {s s' : PState}
    (hi : Inv ts d samples n N s) (hc : Clean s) : PStep add tk s s' ↔ Batch.PStep tk s s' := by
  have hfit : ∀ ix, workSum d samples ix < 2 ^ 64 := by
    intro ix
    have h2 := workSum_le hw ht h1 hK samples ix
    have h3 := limit_le (len := (samples.map List.length).sum) h1 ix
    rw [Nat.mul_add] at hlen
    omega
  have hproc : ∀ (i : Nat) (st : TokenStats) (x : Bytes), s.workers[i]? = some (.working st x) →
      processSlice add tk x st = FragmentTokenizer.processSlice tk x st := by
    intro i st x hwk
    obtain ⟨st', g1, g2, g3, g4⟩ := hw.ok x st (hi.wst _ (mem_of_get hwk) st rfl)
    have hx := size_worker hw hi hc hwk
    rw [g1]
    refine processSlice_same ha hk ht hseq h1 hK (hi.wst _ (mem_of_get hwk) st rfl) g1 ?_ ?_
    · have := Nat.mul_le_mul_left K (Nat.add_le_add_right hx 1)
      omega
    · intro ix
      have h4 := fits_worker hi hc hwk ix
      have h5 := hfit ix
      rw [g4]; omega
  have hmerge : ∀ (r : TokenStats) (rest : List TokenStats), s.results = r :: rest →
      merge add s.stats r = s.stats.merge r := by
    intro r rest hr
    apply merge_same ha
    intro ix
    have h4 := fits_merge hi hc hr ix
    have h5 := hfit ix
    omega
  constructor
  · intro h
    cases h with
    | send h hq => exact .send h hq
    | close h => exact .close h
    | collect h hr hm => exact .collect h hr (by rw [← hmerge _ _ hr]; exact hm)
    | collectPanic h hr hm => exact .collectPanic h hr (by rw [← hmerge _ _ hr]; exact hm)
    | collected h => exact .collected h
    | join h hw => exact .join h hw
    | joinPanic h hw => exact .joinPanic h hw
    | finish h => exact .finish h
    | lock hw hl => exact .lock hw hl
    | recv hw hq => exact .recv hw hq
    | recvErr hw hq hc => exact .recvErr hw hq hc
    | process hw hne hp => exact .process hw hne (by rw [← hproc _ _ _ hw]; exact hp)
    | processPanic hw hp => exact .processPanic hw (by rw [← hproc _ _ _ hw]; exact hp)
    | result hw => exact .result hw
  · intro h
    cases h with
    | send h hq => exact .send h hq
    | close h => exact .close h
    | collect h hr hm => exact .collect h hr (by rw [hmerge _ _ hr]; exact hm)
    | collectPanic h hr hm => exact .collectPanic h hr (by rw [hmerge _ _ hr]; exact hm)
    | collected h => exact .collected h
    | join h hw => exact .join h hw
    | joinPanic h hw => exact .joinPanic h hw
    | finish h => exact .finish h
    | lock hw hl => exact .lock hw hl
    | recv hw hq => exact .recv hw hq
    | recvErr hw hq hc => exact .recvErr hw hq hc
    | process hw hne hp => exact .process hw hne (by rw [hproc _ _ _ hw]; exact hp)
    | processPanic hw hp => exact .processPanic hw (by rw [hproc _ _ _ hw]; exact hp)
    | result hw => exact .result hw

theorem steps_same (ha : Exact add) {ts : TokenSet} {tk : FragmentTokenizer} {d}
    (hw : Work ts tk d) (hk : TokenizerOK ts tk) (ht : Tokenizable ts) (hseq : SeqsInRange ts) {K : Nat}
    (h1 : 1 ≤ K) (hK : ∀ q ∈ ts.sequences, q.tokens.length ≤ K) {samples : List Bytes}
    (hne : ∀ x ∈ samples, x ≠ [])
    (hlen : K * ((samples.map List.length).sum + 1) < 2 ^ 64) {n : Option Nat} {N : Nat} {s : PState} :
    PSteps add tk (pinit ts samples n N) s ↔ Batch.PSteps tk (pinit ts samples n N) s := by
  have hstep : ∀ a b, Batch.PSteps tk (pinit ts samples n N) a →
      (PStep add tk a b ↔ Batch.PStep tk a b) := by
    intro a b hab
    have hi0 := inv_init (ts := ts) (d := d) samples n N
    exact step_same ha hw hk ht hseq h1 hK hlen (inv_steps hw hi0 hab)
      (clean_steps hw hi0 (clean_init hne) hab)
  constructor
  · intro h
    generalize hp : pinit ts samples n N = p at h
    induction h with
    | refl => exact .refl _
    | step _ hs ih =>
      subst hp
      exact .step ih ((hstep _ _ ih).1 hs)
  · intro h
    generalize hp : pinit ts samples n N = p at h
    induction h with
    | refl => exact .refl _
    | step h' hs ih =>
      subst hp
      exact .step ih ((hstep _ _ h').2 hs)

end Machine
end Tokens
