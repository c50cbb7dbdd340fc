import Verif.Model.Work
import Verif.Spec.Work
import Verif.Spec.Cuts
import Verif.Proofs.Tokenizer
import Mathlib.Data.List.Perm.Basic
import Mathlib.Data.List.Nodup

/-! The rounds of the loops of `process_slice`. -/

set_option linter.unusedSimpArgs false
set_option linter.unusedVariables false

namespace Tokens
open Spec
namespace FragmentTokenizer

/-! ### Counting changes nothing -/

theorem bestSpanW_fst (spans : List Span) (costs : List CostState) (f i : Nat)
    (best : Option CostState) (n : Nat) :
    (bestSpanW spans costs f i best n).map Prod.fst = bestSpan spans costs f i best := by
  induction f generalizing i best n with
  | zero => rfl
  | succ f ih =>
    rw [bestSpanW, bestSpan]
    by_cases h : i = 0
    · simp [h, Except.map]
    · rw [if_neg h, if_neg h]
      cases getR spans i with
      | error e => rfl
      | ok span =>
        simp only [R.ok_bind]
        cases subR costs.length span.string.length with
        | error e => rfl
        | ok a =>
          simp only [R.ok_bind]
          cases getR costs a with
          | error e => rfl
          | ok prev =>
            simp only [R.ok_bind]
            exact ih _ _ _

theorem tracebackW_fst (spans : List Span) (costs : List CostState) (nt f pos : Nat)
    (next : Option Nat) (acc : TraceAcc) (n : Nat) :
    (tracebackW spans costs nt f pos next acc n).map Prod.fst =
      traceback spans costs nt f pos next acc := by
  induction f generalizing pos next acc n with
  | zero => rw [tracebackW, traceback]; split <;> rfl
  | succ f ih =>
    rw [tracebackW, traceback]
    by_cases h : pos = 0
    · simp [h, Except.map]
    · rw [if_neg h, if_neg h]
      cases getR costs pos with
      | error e => rfl
      | ok cs =>
        simp only [R.ok_bind]
        cases addAt acc.spanCounts cs.span 1 with
        | error e => rfl
        | ok sc =>
          simp only [R.ok_bind]
          cases getR spans cs.span with
          | error e => rfl
          | ok span =>
            simp only [R.ok_bind]
            have tail : ∀ (pc : List Nat) (nx : Option Nat),
                Except.map Prod.fst (do
                  let pos' ← subR pos span.string.length
                  tracebackW spans costs nt f pos' nx { spanCounts := sc, pairCounts := pc } (n + 1)) =
                (do
                  let pos' ← subR pos span.string.length
                  traceback spans costs nt f pos' nx { spanCounts := sc, pairCounts := pc }) := by
              intro pc nx
              cases subR pos span.string.length with
              | error e => rfl
              | ok p' =>
                simp only [R.ok_bind]
                exact ih _ _ _ _
            cases hc : span.content with
            | none => exact tail _ _
            | sequence j => exact tail _ _
            | token t =>
              cases next with
              | none => exact tail _ _
              | some x =>
                dsimp only
                cases addAt acc.pairCounts (t * nt + x) 1 with
                | error e => rfl
                | ok pc =>
                  simp only [R.ok_bind]
                  exact tail _ _

theorem tracebackW_le {spans : List Span} {costs : List CostState} {nt f pos : Nat}
    {next : Option Nat} {acc acc' : TraceAcc} {n n' : Nat}
    (h : tracebackW spans costs nt f pos next acc n = .ok (acc', n')) : n' ≤ n + f := by
  induction f generalizing pos next acc n with
  | zero =>
    rw [tracebackW] at h
    split at h
    · have := Except.ok.inj h
      simp at this; omega
    · exact absurd h (by simp)
  | succ f ih =>
    rw [tracebackW] at h
    by_cases h0 : pos = 0
    · rw [if_pos h0] at h
      have := Except.ok.inj h
      simp at this; omega
    · rw [if_neg h0] at h
      cases h1 : getR costs pos with
      | error e => rw [h1] at h; simp only [R.error_bind] at h; exact absurd h (by simp)
      | ok cs =>
        rw [h1] at h
        simp only [R.ok_bind] at h
        cases h2 : addAt acc.spanCounts cs.span 1 with
        | error e => rw [h2] at h; simp only [R.error_bind] at h; exact absurd h (by simp)
        | ok sc =>
          rw [h2] at h
          simp only [R.ok_bind] at h
          cases h3 : getR spans cs.span with
          | error e => rw [h3] at h; simp only [R.error_bind] at h; exact absurd h (by simp)
          | ok span =>
            rw [h3] at h
            simp only [R.ok_bind] at h
            have tail : ∀ (pc : List Nat) (nx : Option Nat), (do
                  let pos' ← subR pos span.string.length
                  tracebackW spans costs nt f pos' nx { spanCounts := sc, pairCounts := pc } (n + 1)) =
                  Except.ok (acc', n') → n' ≤ n + (f + 1) := by
              intro pc nx h
              cases h4 : subR pos span.string.length with
              | error e => rw [h4] at h; simp only [R.error_bind] at h; exact absurd h (by simp)
              | ok p' =>
                rw [h4] at h
                simp only [R.ok_bind] at h
                have := ih h
                omega
            cases hc : span.content with
            | none => rw [hc] at h; exact tail _ _ h
            | sequence j => rw [hc] at h; exact tail _ _ h
            | token t =>
              rw [hc] at h
              cases next with
              | none => exact tail _ _ h
              | some x =>
                dsimp only at h
                cases h5 : addAt acc.pairCounts (t * nt + x) 1 with
                | error e => rw [h5] at h; simp only [R.error_bind] at h; exact absurd h (by simp)
                | ok pc =>
                  rw [h5] at h
                  simp only [R.ok_bind] at h
                  exact tail _ _ h

/-! ### The inner loop -/

theorem bestSpanW_eq {ts : TokenSet} {spans : List Span} {m : StrMap} (hs : SpansOK ts spans m)
    (costs : List CostState) (w : Bytes) (hw : w.length ≤ costs.length) (fuel : Nat)
    (hf : w.length < fuel) (best : Option CostState) (n : Nat) :
    ∃ b, bestSpanW spans costs fuel ((firstSuffix m w).getD 0) best n =
      .ok (b, n + (cands m w).length) := by
  induction w generalizing fuel best n with
  | nil =>
    obtain ⟨f, rfl⟩ : ∃ f, fuel = f + 1 := ⟨fuel - 1, by simp at hf; omega⟩
    exact ⟨best, by simp [firstSuffix, bestSpanW, cands]⟩
  | cons b bs ih =>
    rw [firstSuffix, cands]
    cases hmk : m (b :: bs) with
    | none =>
      simp only
      exact ih (by simp at hw; omega) fuel (by simp at hf; omega) best n
    | some k =>
      simp only [Option.getD_some, List.length_cons]
      obtain ⟨f, rfl⟩ : ∃ f, fuel = f + 1 := ⟨fuel - 1, by simp at hf; omega⟩
      obtain ⟨sp, hsp, hstr⟩ := (hs.map _ _).1 hmk
      have hk : 0 < k := by
        rcases Nat.eq_zero_or_pos k with rfl | h
        · rw [hs.head] at hsp
          simp at hsp; subst hsp
          simp [emptySpan] at hstr
        · exact h
      obtain ⟨_, hlink, _⟩ := hs.sound k sp hk hsp
      have hlen : sp.string.length = bs.length + 1 := by rw [hstr]; simp
      simp at hw
      have hlt : costs.length - sp.string.length < costs.length := by omega
      have hget : costs[costs.length - sp.string.length]? =
          some costs[costs.length - sp.string.length] := List.getElem?_eq_getElem hlt
      rw [bestSpanW]
      rw [if_neg (by omega), getR_of hsp]
      simp only [R.ok_bind]
      rw [subR_of (by omega)]
      simp only [R.ok_bind]
      rw [getR_of hget]
      simp only [R.ok_bind]
      have htail : sp.string.tail = bs := by rw [hstr]; rfl
      rw [hlink, htail]
      obtain ⟨b', hb'⟩ := ih (by omega) f (by simp at hf; omega) _ (n + 1)
      refine ⟨b', hb'.trans ?_⟩
      congr 2
      omega

/-- The strings of the candidates. -/
def candStrs (m : StrMap) : Bytes → List Bytes
  | [] => []
  | b :: bs => if (m (b :: bs)).isSome then (b :: bs) :: candStrs m bs else candStrs m bs

theorem candStrs_length (m : StrMap) (w : Bytes) : (candStrs m w).length = (cands m w).length := by
  induction w with
  | nil => rfl
  | cons b bs ih =>
    rw [candStrs, cands]
    cases m (b :: bs) <;> simp [ih]

theorem mem_candStrs {m : StrMap} {w t : Bytes} :
    t ∈ candStrs m w ↔ t <:+ w ∧ t ≠ [] ∧ (m t).isSome := by
  induction w with
  | nil =>
    simp only [candStrs, List.not_mem_nil, false_iff]
    rintro ⟨h, hne, _⟩
    exact hne (List.suffix_nil.1 h)
  | cons b bs ih =>
    rw [candStrs]
    constructor
    · intro h
      split at h
      · rename_i h'
        rcases List.mem_cons.1 h with rfl | h
        · exact ⟨List.suffix_refl _, by simp, h'⟩
        · obtain ⟨h1, h2, h3⟩ := ih.1 h
          exact ⟨h1.trans (List.suffix_cons _ _), h2, h3⟩
      · obtain ⟨h1, h2, h3⟩ := ih.1 h
        exact ⟨h1.trans (List.suffix_cons _ _), h2, h3⟩
    · rintro ⟨h1, h2, h3⟩
      rcases List.suffix_cons_iff.1 h1 with rfl | h1
      · rw [if_pos h3]; simp
      · have := ih.2 ⟨h1, h2, h3⟩
        split
        · exact List.mem_cons_of_mem _ this
        · exact this

theorem candStrs_nodup (m : StrMap) (w : Bytes) : (candStrs m w).Nodup := by
  induction w with
  | nil => exact .nil
  | cons b bs ih =>
    rw [candStrs]
    split
    · refine List.nodup_cons.2 ⟨fun h => ?_, ih⟩
      have := (mem_candStrs.1 h).1.length_le
      simp at this
      omega
    · exact ih

/-- The keys of the map of the spans are the strings of the set. -/
theorem span_key {ts : TokenSet} {spans : List Span} {m : StrMap} (hs : SpansOK ts spans m)
    (t : Bytes) (ht : t ≠ []) : (m t).isSome ↔ t ∈ pieceStrings ts := by
  constructor
  · intro h
    obtain ⟨k, hk⟩ := Option.isSome_iff_exists.1 h
    obtain ⟨sp, hsp, rfl⟩ := (hs.map t k).1 hk
    have h0 : 0 < k := by
      rcases Nat.eq_zero_or_pos k with rfl | h
      · rw [hs.head] at hsp; simp at hsp; subst hsp; exact absurd rfl ht
      · exact h
    obtain ⟨_, _, p, _, hp, _⟩ := hs.sound k sp h0 hsp
    cases p with
    | tok i =>
      simp only [Piece.string] at hp
      split at hp
      · next s' h' =>
        simp at hp
        refine List.mem_append.2 (.inl ?_)
        unfold strTokens
        rw [List.mem_filterMap]
        exact ⟨.str s', List.mem_iff_getElem?.2 ⟨i, h'⟩, by simp [tokenText, hp]⟩
      · simp at hp
    | seq j =>
      simp only [Piece.string] at hp
      split at hp
      · next q h' =>
        simp at hp
        refine List.mem_append.2 (.inr ?_)
        rw [← hp]
        exact List.mem_map.2 ⟨q, List.mem_iff_getElem?.2 ⟨j, h'⟩, rfl⟩
      · simp at hp
  · intro h
    have : ∃ p : Piece, p.string ts = some t := by
      rcases List.mem_append.1 h with h | h
      · obtain ⟨tok, h1, h2⟩ := List.mem_filterMap.1 h
        obtain ⟨i, hi⟩ := List.mem_iff_getElem?.1 h1
        cases tok with
        | ext n => simp [tokenText] at h2
        | str s => simp [tokenText] at h2; subst h2; exact ⟨.tok i, by simp [Piece.string, hi]⟩
      · obtain ⟨q, h1, rfl⟩ := List.mem_map.1 h
        obtain ⟨j, hj⟩ := List.mem_iff_getElem?.1 h1
        exact ⟨.seq j, by simp [Piece.string, hj]⟩
    obtain ⟨p, hp⟩ := this
    obtain ⟨k, sp, _, hsp, hstr, _⟩ := hs.complete p t hp
    rw [(hs.map t k).2 ⟨sp, hsp, hstr⟩]; rfl

theorem cands_count {ts : TokenSet} {spans : List Span} {m : StrMap} (hs : SpansOK ts spans m)
    (ht : Tokenizable ts) {w p : Bytes} (hw : w <:+ p)
    (hcov : ∀ t, t <:+ p → t ≠ [] → (m t).isSome → t <:+ w) :
    (cands m w).length = endingAt ts p := by
  rw [← candStrs_length]
  unfold endingAt
  refine List.Perm.length_eq ((List.perm_ext_iff_of_nodup (candStrs_nodup m w) (ht.nodup.filter _)).2 ?_)
  intro t
  rw [mem_candStrs, List.mem_filter, List.isSuffixOf_iff_suffix]
  constructor
  · rintro ⟨h1, h2, h3⟩
    exact ⟨(span_key hs t h2).1 h3, h1.trans hw⟩
  · rintro ⟨h1, h2⟩
    have hne := ht.nonempty t h1
    have h3 := (span_key hs t hne).2 h1
    exact ⟨hcov t h2 hne h3, hne, h3⟩

/-! ### The loop over the bytes -/

theorem processLoopW_ok {ts : TokenSet} {tk : FragmentTokenizer} {spanBy stateBy : StrMap}
    (hs : SpansOK ts tk.spans spanBy) (ha : StatesOK tk.spans spanBy tk.suffixStates stateBy)
    (ht : Tokenizable ts) (rest p : Bytes) (k : Nat) (state : SuffixState)
    (costs : List CostState) (hst : tk.suffixStates[k]? = some state)
    (hsuf : state.suffix <:+ p)
    (hlong : ∀ u, u <:+ p → (stateBy u).isSome → u.length ≤ state.suffix.length)
    (hc : CostsOK ts tk.spans costs p) (c n : Nat) :
    ∃ costs', processLoop tk rest state costs = .ok costs' ∧
      processLoopW tk rest state costs c n = .ok (costs', c + rest.length,
        n + ((List.range rest.length).map (fun j => endingAt ts (p ++ rest.take (j + 1)))).sum) := by
  induction rest generalizing p k state costs c n with
  | nil => exact ⟨costs, rfl, rfl⟩
  | cons b rest ih =>
    rw [processLoop, processLoopW]
    obtain ⟨hnext, hpos⟩ := ha.next k state hst b
    cases hf : firstSuffix stateBy (state.suffix ++ [b]) with
    | none => rw [hf] at hnext; simp at hnext; omega
    | some k' =>
      rw [hf] at hnext
      simp at hnext
      obtain ⟨t, ht', htne, hmt, htmax⟩ := firstSuffix_some hf
      obtain ⟨state', hst', rfl⟩ := (ha.map t k').1 hmt
      have hk' : 0 < k' := by omega
      have hspan := ha.span k' state' hk' hst'
      have hsuf' : state'.suffix <:+ p ++ [b] := by
        refine ht'.trans ?_
        obtain ⟨x, rfl⟩ := hsuf
        exact ⟨x, by simp⟩
      have hlong' : ∀ u, u <:+ p ++ [b] → (stateBy u).isSome →
          u.length ≤ state'.suffix.length := by
        intro u hu hsome
        by_cases hne : u = []
        · subst hne; simp
        · have hu' : u = u.dropLast ++ [u.getLast hne] := (List.dropLast_concat_getLast hne).symm
          obtain ⟨x, hx⟩ := hu
          rw [hu', ← List.append_assoc] at hx
          have hxb := List.append_inj' hx rfl
          have hlast : u.getLast hne = b := by simpa using hxb.2
          have hdl : u.dropLast <:+ p := ⟨x, hxb.1⟩
          have hdom : (stateBy u.dropLast).isSome := by
            rw [ha.dom]
            rcases (ha.dom u).1 hsome with h | ⟨sp, h1, h2⟩
            · exact absurd h hne
            · exact .inr ⟨sp, h1, (List.dropLast_prefix u).trans h2⟩
          have h1 := hlong _ hdl hdom
          have h2 : u.dropLast <:+ state.suffix := suffix_of_suffix_le hdl hsuf h1
          have h3 : u <:+ state.suffix ++ [b] := by
            rw [hu', hlast]
            obtain ⟨y, hy⟩ := h2
            exact ⟨y, by rw [← List.append_assoc, hy]⟩
          exact htmax u h3 hne hsome
      have hcov : ∀ t, t <:+ p ++ [b] → t ≠ [] → (spanBy t).isSome → t <:+ state'.suffix := by
        intro t ht hne hsome
        apply suffix_of_suffix_le ht hsuf'
        apply hlong' t ht
        rw [ha.dom]
        right
        obtain ⟨i, hi⟩ := Option.isSome_iff_exists.1 hsome
        obtain ⟨sp, hsp, hstr⟩ := (hs.map t i).1 hi
        exact ⟨sp, List.mem_iff_getElem?.2 ⟨i, hsp⟩, by rw [hstr]; exact List.prefix_refl _⟩
      obtain ⟨c', hcf, hcok⟩ := costsOK_snoc hs hc b (ht.bytes b) hsuf' hcov
      have hwl : state'.suffix.length ≤ costs.length := by
        have h1 := hsuf'.length_le
        have h2 := hc.len
        simp at h1; omega
      have hcount := cands_count hs ht hsuf' hcov
      rw [hnext, getR_of hst']
      simp only [R.ok_bind]
      have e0 := bestSpan_eq hs costs _ hwl (state'.suffix.length + 1) (by omega) none
      rw [hcf] at e0
      obtain ⟨bb, e1⟩ := bestSpanW_eq hs costs _ hwl (state'.suffix.length + 1) (by omega) none n
      have e2 := bestSpanW_fst tk.spans costs (state'.suffix.length + 1)
        ((firstSuffix spanBy state'.suffix).getD 0) none n
      rw [e1, e0] at e2
      have e3 : bb = some c' := Except.ok.inj e2
      subst e3
      rw [hspan, e0, e1]
      simp only [R.ok_bind, unwrapR_some]
      obtain ⟨costs', h1, h2⟩ := ih (p ++ [b]) k' state' (costs ++ [c']) hst' hsuf' hlong' hcok (c + 1)
        (n + (cands spanBy state'.suffix).length)
      refine ⟨costs', h1, h2.trans ?_⟩
      rw [hcount]
      simp only [List.length_cons, List.range_succ_eq_map, List.map_cons, List.sum_cons, List.map_map,
        Function.comp_def, List.take_succ_cons, List.take_zero, List.append_assoc, List.cons_append,
        List.nil_append, Nat.succ_eq_add_one]
      congr 3 <;> omega

theorem processSliceW_ok {ts : TokenSet} {tk : FragmentTokenizer} (hnew : new ts = .ok tk)
    (hseq : SeqsInRange ts) (text : Bytes) (st : TokenStats) (hst : Shaped ts st) :
    ∃ st' w, processSlice tk text st = .ok st' ∧ processSliceW tk text st = .ok (st', w) ∧
      w.bytes = text.length ∧ w.searched = occurrences ts text ∧ w.traced ≤ text.length ∧
      w.spans = tk.spans.length - 1 := by
  obtain ⟨hk, ht⟩ := ok_of_new hnew
  obtain ⟨st', ps, hok, _⟩ := processSlice_ok hk hseq text st hst
  obtain ⟨hts, ⟨spanBy, stateBy, hs, ha⟩, hb, hnd⟩ := hk
  obtain ⟨st0, h0, hsuf0⟩ := ha.head
  obtain ⟨costs, h1, h2⟩ := processLoopW_ok hs ha ht text [] 0 st0 [{ cost := 0, span := 0 }] h0
    (by rw [hsuf0]; exact List.suffix_refl _)
    (by intro u hu _; rw [List.suffix_nil.1 hu]; simp) (costsOK_init ts tk.spans) 0 0
  have hok' := hok
  unfold processSlice at hok'
  rw [getR_of h0] at hok'
  simp only [R.ok_bind] at hok'
  rw [h1] at hok'
  simp only [R.ok_bind] at hok'
  unfold updateStats at hok'
  unfold processSliceW
  rw [getR_of h0]
  simp only [R.ok_bind]
  rw [h2]
  simp only [R.ok_bind]
  cases hl : unwrapR costs.getLast? with
  | error e => rw [hl] at hok'; simp only [R.error_bind] at hok'; exact absurd hok' (by simp)
  | ok last =>
    rw [hl] at hok'
    simp only [R.ok_bind] at hok' ⊢
    have e := tracebackW_fst tk.spans costs st.tokenSet.ntokens text.length text.length none
      { spanCounts := List.replicate tk.spans.length 0, pairCounts := st.pairCounts } 0
    rw [← e] at hok'
    cases htb : tracebackW tk.spans costs st.tokenSet.ntokens text.length text.length none
      { spanCounts := List.replicate tk.spans.length 0, pairCounts := st.pairCounts } 0 with
    | error e => rw [htb] at hok'; exact absurd hok' (by simp [Except.map, bind, Except.bind])
    | ok r =>
      obtain ⟨acc, t⟩ := r
      rw [htb] at hok'
      have hle := tracebackW_le htb
      simp only [Except.map, R.ok_bind] at hok' ⊢
      rw [hok']
      refine ⟨st', _, hok, rfl, ?_, ?_, ?_, rfl⟩
      · simp
      · simp [occurrences]
      · simpa using hle

/-! ### Bounds -/

theorem endingAt_le {ts : TokenSet} (ht : Tokenizable ts) {m : Nat} (hm : PiecesUpTo ts m) (p : Bytes) :
    endingAt ts p ≤ m := by
  have hinj : (((pieceStrings ts).filter (fun s => s.isSuffixOf p)).map List.length).Nodup := by
    refine List.Nodup.map_on ?_ (ht.nodup.filter _)
    intro x hx y hy hxy
    rw [List.mem_filter, List.isSuffixOf_iff_suffix] at hx hy
    exact (List.suffix_of_suffix_length_le hx.2 hy.2 (by omega)).eq_of_length hxy
  have hsub : ∀ x ∈ ((pieceStrings ts).filter (fun s => s.isSuffixOf p)).map List.length,
      x ∈ (List.range m).map (· + 1) := by
    intro x hx
    obtain ⟨s, hs, rfl⟩ := List.mem_map.1 hx
    have h1 := (List.mem_filter.1 hs).1
    have h2 := hm s h1
    have h3 := List.length_pos_iff.2 (ht.nonempty s h1)
    exact List.mem_map.2 ⟨s.length - 1, List.mem_range.2 (by omega), by omega⟩
  have := (List.subperm_of_subset hinj hsub).length_le
  simpa [endingAt] using this

theorem sum_le_mul {l : List Nat} {m : Nat} (h : ∀ x ∈ l, x ≤ m) : l.sum ≤ l.length * m := by
  induction l with
  | nil => simp
  | cons x l ih =>
    have h1 := h x (by simp)
    have h2 := ih (fun y hy => h y (by simp [hy]))
    simp [Nat.add_mul]; omega

theorem le_sum {l : List Nat} (h : ∀ x ∈ l, 1 ≤ x) : l.length ≤ l.sum := by
  induction l with
  | nil => simp
  | cons x l ih =>
    have h1 := h x (by simp)
    have h2 := ih (fun y hy => h y (by simp [hy]))
    simp; omega

theorem occurrences_le {ts : TokenSet} (ht : Tokenizable ts) {m : Nat} (hm : PiecesUpTo ts m)
    (text : Bytes) : occurrences ts text ≤ text.length * m := by
  unfold occurrences
  refine Nat.le_trans (sum_le_mul (m := m) ?_) (by simp)
  intro x hx
  obtain ⟨j, _, rfl⟩ := List.mem_map.1 hx
  exact endingAt_le ht hm _

theorem le_occurrences {ts : TokenSet} (ht : Tokenizable ts) (text : Bytes) :
    text.length ≤ occurrences ts text := by
  unfold occurrences
  refine Nat.le_trans (by simp) (le_sum ?_)
  intro x hx
  obtain ⟨j, hj, rfl⟩ := List.mem_map.1 hx
  have hj' := List.mem_range.1 hj
  unfold endingAt
  apply List.length_pos_iff.2
  apply List.ne_nil_of_mem (a := [text[j]])
  rw [List.mem_filter, List.isSuffixOf_iff_suffix]
  refine ⟨ht.bytes _, ?_⟩
  rw [List.take_add_one, List.getElem?_eq_getElem hj']
  exact List.suffix_append _ _

/-! ### The automaton -/

theorem states_exact {ts : TokenSet} {tk : FragmentTokenizer} (hnew : new ts = .ok tk) :
    (tk.suffixStates.map SuffixState.suffix).Nodup ∧
    ∀ t, t ∈ tk.suffixStates.map SuffixState.suffix ↔ t = [] ∨ ∃ s ∈ pieceStrings ts, t <+: s := by
  obtain ⟨hk, ht⟩ := ok_of_new hnew
  obtain ⟨hts, ⟨spanBy, stateBy, hs, ha⟩, hb, hnd⟩ := hk
  refine ⟨ha.map.nodup, fun t => ?_⟩
  have h1 : t ∈ tk.suffixStates.map SuffixState.suffix ↔ (stateBy t).isSome := by
    constructor
    · intro h
      obtain ⟨st, hst, rfl⟩ := List.mem_map.1 h
      obtain ⟨k, hk⟩ := List.mem_iff_getElem?.1 hst
      rw [(ha.map _ k).2 ⟨st, hk, rfl⟩]; rfl
    · intro h
      obtain ⟨k, hk⟩ := Option.isSome_iff_exists.1 h
      obtain ⟨st, hst, rfl⟩ := (ha.map t k).1 hk
      exact List.mem_map.2 ⟨st, List.mem_iff_getElem?.2 ⟨k, hst⟩, rfl⟩
  rw [h1, ha.dom]
  constructor
  · rintro (h | ⟨sp, h2, h3⟩)
    · exact .inl h
    · by_cases h0 : t = []
      · exact .inl h0
      · obtain ⟨k, hk⟩ := List.mem_iff_getElem?.1 h2
        have hne : sp.string ≠ [] := by
          intro h; rw [h] at h3; exact h0 (List.prefix_nil.1 h3)
        refine .inr ⟨sp.string, (span_key hs _ hne).1 ?_, h3⟩
        rw [(hs.map _ k).2 ⟨sp, hk, rfl⟩]; rfl
  · rintro (h | ⟨s, h2, h3⟩)
    · exact .inl h
    · have := (span_key hs s (ht.nonempty s h2)).2 h2
      obtain ⟨k, hk⟩ := Option.isSome_iff_exists.1 this
      obtain ⟨sp, hsp, rfl⟩ := (hs.map s k).1 hk
      exact .inr ⟨sp, List.mem_iff_getElem?.2 ⟨k, hsp⟩, h3⟩

theorem prefixes_length (l : List Bytes) :
    (l.flatMap (fun s => (List.range s.length).map (fun k => s.take (k + 1)))).length =
      (l.map List.length).sum := by
  induction l with
  | nil => rfl
  | cons s l ih =>
    rw [List.flatMap_cons, List.length_append, ih]
    simp

theorem states_le {ts : TokenSet} {tk : FragmentTokenizer} (hnew : new ts = .ok tk) :
    tk.suffixStates.length ≤ 1 + ((pieceStrings ts).map List.length).sum := by
  obtain ⟨hnd, hmem⟩ := states_exact hnew
  have hsub : ∀ t ∈ tk.suffixStates.map SuffixState.suffix,
      t ∈ [] :: (pieceStrings ts).flatMap (fun s => (List.range s.length).map (fun k => s.take (k + 1))) := by
    intro t ht
    rcases (hmem t).1 ht with rfl | ⟨s, hs, hp⟩
    · simp
    · by_cases h0 : t = []
      · simp [h0]
      · refine List.mem_cons_of_mem _ (List.mem_flatMap.2 ⟨s, hs, List.mem_map.2 ⟨t.length - 1, ?_, ?_⟩⟩)
        · have := hp.length_le
          have := List.length_pos_iff.2 h0
          exact List.mem_range.2 (by omega)
        · have := List.length_pos_iff.2 h0
          rw [show t.length - 1 + 1 = t.length by omega]
          exact (List.prefix_iff_eq_take.1 hp).symm
  have := (List.subperm_of_subset hnd hsub).length_le
  rw [List.length_map, List.length_cons, prefixes_length] at this
  omega

theorem spans_count {ts : TokenSet} {tk : FragmentTokenizer} (hnew : new ts = .ok tk) :
    tk.spans.length = (pieceStrings ts).length + 1 := by
  obtain ⟨hk, ht⟩ := ok_of_new hnew
  obtain ⟨hts, ⟨spanBy, stateBy, hs, ha⟩, hb, hnd⟩ := hk
  have h1 := congrArg List.length hs.tail
  simp only [List.length_map, List.length_tail] at h1
  have h2 := congrArg List.length (rawSpans_strings ts)
  rw [List.length_map] at h2
  have h3 : 0 < tk.spans.length := by
    have := hs.head
    rcases Nat.eq_zero_or_pos tk.spans.length with h | h
    · rw [List.length_eq_zero_iff.1 h] at this; simp at this
    · exact h
  omega

end FragmentTokenizer
end Tokens
