import Verif.Proofs.DP

/-! The traceback and counting of `update_stats`. -/

set_option linter.unusedSimpArgs false
set_option linter.unusedVariables false

namespace Tokens
open Spec

theorem addAt_of {l : List Nat} {i : Nat} (h : i < l.length) (n : Nat) :
    addAt l i n = .ok (l.set i (l.getD i 0 + n)) := by
  unfold addAt
  simp [List.getElem?_eq_getElem h, List.getD_eq_getElem?_getD]

theorem getD_set {l : List Nat} {i j v : Nat} :
    (l.set i v).getD j 0 = if i = j ∧ i < l.length then v else l.getD j 0 := by
  simp only [List.getD_eq_getElem?_getD, List.getElem?_set]
  by_cases h : i = j
  · subst h
    by_cases h2 : i < l.length <;> simp [h2]
  · simp [h]

theorem pairIdx_inj {n a b c d : Nat} (hb : b < n) (hd : d < n) (h : a * n + b = c * n + d) :
    a = c ∧ b = d := by
  have hn : 0 < n := by omega
  have h1 : (a * n + b) / n = a := by
    rw [Nat.mul_comm, Nat.mul_add_div hn, Nat.div_eq_of_lt hb]; omega
  have h2 : (c * n + d) / n = c := by
    rw [Nat.mul_comm, Nat.mul_add_div hn, Nat.div_eq_of_lt hd]; omega
  have : a = c := by rw [← h1, h, h2]
  subst this
  exact ⟨rfl, by omega⟩

theorem pairIdx_lt {n a b : Nat} (ha : a < n) (hb : b < n) : a * n + b < n * n := by
  have : a * n + n ≤ n * n := by
    rw [← Nat.succ_mul]
    exact Nat.mul_le_mul_right n ha
  omega

namespace Spec

theorem pairOcc_snoc_tok_tok (a b : Nat) (ps : List Piece) (t n : Nat) :
    pairOcc a b (ps ++ [.tok t, .tok n]) =
      pairOcc a b (ps ++ [.tok t]) + if t = a ∧ n = b then 1 else 0 := by
  induction ps with
  | nil => simp [pairOcc]
  | cons p ps ih =>
    cases p with
    | seq j => simpa [pairOcc] using ih
    | tok x =>
      cases ps with
      | nil => simp [pairOcc]
      | cons q qs =>
        cases q with
        | seq j => simpa [pairOcc] using ih
        | tok y =>
          simp only [List.cons_append, pairOcc] at ih ⊢
          omega

theorem pairOcc_append_seq (a b : Nat) (ps : List Piece) (j : Nat) (qs : List Piece) :
    pairOcc a b (ps ++ .seq j :: qs) = pairOcc a b ps + pairOcc a b qs := by
  induction ps with
  | nil => simp [pairOcc]
  | cons p ps ih =>
    cases p with
    | seq j => simpa [pairOcc] using ih
    | tok x =>
      cases ps with
      | nil => simp [pairOcc]
      | cons q qs =>
        cases q with
        | seq j => simpa [pairOcc] using ih
        | tok y =>
          simp only [List.cons_append, pairOcc] at ih ⊢
          omega

theorem pairOcc_singleton (a b : Nat) (p : Piece) : pairOcc a b [p] = 0 := by
  cases p <;> simp [pairOcc]

/-- Adjacent pairs across a token piece. -/
theorem pairOcc_append_tok (a b : Nat) (ps : List Piece) (t : Nat) (qs : List Piece) :
    pairOcc a b (ps ++ .tok t :: qs) = pairOcc a b (ps ++ [.tok t]) + pairOcc a b (.tok t :: qs) := by
  induction ps with
  | nil => simp [pairOcc]
  | cons p ps ih =>
    cases p with
    | seq j => simpa [pairOcc] using ih
    | tok x =>
      cases ps with
      | nil => simp [pairOcc]
      | cons q qs' =>
        cases q with
        | seq j => simpa [pairOcc] using ih
        | tok y =>
          simp only [List.cons_append, pairOcc] at ih ⊢
          omega

theorem LongestLast.optimal {ts : TokenSet} {ps : List Piece} {t : Bytes}
    (h : LongestLast ts ps t) : Optimal ts t ps := by
  cases h with
  | nil => exact ⟨.nil, fun _ _ => by simp [output]⟩
  | snoc _ _ h _ => exact h

end Spec

namespace FragmentTokenizer

/-- The piece to the right of the current position, if it is a token. -/
def nextList : Option Nat → List Piece
  | some n => [.tok n]
  | none => []

theorem pieceOf_tok {c : SpanContent} {i : Nat} : pieceOf c = some (.tok i) ↔ c = .token i := by
  cases c <;> simp [pieceOf]

theorem pieceOf_seq {c : SpanContent} {i : Nat} : pieceOf c = some (.seq i) ↔ c = .sequence i := by
  cases c <;> simp [pieceOf]

theorem tok_lt {ts : TokenSet} {i : Nat} {s : Bytes} (h : Piece.string ts (.tok i) = some s) :
    i < ts.tokens.length := by
  simp only [Piece.string] at h
  split at h
  · next h' => exact (List.getElem?_eq_some_iff.1 h').1
  · simp at h

theorem seq_lt {ts : TokenSet} {i : Nat} {s : Bytes} (h : Piece.string ts (.seq i) = some s) :
    i < ts.sequences.length := by
  simp only [Piece.string] at h
  split at h
  · next h' => exact (List.getElem?_eq_some_iff.1 h').1
  · simp at h

theorem traceback_ok {ts : TokenSet} {spans : List Span} {m : StrMap} (hs : SpansOK ts spans m)
    {costs : List CostState} {text : Bytes} (hc : CostsOK ts spans costs text)
    (fuel pos : Nat) (hf : pos ≤ fuel) (hpos : pos ≤ text.length) (next : Option Nat)
    (hnext : ∀ n, next = some n → n < ts.tokens.length) (acc : TraceAcc)
    (hsc : acc.spanCounts.length = spans.length)
    (hpc : acc.pairCounts.length = ts.tokens.length * ts.tokens.length) :
    ∃ ps acc', LongestLast ts ps (text.take pos) ∧
      traceback spans costs ts.tokens.length fuel pos next acc = .ok acc' ∧
      acc'.spanCounts.length = spans.length ∧
      acc'.pairCounts.length = ts.tokens.length * ts.tokens.length ∧
      (∀ k sp p, 0 < k → spans[k]? = some sp → pieceOf sp.content = some p →
        acc'.spanCounts.getD k 0 = acc.spanCounts.getD k 0 + ps.count p) ∧
      (∀ a < ts.tokens.length, ∀ b < ts.tokens.length,
        acc'.pairCounts.getD (a * ts.tokens.length + b) 0 =
          acc.pairCounts.getD (a * ts.tokens.length + b) 0 + pairOcc a b (ps ++ nextList next)) := by
  induction fuel generalizing pos next acc with
  | zero =>
    have : pos = 0 := by omega
    subst this
    refine ⟨[], acc, by simpa using LongestLast.nil, by simp [traceback], hsc, hpc, by simp, ?_⟩
    intro a _ b _
    cases next <;> simp [nextList, pairOcc]
  | succ f ih =>
    rw [traceback]
    by_cases h0 : pos = 0
    · subst h0
      refine ⟨[], acc, by simpa using LongestLast.nil, by simp, hsc, hpc, by simp, ?_⟩
      intro a _ b _
      cases next <;> simp [nextList, pairOcc]
    · rw [if_neg h0]
      have hlt : pos < costs.length := by have := hc.len; omega
      have hcs := List.getElem?_eq_getElem hlt
      generalize costs[pos] = cs at hcs
      obtain ⟨hmin, hlast⟩ := hc.row pos cs hcs
      obtain ⟨hk0, sp, prev, hsp, hsuf, hprev, hcost, hlong⟩ := hlast (by omega)
      obtain ⟨hne, _, p, hp, hpstr, hpcost⟩ := hs.sound _ _ hk0 hsp
      have hl1 : 0 < sp.string.length := List.length_pos_iff.2 hne
      have hl2 : sp.string.length ≤ pos := by
        have := hsuf.length_le; simp at this; omega
      have hklt : cs.span < acc.spanCounts.length := by
        rw [hsc]; exact (List.getElem?_eq_some_iff.1 hsp).1
      rw [getR_of hcs]
      simp only [R.ok_bind]
      rw [addAt_of hklt]
      simp only [R.ok_bind]
      rw [getR_of hsp]
      simp only [R.ok_bind]
      rw [subR_of hl2]
      have htext : text.take pos = text.take (pos - sp.string.length) ++ sp.string := by
        have := take_append_suffix hsuf
        rw [List.length_take, Nat.min_eq_left hpos, List.take_take] at this
        rw [Nat.min_eq_left (by omega)] at this
        exact this
      -- the last piece is longest
      have hLL : ∀ ps, LongestLast ts ps (text.take (pos - sp.string.length)) →
          LongestLast ts (ps ++ [p]) (text.take pos) := by
        intro ps hps
        have hspell : Spells ts ps (text.take (pos - sp.string.length)) ∧
            (output ts ps).length = prev.cost := by
          have hpm := (hc.row _ _ hprev).min
          exact (optimal_iff hpm _).1 hps.optimal
        rw [htext]
        refine .snoc hps hpstr ?_ ?_
        · rw [← htext]
          refine (optimal_iff hmin _).2 ⟨?_, ?_⟩
          · rw [htext]; exact hspell.1.snoc hpstr
          · rw [output_append, output_singleton, List.length_append, hspell.2, hcost, hpcost]
        · intro qs q r hq ho
          rw [← htext] at ho
          obtain ⟨ho1, ho2⟩ := (optimal_iff hmin _).1 ho
          obtain ⟨u, s, hus, hu, hqs⟩ := ho1.snoc_inv
          rw [hq] at hqs; simp at hqs; subst hqs
          obtain ⟨k', sp', hk', hsp', hstr', _, hcost'⟩ := hs.complete q r hq
          subst hstr'
          have hsfx : sp'.string <:+ text.take pos := by rw [hus]; exact List.suffix_append _ _
          have hl3 : sp'.string.length ≤ pos := by
            have := hsfx.length_le; simp at this; omega
          have hlt' : pos - sp'.string.length < costs.length := by omega
          have hpv := List.getElem?_eq_getElem hlt'
          generalize costs[pos - sp'.string.length] = prev' at hpv
          have hu' : u = text.take (pos - sp'.string.length) := by
            have h1 := take_append_suffix hsfx
            rw [List.length_take, Nat.min_eq_left hpos, List.take_take,
              Nat.min_eq_left (by omega), hus] at h1
            exact (List.append_inj' h1 rfl).1
          have hm' := (hc.row _ _ hpv).min
          have h4 := hm'.2 qs (by rw [← hu']; exact hu)
          rw [output_append, output_singleton, List.length_append, ← hcost'] at ho2
          -- the alternative costs at least the minimum
          obtain ⟨⟨qs', hqs', hql'⟩, _⟩ := hm'
          have h5 := hmin.2 (qs' ++ [q]) (by
            rw [hus, hu']; exact hqs'.snoc hq)
          rw [output_append, output_singleton, List.length_append, ← hcost', hql'] at h5
          exact hlong k' sp' prev' hk' hsp' hsfx hpv (by omega)
      -- span counts
      have hspan : ∀ (sc' : List Nat) (ps : List Piece),
          (∀ k sp q, 0 < k → spans[k]? = some sp → pieceOf sp.content = some q →
            sc'.getD k 0 = (acc.spanCounts.set cs.span (acc.spanCounts.getD cs.span 0 + 1)).getD k 0
              + ps.count q) →
          ∀ k sp q, 0 < k → spans[k]? = some sp → pieceOf sp.content = some q →
            sc'.getD k 0 = acc.spanCounts.getD k 0 + (ps ++ [p]).count q := by
        intro sc' ps h k sp' q hk hsp' hq
        rw [h k sp' q hk hsp' hq, getD_set, List.count_append]
        by_cases hkk : cs.span = k
        · subst hkk
          rw [hsp] at hsp'; simp at hsp'; subst hsp'
          rw [hp] at hq; simp at hq; subst hq
          simp [hklt]; omega
        · have hpq : p ≠ q := by
            rintro rfl
            obtain ⟨_, _, p', hp', hps', _⟩ := hs.sound _ _ hk hsp'
            rw [hq] at hp'; simp at hp'; subst hp'
            rw [hpstr] at hps'; simp at hps'
            have h1 := (hs.map sp.string cs.span).2 ⟨sp, hsp, rfl⟩
            have h2 := (hs.map sp.string k).2 ⟨sp', hsp', hps'.symm⟩
            rw [h1] at h2; simp at h2
            exact hkk h2
          simp [hkk, hpq]
      cases p with
      | tok t =>
        have hct := pieceOf_tok.1 hp
        have htlt := tok_lt hpstr
        cases next with
        | none =>
          simp only [hct, R.ok_bind]
          obtain ⟨ps, acc', h1, h2, h3, h4, h5, h6⟩ :=
            ih (pos - sp.string.length) (by omega) (by omega) (some t)
              (by intro n hn; simp at hn; omega)
              { spanCounts := acc.spanCounts.set cs.span (acc.spanCounts.getD cs.span 0 + 1),
                pairCounts := acc.pairCounts } (by simpa using hsc) hpc
          refine ⟨ps ++ [.tok t], acc', hLL ps h1, h2, h3, h4, hspan _ _ h5, ?_⟩
          intro a ha b hb
          have := h6 a ha b hb
          simpa [nextList] using this
        | some n =>
          have hnlt := hnext n rfl
          have hidx : t * ts.tokens.length + n < acc.pairCounts.length := by
            rw [hpc]; exact pairIdx_lt htlt hnlt
          simp only [hct]
          rw [addAt_of hidx]
          simp only [R.ok_bind]
          obtain ⟨ps, acc', h1, h2, h3, h4, h5, h6⟩ :=
            ih (pos - sp.string.length) (by omega) (by omega) (some t)
              (by intro n hn; simp at hn; omega)
              { spanCounts := acc.spanCounts.set cs.span (acc.spanCounts.getD cs.span 0 + 1),
                pairCounts := acc.pairCounts.set (t * ts.tokens.length + n)
                  (acc.pairCounts.getD (t * ts.tokens.length + n) 0 + 1) }
              (by simpa using hsc) (by simpa using hpc)
          refine ⟨ps ++ [.tok t], acc', hLL ps h1, h2, h3, h4, hspan _ _ h5, ?_⟩
          intro a ha b hb
          have h7 := h6 a ha b hb
          simp only [nextList] at h7
          rw [h7, getD_set]
          simp only [nextList, List.append_assoc, List.cons_append, List.nil_append]
          rw [pairOcc_snoc_tok_tok]
          by_cases he : t * ts.tokens.length + n = a * ts.tokens.length + b
          · obtain ⟨rfl, rfl⟩ := pairIdx_inj hnlt hb he
            simp [hidx]; omega
          · have : ¬ (t = a ∧ n = b) := by rintro ⟨rfl, rfl⟩; exact he rfl
            simp [he, this]
      | seq j =>
        have hct := pieceOf_seq.1 hp
        simp only [hct, R.ok_bind]
        obtain ⟨ps, acc', h1, h2, h3, h4, h5, h6⟩ :=
          ih (pos - sp.string.length) (by omega) (by omega) none (by simp)
            { spanCounts := acc.spanCounts.set cs.span (acc.spanCounts.getD cs.span 0 + 1),
              pairCounts := acc.pairCounts } (by simpa using hsc) hpc
        refine ⟨ps ++ [.seq j], acc', hLL ps h1, ?_, h3, h4, hspan _ _ h5, ?_⟩
        · exact h2
        · intro a ha b hb
          have h7 := h6 a ha b hb
          simp only [nextList, List.append_nil] at h7
          rw [h7]
          simp only [List.append_assoc, List.cons_append, List.nil_append]
          rw [pairOcc_append_seq]
          cases next <;> simp [nextList, pairOcc]

/-! Turning span counts into token and sequence counts. -/

/-- `tokenCounts[i] += n * occurrences` over a token list. -/
theorem addCounts_ok (counts : List Nat) (l : List Nat) (n : Nat)
    (h : ∀ t ∈ l, t < counts.length) :
    ∃ c', addCounts counts l n = .ok c' ∧ c'.length = counts.length ∧
      ∀ i < counts.length, c'.getD i 0 = counts.getD i 0 + n * l.count i := by
  induction l generalizing counts with
  | nil => exact ⟨counts, rfl, rfl, by simp⟩
  | cons t l ih =>
    have ht : t < counts.length := h t (by simp)
    rw [addCounts, addAt_of ht]
    simp only [R.ok_bind]
    obtain ⟨c', h1, h2, h3⟩ := ih (counts.set t (counts.getD t 0 + n))
      (by intro x hx; simpa using h x (by simp [hx]))
    refine ⟨c', h1, by simpa using h2, ?_⟩
    intro i hi
    rw [h3 i (by simpa using hi), getD_set, List.count_cons]
    by_cases hti : t = i
    · subst hti; simp [hi, Nat.mul_add]; omega
    · simp [hti]

/-- Weighted sum over pieces. -/
def wsum (f : Piece → Nat) (g : Piece → Nat) : List Piece → Nat
  | [] => 0
  | p :: ps => f p * g p + wsum f g ps

theorem foldSpanCounts_ok {ts : TokenSet} (hseq : SeqsInRange ts) (sps : List Span)
    (pieces : List Piece) (hpieces : sps.map (fun s => pieceOf s.content) = pieces.map some)
    (hvalid : ∀ p ∈ pieces, (p.string ts).isSome)
    (cnt : Piece → Nat) (st : TokenStats) (hst : st.tokenSet = ts)
    (htc : st.tokenCounts.length = ts.tokens.length)
    (hsc : st.seqCounts.length = ts.sequences.length) :
    ∃ st', foldSpanCounts sps (pieces.map cnt) st = .ok st' ∧
      st'.tokenSet = st.tokenSet ∧ st'.initialSize = st.initialSize ∧
      st'.totalTokens = st.totalTokens ∧ st'.scannedBytes = st.scannedBytes ∧
      st'.pairCounts = st.pairCounts ∧
      st'.tokenCounts.length = st.tokenCounts.length ∧
      st'.seqCounts.length = st.seqCounts.length ∧
      (∀ i < ts.tokens.length, st'.tokenCounts.getD i 0 =
        st.tokenCounts.getD i 0 + wsum cnt (fun p => (p.output ts).count i) pieces) ∧
      (∀ j < ts.sequences.length, st'.seqCounts.getD j 0 =
        st.seqCounts.getD j 0 + wsum cnt (fun p => if p = .seq j then 1 else 0) pieces) := by
  induction sps generalizing pieces st with
  | nil =>
    have : pieces = [] := by cases pieces <;> simp at hpieces ⊢
    subst this
    exact ⟨st, rfl, rfl, rfl, rfl, rfl, rfl, rfl, rfl, by simp [wsum], by simp [wsum]⟩
  | cons sp sps ih =>
    cases pieces with
    | nil => simp at hpieces
    | cons p pieces =>
      simp only [List.map_cons, List.cons.injEq] at hpieces
      obtain ⟨hp, hrest⟩ := hpieces
      simp only [List.map_cons]
      rw [foldSpanCounts]
      obtain ⟨s, hs⟩ := Option.isSome_iff_exists.1 (hvalid p (by simp))
      cases p with
      | tok t =>
        have hct := pieceOf_tok.1 hp
        have htlt := tok_lt hs
        simp only [hct]
        rw [addAt_of (by omega)]
        simp only [R.ok_bind]
        obtain ⟨st', h1, h2, h3, h4, h5, h6, h7, h8, h9, h10⟩ := ih pieces hrest
          (fun q hq => hvalid q (by simp [hq]))
          { st with tokenCounts := st.tokenCounts.set t (st.tokenCounts.getD t 0 + cnt (.tok t)) }
          hst (by simpa using htc) hsc
        refine ⟨st', h1, h2, h3, h4, h5, h6, by simpa using h7, h8, ?_, ?_⟩
        · intro i hi
          rw [h9 i hi]
          simp only [wsum, getD_set, Piece.output]
          by_cases hti : t = i
          · subst hti; simp [htc, hi]; omega
          · simp [hti]
        · intro j hj
          rw [h10 j hj]
          simp [wsum]
      | seq j =>
        have hct := pieceOf_seq.1 hp
        have hjlt := seq_lt hs
        simp only [hct]
        rw [addAt_of (by omega)]
        simp only [R.ok_bind]
        have hq := List.getElem?_eq_getElem hjlt
        generalize hqq : ts.sequences[j] = q at hq
        have hget : getR st.tokenSet.sequences j = .ok q := getR_of (by rw [hst]; exact hq)
        rw [hget]
        simp only [R.ok_bind]
        obtain ⟨tc, ha1, ha2, ha3⟩ := addCounts_ok st.tokenCounts q.tokens (cnt (.seq j)) (by
          intro t ht
          rw [htc]
          exact hseq q (List.mem_iff_getElem?.2 ⟨j, hq⟩) t ht)
        rw [ha1]
        simp only [R.ok_bind]
        obtain ⟨st', h1, h2, h3, h4, h5, h6, h7, h8, h9, h10⟩ := ih pieces hrest
          (fun q hq => hvalid q (by simp [hq]))
          { st with seqCounts := st.seqCounts.set j (st.seqCounts.getD j 0 + cnt (.seq j)),
                    tokenCounts := tc }
          hst (by simp [ha2, htc]) (by simpa using hsc)
        refine ⟨st', h1, h2, h3, h4, h5, h6, by simp [h7, ha2], by simpa using h8, ?_, ?_⟩
        · intro i hi
          rw [h9 i hi]
          simp only [wsum, Piece.output, hq]
          rw [ha3 i (by omega)]
          omega
        · intro i hi
          rw [h10 i hi]
          simp only [wsum, getD_set]
          by_cases hji : j = i
          · subst hji; simp [hsc, hi]; omega
          · simp [hji]

/-- Summing over all kinds of pieces, weighted with their counts, is summing over the pieces. -/
theorem wsum_count (g : Piece → Nat) (L ps : List Piece) (hL : L.Nodup) (hps : ∀ p ∈ ps, p ∈ L) :
    wsum (fun p => ps.count p) g L = (ps.map g).sum := by
  induction ps with
  | nil =>
    clear hps hL
    induction L with
    | nil => rfl
    | cons p L ih => simpa [wsum] using ih
  | cons q ps ih =>
    rw [List.map_cons, List.sum_cons, ← ih (fun p hp => hps p (by simp [hp]))]
    have hq : q ∈ L := hps q (by simp)
    clear ih hps
    induction L with
    | nil => simp at hq
    | cons p L ih =>
      obtain ⟨hpL, hL'⟩ := List.nodup_cons.1 hL
      simp only [wsum, List.count_cons]
      by_cases hpq : q = p
      · subst hpq
        have : wsum (fun p => ps.count p + if (q == p) = true then 1 else 0) g L =
            wsum (fun p => ps.count p) g L := by
          clear hq ih hL' hL
          induction L with
          | nil => rfl
          | cons x L ih2 =>
            simp only [List.mem_cons, not_or] at hpL
            simp only [wsum]
            rw [ih2 hpL.2]
            simp [hpL.1]
        rw [this]
        simp [Nat.add_mul]; omega
      · have hq' : q ∈ L := by simpa [hpq] using hq
        have hi := ih hL' hq'
        simp only [List.count_cons] at hi
        rw [hi]
        simp [hpq]; omega

end FragmentTokenizer
end Tokens
