import Verif.Proofs.Accounting

/-!
# Properties C05 - C09, C43: tokenizing many samples, in parallel, and merging

Read together with `Verif/Spec/Segmentation.lean` and `Verif/Spec/Merging.lean`.
-/

namespace Tokens.Props
open Tokens Spec FragmentTokenizer Batch

/-- **C05**.  After tokenizing any list of samples: the token counts add up to `total_tokens`,
`scanned_bytes` is the summed length of the samples, the bytes of the counted pieces add up to
`scanned_bytes` (tokens listed by sequences are counted in `token_counts` but are not pieces; they
are the correction on the right), and `total_tokens` is the sum of the per-sample optima. -/
theorem C05_accounting (ts : TokenSet) (hseq : SeqsInRange ts) (samples : List Bytes)
    (n : Option Nat) (st : TokenStats) (hrun : tokenizeFileSync ts samples n = .ok st) :
    st.tokenCounts.sum = st.totalTokens ∧
    st.scannedBytes = (samples.map (·.length)).sum ∧
    sumTo ts.tokens.length (fun i => textLen ts i * st.tokenCounts.getD i 0) +
      sumTo ts.sequences.length (fun j =>
        ((ts.sequences[j]?.map (·.string)).getD []).length * st.seqCounts.getD j 0) =
      st.scannedBytes +
        sumTo ts.sequences.length (fun j => st.seqCounts.getD j 0 *
          (((ts.sequences[j]?.map (·.tokens)).getD []).map (textLen ts)).sum) ∧
    ∃ seg : Bytes → List Piece, (∀ x ∈ samples, Optimal ts x (seg x)) ∧
      st.totalTokens = (samples.map (fun x => (output ts (seg x)).length)).sum := by
  cases hnew : FragmentTokenizer.new ts with
  | error e => unfold tokenizeFileSync at hrun; rw [hnew] at hrun; simp [bind, Except.bind] at hrun
  | ok tk =>
  obtain ⟨d, hw⟩ := exists_work hnew hseq
  obtain ⟨st', h1, h2, _, h3⟩ := sync_ok hnew hw samples n
  rw [hrun] at h1
  simp at h1
  subst h1
  have htok : ∀ i, st.tokenCounts.getD i 0 = workSum d samples (.tok i) := fun i => h3 (.tok i)
  have hseqc : ∀ i, st.seqCounts.getD i 0 = workSum d samples (.seq i) := fun i => h3 (.seq i)
  have htot : st.totalTokens = workSum d samples .total := h3 .total
  have hscan : st.scannedBytes = workSum d samples .scanned := h3 .scanned
  have hid := work_identities hseq hw
  refine ⟨?_, ?_, ?_, ?_⟩
  · rw [sum_eq_sumTo, h2.tokenCounts, htot, sumTo_congr (fun i _ => htok i)]
    have := sumTo_workSum ts.tokens.length (fun _ => 1) .tok d samples
    simp only [Nat.one_mul] at this
    rw [this]
    unfold workSum
    congr 1
    apply List.map_congr_left
    intro s _
    exact (hid s).1
  · rw [hscan]
    unfold workSum
    congr 1
    apply List.map_congr_left
    intro s _
    exact hw.scanned s
  · rw [sumTo_congr (fun i _ => by rw [htok i]), sumTo_congr (f := fun j => _ * st.seqCounts.getD j 0)
      (fun i _ => by rw [hseqc i]), sumTo_congr (f := fun j => st.seqCounts.getD j 0 * _)
      (fun i _ => by rw [hseqc i, Nat.mul_comm]), sumTo_workSum, sumTo_workSum, sumTo_workSum, hscan]
    unfold workSum
    clear hrun h2 h3 htok hseqc htot hscan
    induction samples with
    | nil => simp
    | cons s l ih =>
      have := (hid s).2
      rw [sumTo_congr (f := fun j => d s (.seq j) * _) (fun i _ => Nat.mul_comm _ _)] at this
      simp only [List.map_cons, List.sum_cons]
      omega
  · refine ⟨fun x => Classical.choose (hw.seg x), ?_, ?_⟩
    · intro x _
      exact (Classical.choose_spec (hw.seg x)).1.optimal
    · rw [htot]
      unfold workSum
      congr 1
      apply List.map_congr_left
      intro s _
      have := (Classical.choose_spec (hw.seg s)).2
      exact congrFun this Ix.total

-- the hypotheses are met by a set with long tokens and sequences, for any samples
example (samples : List Bytes) : ∃ st, tokenizeFileSync Example.grown samples none = .ok st := by
  obtain ⟨tk, h, _⟩ := new_ok_of Example.grown_ok.1
  obtain ⟨d, hw⟩ := exists_work h Example.grown_ok.2
  obtain ⟨st, h, _⟩ := sync_ok h hw samples none
  exact ⟨st, h⟩

/-- **C06**.  Adding a new token to an accepted set gives an accepted set that never needs more
tokens, for any list of samples.  (The sequence that the new token replaces, if any, must list at
least one token; all sets the program makes satisfy this.) -/
theorem C06_adding_never_hurts (ts : TokenSet) (hseq : SeqsInRange ts) (s : Bytes)
    (hs : s ≠ []) (hnew : Token.str s ∉ ts.tokens)
    (hne : ∀ q ∈ ts.sequences, q.string = s → q.tokens ≠ [])
    (samples : List Bytes) (n : Option Nat) (st : TokenStats)
    (hrun : tokenizeFileSync ts samples n = .ok st) :
    ∃ ts' i st', ts.addToken s = .ok (ts', i) ∧ tokenizeFileSync ts' samples n = .ok st' ∧
      st'.totalTokens ≤ st.totalTokens := by
  cases hn : FragmentTokenizer.new ts with
  | error e => unfold tokenizeFileSync at hrun; rw [hn] at hrun; simp [bind, Except.bind] at hrun
  | ok tk =>
  obtain ⟨_, ht⟩ := ok_of_new hn
  obtain ⟨d, hw⟩ := exists_work hn hseq
  have ha := TokenSet.addToken_eq ts s hs
  obtain ⟨tk', hn', _⟩ := new_ok_of (tokenizable_addToken ht hnew ha)
  obtain ⟨d', hw'⟩ := exists_work hn' (seqsInRange_addToken hseq ha)
  obtain ⟨st1, h1, _, _, h2⟩ := sync_ok hn hw samples n
  obtain ⟨st2, h3, _, _, h4⟩ := sync_ok hn' hw' samples n
  rw [hrun] at h1
  simp at h1
  subst h1
  refine ⟨_, _, st2, ha, h3, ?_⟩
  have e1 := h2 .total
  have e2 := h4 .total
  have := dominates_sum (dominates_addToken hne ha) hw hw' samples
  simp only [cnt] at e1 e2
  omega

-- "b" is not a token of this set, and its sequence lists two tokens
example : Token.str [98] ∉ Example.bits4.tokens := Example.bits4_noStr [98]

/-- **C07**.  Whatever the number of workers and the schedule: if the parallel run returns, its
statistics are exactly those of the sequential run, in every field. -/
theorem C07_parallel_equals_sequential (ts : TokenSet) (tk : FragmentTokenizer)
    (hnew : FragmentTokenizer.new ts = .ok tk) (hseq : SeqsInRange ts) (samples : List Bytes)
    (n : Option Nat) (nthreads : Nat) (hN : 0 < nthreads) (s : PState)
    (hrun : PSteps tk (pinit ts samples n nthreads) s) (hret : s.main = .returned) :
    tokenizeFileSync ts samples n = .ok s.stats := by
  obtain ⟨d, hw⟩ := exists_work hnew hseq
  obtain ⟨h1, h2, h3, _⟩ := inv_returned hN (inv_steps hw (inv_init samples n nthreads) hrun) hret
  obtain ⟨st, g1, g2, g3, g4⟩ := sync_ok hnew hw samples n
  rw [g1, stats_ext g2 h1 (g3.trans h2.symm) (fun ix => (g4 ix).trans (h3 ix).symm)]

/-- **C07** for `tokenize_file` as a whole, which chooses between the two paths. -/
theorem C07_tokenize_file (ts : TokenSet) (hseq : SeqsInRange ts) (sampler : SamplerData)
    (n : Option Nat) (nthreads : Nat) (hN : 0 < nthreads) (st : TokenStats)
    (h : TokenizeFile ts sampler n nthreads st) :
    tokenizeFileSync ts sampler.samples n = .ok st := by
  cases h with
  | sync _ h => exact h
  | par _ hn hs hr => exact C07_parallel_equals_sequential ts _ hn hseq _ n nthreads hN _ hs hr

/-- **C08** (no infinite run).  No schedule runs forever, even for unusable inputs. -/
theorem C08_every_run_is_finite (tk : FragmentTokenizer) (f : Nat → PState) :
    ¬ ∀ k, PStep tk (f k) (f (k + 1)) := no_infinite_run f

/-- **C08** (no deadlock).  For an accepted set, non-empty samples and at least one worker, in
every reachable state some thread can move unless main has returned. -/
theorem C08_no_deadlock (ts : TokenSet) (tk : FragmentTokenizer)
    (hnew : FragmentTokenizer.new ts = .ok tk) (hseq : SeqsInRange ts) (samples : List Bytes)
    (hne : ∀ x ∈ samples, x ≠ []) (n : Option Nat) (nthreads : Nat) (hN : 0 < nthreads) (s : PState)
    (hrun : PSteps tk (pinit ts samples n nthreads) s) (hret : s.main ≠ .returned) :
    ∃ s', PStep tk s s' := by
  obtain ⟨d, hw⟩ := exists_work hnew hseq
  have hi := inv_steps hw (inv_init samples n nthreads) hrun
  exact progress hw hN hi (clean_steps hw (inv_init samples n nthreads) (clean_init hne) hrun) hret

/-- **C08** (conclusion).  Every run can be continued only finitely often, and where it stops main
has returned the sequential statistics. -/
theorem C08_every_maximal_run_returns (ts : TokenSet) (tk : FragmentTokenizer)
    (hnew : FragmentTokenizer.new ts = .ok tk) (hseq : SeqsInRange ts) (samples : List Bytes)
    (hne : ∀ x ∈ samples, x ≠ []) (n : Option Nat) (nthreads : Nat) (hN : 0 < nthreads) (s : PState)
    (hrun : PSteps tk (pinit ts samples n nthreads) s) (hstuck : ¬ ∃ s', PStep tk s s') :
    s.main = .returned ∧ tokenizeFileSync ts samples n = .ok s.stats := by
  have hret : s.main = .returned := by
    apply Classical.byContradiction
    intro h
    exact hstuck (C08_no_deadlock ts tk hnew hseq samples hne n nthreads hN s hrun h)
  exact ⟨hret, C07_parallel_equals_sequential ts tk hnew hseq samples n nthreads hN s hrun hret⟩

-- such a run exists: three samples, two workers
example : ∃ tk s, FragmentTokenizer.new Example.grown = .ok tk ∧
    PSteps tk (pinit Example.grown [[97], [98, 99], [10]] none 2) s ∧ s.main = .returned := by
  obtain ⟨tk, h, _⟩ := new_ok_of Example.grown_ok.1
  obtain ⟨s, h1, h2⟩ := exists_stuck tk (pinit Example.grown [[97], [98, 99], [10]] none 2)
  exact ⟨tk, s, h, h1, (C08_every_maximal_run_returns _ tk h Example.grown_ok.2
    [[97], [98, 99], [10]] (by simp) none 2 (by omega) s h1 h2).1⟩

/-- **C09** (the part that holds).  A run in which a worker has failed never returns statistics,
in particular no wrong ones.  Missing: it should end with an error, but see the next theorem. -/
theorem C09_failed_worker_no_result_partial (ts : TokenSet) (tk : FragmentTokenizer)
    (hnew : FragmentTokenizer.new ts = .ok tk) (hseq : SeqsInRange ts) (samples : List Bytes)
    (n : Option Nat) (nthreads : Nat) (s s' : PState)
    (hrun : PSteps tk (pinit ts samples n nthreads) s) (hdead : WState.panicked ∈ s.workers)
    (hmore : PSteps tk s s') : s'.main ≠ .returned := by
  obtain ⟨d, hw⟩ := exists_work hnew hseq
  have hi := inv_steps hw (inv_steps hw (inv_init samples n nthreads) hrun) hmore
  rcases dead_blocks hi (panicked_stays' hmore hdead) with ⟨l, h⟩ | ⟨k, h⟩ <;> rw [h] <;> simp

/-- **C09** is violated by the code: once a worker has failed, main never returns and never
panics either, however the run continues; since no run is infinite, main hangs. -/
theorem C09_failed_worker_hangs (ts : TokenSet) (tk : FragmentTokenizer)
    (hnew : FragmentTokenizer.new ts = .ok tk) (hseq : SeqsInRange ts) (samples : List Bytes)
    (n : Option Nat) (nthreads : Nat) (s : PState)
    (hrun : PSteps tk (pinit ts samples n nthreads) s) (hdead : WState.panicked ∈ s.workers) :
    (∀ s', PSteps tk s s' → s'.main ≠ .returned ∧ s'.main ≠ .panicked) ∧
    ∃ s', PSteps tk s s' ∧ (¬ ∃ s'', PStep tk s' s'') ∧
      s'.main ≠ .returned ∧ s'.main ≠ .panicked := by
  obtain ⟨d, hw⟩ := exists_work hnew hseq
  have key : ∀ s', PSteps tk s s' → s'.main ≠ .returned ∧ s'.main ≠ .panicked := by
    intro s' hmore
    have hi := inv_steps hw (inv_steps hw (inv_init samples n nthreads) hrun) hmore
    rcases dead_blocks hi (panicked_stays' hmore hdead) with ⟨l, h⟩ | ⟨k, h⟩ <;> rw [h] <;> simp
  obtain ⟨s', h1, h2⟩ := exists_stuck tk s
  exact ⟨key, s', h1, h2, key s' h1⟩

-- such a run exists: an empty sample kills the worker that receives it
example : ∃ tk s, FragmentTokenizer.new Example.grown = .ok tk ∧
    PSteps tk (pinit Example.grown [[]] none 1) s ∧ WState.panicked ∈ s.workers := by
  obtain ⟨tk, h, _⟩ := new_ok_of Example.grown_ok.1
  exact ⟨tk, _, h, .step (.step (.step (.step (.refl _)
      (.send (x := []) (rest := []) (by simp [pinit]) (by simp [pinit, queueCap])))
      (.lock (i := 0) (st := TokenStats.new Example.grown none) (by simp [pinit]) (by simp [pinit])))
      (.recv (i := 0) (st := TokenStats.new Example.grown none) (x := []) (rest := [])
        (by simp [pinit]) (by simp [pinit])))
      (.processPanic (i := 0) (st := TokenStats.new Example.grown none) (x := [])
        (by simp [pinit]) (.inl rfl)), by simp [pinit]⟩

/-- **C43**.  Split the samples into parts in any way, tokenize the parts separately and merge the
statistics in any order and grouping: the result is that of tokenizing all samples, in any order. -/
theorem C43_merge_order_independent (ts : TokenSet) (tk : FragmentTokenizer)
    (hnew : FragmentTokenizer.new ts = .ok tk) (hseq : SeqsInRange ts) (plan : Plan)
    (samples : List Bytes) (hp : plan.samples.Perm samples) :
    ∃ st, plan.run ts = .ok st ∧ tokenizeFileSync ts samples none = .ok st := by
  obtain ⟨d, hw⟩ := exists_work hnew hseq
  obtain ⟨st, h1, h2, h3, h4⟩ := plan_run hnew hw plan
  obtain ⟨st', g1, g2, g3, g4⟩ := sync_ok hnew hw samples none
  refine ⟨st, h1, ?_⟩
  rw [g1, stats_ext g2 h2 (g3.trans h3.symm)
    (fun ix => by rw [g4 ix, h4 ix, workSum_perm hp])]

example : ∃ st, (Plan.merged (.part [[97, 98]]) (.merged (.part []) (.part [[99], [100]]))).run
      Example.grown = .ok st ∧
    tokenizeFileSync Example.grown [[100], [99], [97, 98]] none = .ok st := by
  obtain ⟨tk, h, _⟩ := new_ok_of Example.grown_ok.1
  exact C43_merge_order_independent _ tk h Example.grown_ok.2 _ _ (by decide)

end Tokens.Props
