import Verif.Proofs.Passes
import Verif.Props.Cuts

/-!
# Property C107: how often the data is read

Read together with `Verif/Spec/Passes.lean`.  `Uses`, `RunP`, `OptimizeTokensetP`, …
(`Verif/Model/Passes.lean`) are the cache and the optimizer with a counter of the calls of
`tokenize_file`, each of which is a pass over the data.
-/

namespace Tokens.Props
open Tokens Spec Optimize OptimizeBytes Batch TokenSet

set_option linter.unusedVariables false

/-- **C107**.  The cache reads the data exactly once for each new token set that `get_stats` is asked for
(new up to the order of tokens and sequences), and once for each `get_stats_with_pairs`. -/
theorem C107_passes (sampler : SamplerData) (n : Option Nat) (nthreads : Nat) (calls : List Call)
    (hc : ∀ c ∈ calls, Identified c.set) (c : Cache) (passes : Nat)
    (h : Uses sampler n nthreads calls c passes) : passes = passesFor calls :=
  uses_count h hc

/-- **C107**.  A set that was asked for before costs no pass: the call returns, leaves the cache as it is
and does not look at the data; it may even have gone. -/
theorem C107_no_pass (sampler : SamplerData) (n : Option Nat) (nthreads : Nat) (calls : List Call)
    (hc : ∀ c ∈ calls, Identified c.set) (c : Cache) (passes : Nat)
    (h : Uses sampler n nthreads calls c passes) (ts : TokenSet) (hts : Identified ts)
    (hr : SeqsInRange ts) (hb : AskedBefore calls ts) (gone : SamplerData) :
    ∃ st, GetStats gone n nthreads c ts c st ∧
      ∀ c' st', GetStats gone n nthreads c ts c' st' → c' = c ∧ st' = st := by
  obtain ⟨ts', hs⟩ := (sort_ok_iff ts).2 hr
  have hk : getKey ts' = .ok (jsonOf ts').render := by
    unfold getKey; rw [toJson_eq ts' (sort_inRange hs)]; rfl
  obtain ⟨st, hst⟩ := Option.isSome_iff_exists.1 ((asked_iff h hc hts hs hk).1 hb)
  refine ⟨st, .hit hs hk hst, ?_⟩
  intro c' st' h'
  cases h' with
  | hit hs' hk' hc' =>
    have := Except.ok.inj (hs.symm.trans hs'); subst this
    have := Except.ok.inj (hk.symm.trans hk'); subst this
    exact ⟨rfl, Option.some.inj (hc'.symm.trans hst)⟩
  | miss hs' hk' hc' ht =>
    have := Except.ok.inj (hs.symm.trans hs'); subst this
    have := Except.ok.inj (hk.symm.trans hk'); subst this
    rw [hst] at hc'
    exact absurd hc' (by simp)

/-- **C107**.  Counting the passes changes nothing: the executions of the optimizer with and without the
counters are the same. -/
theorem C107_same_runs (env : Env) (ntokens : Nat) (p : Processing) (ty : TokenType)
    (input : Option TokenSet) (r : R TokenStats) (w : World) :
    (∃ rounds passes, OptimizeTokensetP env ntokens p ty input r w rounds passes) ↔
      OptimizeTokenset env ntokens p ty input r w := optimizeP_iff

/-- **C107**.  One round for a set that was asked for before (as it always was: by the round before, or at
the start) reads the data at most twice for each token of two or more bytes, and three times. -/
theorem C107_round (env : Env) (bo : BytesOptimizer) (ts : TokenSet) (ntokens : Nat) (rc : Removals)
    (l : List TokenSet) (w : World) (hw : History env.sampler env.initialSize env.nthreads l w.cache)
    (hb : ∃ t ∈ l, t.sort = ts.sort) (r : R (Option TokenSet × Removals)) (w' : World) (passes : Nat)
    (h : RunP env (optimizationStep bo ts ntokens rc) w r w' passes) :
    passes ≤ 2 * ts.nLongTokens + 3 := by
  obtain ⟨i1, i2⟩ := history_known hw
  obtain ⟨t, ht, e⟩ := hb
  have := (stepP h i1 (known_congr e (i2 t ht))).2.2.2
  rwa [longStrings_nLong] at this

/-- **C107**.  A whole optimization reads the data at most `2 * ntokens + 3` times in each round and at
most twice besides, whatever the input, the data, and the outcome. -/
theorem C107_optimize (env : Env) (ntokens : Nat) (p : Processing) (ty : TokenType)
    (input : Option TokenSet) (r : R TokenStats) (w : World) (rounds passes : Nat)
    (h : OptimizeTokensetP env ntokens p ty input r w rounds passes) :
    passes ≤ rounds * (2 * ntokens + 3) + 2 := by
  cases h with
  | run h1 h2 =>
    obtain ⟨a1, a2⟩ := startP h1 keyOk_new
    have := implP_passes h2 a1
    split at a2 <;> omega
  | startFail h1 =>
    obtain ⟨a1, a2⟩ := startP h1 keyOk_new
    split at a2 <;> omega

theorem mem_le_sum' {l : List Nat} {c : Nat} (h : c ∈ l) : c ≤ l.sum := by
  induction l with
  | nil => simp at h
  | cons x l ih =>
    rcases List.mem_cons.1 h with rfl | h
    · simp
    · have := ih h; simp; omega

/-- The total is limited by the size of the data, whatever the set. -/
theorem tot_le {env : Env} {ts : TokenSet} (hf : Family ts) :
    tot env ts ≤ tokensPerByte ts.tokenType * (env.sampler.samples.map List.length).sum := by
  obtain ⟨st, ⟨ts', hs, h1⟩, h2⟩ := fresh_of env hf
  have hf' := sort_family hf hs
  have hm : PiecesUpTo ts' ((pieceStrings ts').map List.length).sum := fun s hs' =>
    mem_le_sum' (List.mem_map.2 ⟨s, hs', rfl⟩)
  have h3 := (C73_by_type ts' hf' _ hm _ _ _ h1).1
  rw [(C05_accounting ts' (Tokens.Family.usable hf').inRange _ _ _ h1).2.1,
    (sort_sameSet hs).1.header.tokenType] at h3
  rw [← h2]
  exact h3

/-- **C37**.  For every type, byteshuff included, the number of rounds is bounded in advance: each token
that is added allows the total to grow to at most 256 tokens for a byte (8, 4, 2, 1 for the other types),
and every other round lowers it. -/
theorem C37_bound_all (env : Env) (he : EnvOk env) (ty : TokenType) (p : Processing)
    (ntokens : Nat) (f : Nat → TokenSet × Removals × World) (k : Nat) (h : Workable ty p ntokens (f 0).1)
    (hw : Reached env (f 0).2.2) (hk : ∀ i < k, Round env (optimizerFor ty) ntokens (f i) (f (i + 1)))
    (st : TokenStats) (hst : Fresh env (f 0).1 st) :
    k ≤ (ntokens - (f 0).1.tokens.length) *
        (tokensPerByte ty * (env.sampler.samples.map List.length).sum + 1) + st.totalTokens := by
  obtain ⟨Fam, lo, hi, B, hl, hback, _⟩ := workable_behaves h
  rw [← fresh_tot hst]
  have hw' := reached_ok hw
  clear hst h hw st
  induction k generalizing f with
  | zero => exact Nat.zero_le _
  | succ k ih =>
    obtain ⟨a1, a2, a3⟩ := round_ok B he hl hw' (hk 0 (by omega))
    have hi' := ih (fun i => f (i + 1)) (fun i hi => hk (i + 1) (by omega)) a1 a2
    have hwk := hback _ a1
    have ht := tot_le (env := env) hwk.family
    rw [hwk.type] at ht
    simp only [Nat.zero_add] at hi' a3 ht
    generalize tokensPerByte ty * (env.sampler.samples.map List.length).sum = M at hi' ht ⊢
    generalize hd1 : ntokens - (f 1).1.tokens.length = d1 at hi' a3
    generalize hd0 : ntokens - (f 0).1.tokens.length = d0 at a3 ⊢
    cases a3 with
    | left _ _ h => 
      have : (d1 + 1) * (M + 1) ≤ d0 * (M + 1) := Nat.mul_le_mul_right _ h
      rw [Nat.add_mul] at this
      omega
    | right _ h => omega

/-- **C107**.  So the whole work of an optimization from a valid set is bounded in advance: by the number
of tokens to be added, the number of output tokens at the start, and the size of the data. -/
theorem C107_bound (env : Env) (he : EnvOk env) (ty : TokenType) (p : Processing)
    (ntokens : Nat) (ts : TokenSet) (h : Workable ty p ntokens ts) (w : World) (hw : Reached env w)
    (start : TokenStats) (hst : Fresh env ts start) (r : R TokenStats) (w' : World)
    (rounds passes bound : Nat)
    (hb : bound = (ntokens - ts.tokens.length) *
        (tokensPerByte ty * (env.sampler.samples.map List.length).sum + 1) + start.totalTokens ∨
      ty ≠ .bytesHuff ∧ bound = (ntokens - ts.tokens.length) + start.totalTokens)
    (hi : ImplP env (optimizerFor ty) ntokens ts w r w' rounds passes) :
    rounds ≤ bound + 1 ∧ passes ≤ (bound + 1) * (2 * ntokens + 3) + 1 := by
  have key : rounds ≤ bound + 1 := by
    have go : ∀ {st w1 r' w2 n}, RunP env (getStats ts) w (.ok st) w1 n →
        ∀ {m}, LoopP env (optimizerFor ty) ntokens ts (fun _ => 0) w1 r' w2 rounds m →
        rounds ≤ bound + 1 := by
      intro st w1 r' w2 n h1 m h2
      have hr1 : Reached env w1 := reached_run (S := fun _ => True) (Q := fun _ => True) he (runP_run h1)
        ⟨h.family, fun _ _ => trivial⟩ hw
      obtain ⟨f, f0, f1⟩ := loopP_rounds h2
      rcases hb with hb | ⟨hty, hb⟩
      · have := C37_bound_all env he ty p ntokens f (rounds - 1) (by rw [f0]; exact h)
          (by rw [f0]; exact hr1) f1 start (by rw [f0]; exact hst)
        rw [f0] at this
        dsimp only at this
        rw [← hb] at this
        omega
      · have := C37_bound env he ty hty p ntokens f (rounds - 1) (by rw [f0]; exact h)
          (by rw [f0]; exact hr1) f1 start (by rw [f0]; exact hst)
        rw [f0] at this
        dsimp only at this
        rw [← hb] at this
        omega
    cases hi with
    | done h1 h2 h3 => exact go h1 h2
    | firstFail h1 => omega
    | loopFail h1 h2 => exact go h1 h2
  refine ⟨key, Nat.le_trans (implP_passes hi (history_known hw.choose_spec.1).1) ?_⟩
  have := Nat.mul_le_mul_right (2 * ntokens + 3) key
  omega

/-! ### The hypotheses are met -/

/-- Three calls, two passes: the same set twice and then with pairs. -/
example : ∃ c, Uses ⟨[[97, 98], [99]], 3⟩ none 4
    [.pairs Example.grown, .stats Example.grown, .stats Example.grown] c 2 ∧
    AskedBefore [.stats Example.grown] Example.grown ∧ Identified Example.grown := by
  obtain ⟨ts', hs⟩ := (sort_ok_iff Example.grown).2 Example.grown_ok.2
  obtain ⟨tk, hn⟩ := Example.grown_sorted_accepted hs
  obtain ⟨d, hwk⟩ := exists_work hn (sort_inRange hs)
  obtain ⟨st, h1, _⟩ := sync_ok hn hwk [[97, 98], [99]] none
  have ht : TokenizeFile ts' ⟨[[97, 98], [99]], 3⟩ none 4 st := .sync (by decide) h1
  have hk : getKey ts' = .ok (jsonOf ts').render := by
    unfold getKey; rw [toJson_eq ts' (sort_inRange hs)]; rfl
  exact ⟨_, .pairs (.hit (.miss .new hs hk rfl ht) hs hk (st := { st with pairCounts := [] })
    (by simp [Cache.insert])) hs ht hk, ⟨_, List.mem_singleton.2 rfl, rfl⟩, Example.grown_identified⟩

/-- A whole optimization from scratch. -/
example : ∃ st w rounds passes, OptimizeTokensetP smallEnv 300 .raw .bytesHuff none (.ok st) w rounds passes := by
  obtain ⟨st, w, h⟩ := optimize_ends smallEnv smallEnv_ok .bytesHuff .raw 300 (by decide : 3 ≤ 300)
  obtain ⟨k, n, h⟩ := optimizeP_iff.2 h
  exact ⟨st, w, k, n, h⟩

/-- One from a valid set, as in `C107_bound`, and one round of it. -/
example : ∃ ts start st w' rounds passes, Workable .bits4 .raw 20 ts ∧ Fresh smallEnv ts start ∧
    ImplP smallEnv (optimizerFor .bits4) 20 ts ⟨fun _ => none, []⟩ (.ok st) w' rounds passes := by
  obtain ⟨ts, _, h⟩ := workable_bits4
  obtain ⟨st, w', hr⟩ := C37_terminates smallEnv smallEnv_ok _ _ _ ts h _ (reached_new smallEnv [])
  obtain ⟨k, n, hr⟩ := implP_iff.2 hr
  have hu := Tokens.Family.usable h.family
  obtain ⟨ts', hs⟩ := (sort_ok_iff ts).2 hu.inRange
  have hu' := tokenizable_perm (pieceStrings_sameSet (sort_sameSet hs).1).symm hu.accepted
  obtain ⟨start, h1⟩ := sync_exists hu' (sort_inRange hs) smallEnv.sampler.samples smallEnv.initialSize
  exact ⟨ts, start, st, w', k, n, h, ⟨ts', hs, h1⟩, hr⟩

end Tokens.Props
