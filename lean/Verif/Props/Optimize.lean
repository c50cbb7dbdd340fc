import Verif.Proofs.HuffWitness
import Verif.Proofs.Regular
import Verif.Props.Family

/-!
# Properties C36 - C39, C41: the optimizer as a whole

Read together with `Verif/Spec/Optimizing.lean` and `Verif/Spec/Family.lean`.  `Run`, `Loop`, `Impl` and
`OptimizeTokenset` (`Verif/Model/Optimize.lean`) relate a program and a world to every outcome it may
have: whatever the cache holds, however unstable sorts order ties, whatever the clock says, and however
the threads of `tokenize_file` are scheduled.  A panic, and a call into the tokenizer that does not
return, is the outcome `.error`.
-/

namespace Tokens.Props
open Tokens Spec TokenSet Batch OptimizeBytes Optimize

/-! ## C36 every step improves or grows the set -/

/-- **C36**.  A step of the optimizer on a valid set does not panic.  It ends with none, or with a valid
sorted set of at most `ntokens` tokens that has one token more than before, or needs strictly fewer
output tokens for the data (and has no fewer tokens). -/
theorem C36_step (env : Env) (he : EnvOk env) (ty : TokenType) (p : Processing) (ntokens : Nat)
    (ts : TokenSet) (h : Workable ty p ntokens ts) (rc : Removals) (w w' : World)
    (hw : Reached env w) (r : R (Option TokenSet × Removals))
    (hr : Run env (optimizationStep (optimizerFor ty) ts ntokens rc) w r w') :
    ∃ o rc', r = .ok (o, rc') ∧ Reached env w' ∧ w'.saved = w.saved ∧
      ∀ ts', o = some ts' → Workable ty p ntokens ts' ∧ Sorted ts' ∧
        ∃ st st', Fresh env ts st ∧ Fresh env ts' st' ∧
          (ts'.tokens.length = ts.tokens.length + 1 ∨
            (st'.totalTokens < st.totalTokens ∧ ts.tokens.length ≤ ts'.tokens.length)) := by
  obtain ⟨Fam, lo, hi, B, hl, hback, _, _⟩ := workable_behaves h
  obtain ⟨_, h2, o, rc', h3, h4⟩ := step_run B he hl (reached_ok hw) hr
  refine ⟨o, rc', h3, reached_run he hr (wp_step (S := fun _ => False) B hl.fam hl.size rc) hw, ?_, ?_⟩
  · obtain ⟨l, e, hf⟩ := h2
    have : l = [] := by
      rw [List.eq_nil_iff_forall_not_mem]
      intro f hx
      obtain ⟨_, h, _⟩ := hf f hx
      exact h
    rw [e, this, List.append_nil]
  intro ts' e
  obtain ⟨hb, hs⟩ := h4 ts' e
  obtain ⟨st, k1, k2⟩ := fresh_of env h.family
  have hw' := hback ts' ⟨hb.fam, hb.size⟩
  obtain ⟨st', k3, k4⟩ := fresh_of env hw'.family
  refine ⟨hw', sorted_of_sort hs, st, st', k1, k3, ?_⟩
  rw [k2, k4]
  exact hb.progress.symm

/-- **C36**.  And a step does end: there is an outcome. -/
theorem C36_step_ends (env : Env) (he : EnvOk env) (ty : TokenType) (p : Processing) (ntokens : Nat)
    (ts : TokenSet) (h : Workable ty p ntokens ts) (rc : Removals) (w : World) (hw : Reached env w) :
    ∃ r w', Run env (optimizationStep (optimizerFor ty) ts ntokens rc) w r w' := by
  obtain ⟨Fam, lo, hi, B, hl, _⟩ := workable_behaves h
  exact wp_total he _ (wp_step (S := fun _ => False) B hl.fam hl.size rc) (reached_ok hw)

/-- Some surroundings: two samples, four threads. -/
def smallEnv : Env := ⟨⟨[[97, 98, 97, 98], [10, 200]], 6⟩, none, 4⟩

theorem smallEnv_ok : EnvOk smallEnv := ⟨by decide, .inl (by decide)⟩

/-- A set made by the program: the sixteen ext tokens of the four-bit encoding. -/
theorem workable_bits4 : ∃ ts, newBits4 .raw true = .ok ts ∧ Workable .bits4 .raw 20 ts := by
  have hf : Family _ := C16_made_family _ (.bits4 (newBits4_eq .raw true))
  exact ⟨_, newBits4_eq .raw true, hf, rfl, rfl, by decide, by
    intro q hq; cases hq; decide, fun h => by cases h⟩

-- the hypotheses of C36 hold for it, in these surroundings, with a new cache
example : ∃ ts r w', Workable .bits4 .raw 20 ts ∧ Reached smallEnv ⟨fun _ => none, []⟩ ∧
    Run smallEnv (optimizationStep (optimizerFor .bits4) ts 20 (fun _ => 0)) ⟨fun _ => none, []⟩ r w' := by
  obtain ⟨ts, _, h⟩ := workable_bits4
  have hw := reached_new smallEnv []
  obtain ⟨r, w', hr⟩ := C36_step_ends smallEnv smallEnv_ok _ _ _ ts h (fun _ => 0) _ hw
  exact ⟨ts, r, w', h, hw, hr⟩

/-! ## C37 optimization terminates -/

/-- **C37**.  From a valid set the loop does not go on for ever: there is no infinite sequence of
rounds. -/
theorem C37_no_infinite_loop (env : Env) (he : EnvOk env) (ty : TokenType) (p : Processing) (ntokens : Nat)
    (f : Nat → TokenSet × Removals × World) (h : Workable ty p ntokens (f 0).1)
    (hw : Reached env (f 0).2.2) : ¬ ∀ i, Round env (optimizerFor ty) ntokens (f i) (f (i + 1)) := by
  obtain ⟨Fam, lo, hi, B, hl, _⟩ := workable_behaves h
  exact no_infinite_rounds B he f hl (reached_ok hw)

/-- **C37**.  For the types other than byteshuff, the number of rounds is at most the number of tokens
to be added plus the number of output tokens at the start. -/
theorem C37_bound (env : Env) (he : EnvOk env) (ty : TokenType) (hty : ty ≠ .bytesHuff) (p : Processing)
    (ntokens : Nat) (f : Nat → TokenSet × Removals × World) (k : Nat) (h : Workable ty p ntokens (f 0).1)
    (hw : Reached env (f 0).2.2) (hk : ∀ i < k, Round env (optimizerFor ty) ntokens (f i) (f (i + 1)))
    (st : TokenStats) (hst : Fresh env (f 0).1 st) :
    k ≤ (ntokens - (f 0).1.tokens.length) + st.totalTokens := by
  obtain ⟨Fam, lo, hi, B, hl, _, hm, _⟩ := workable_behaves h
  rw [← fresh_tot hst]
  exact rounds_bound B he k f hl (.inl (hm hty)) (reached_ok hw) hk

/-- **C37**.  The loop, and the function around it, has an outcome (which by C38 is a success). -/
theorem C37_terminates (env : Env) (he : EnvOk env) (ty : TokenType) (p : Processing) (ntokens : Nat)
    (ts : TokenSet) (h : Workable ty p ntokens ts) (w : World) (hw : Reached env w) :
    ∃ st w', Impl env (optimizerFor ty) ntokens ts w (.ok st) w' := by
  obtain ⟨Fam, lo, hi, B, hl, _⟩ := workable_behaves h
  obtain ⟨r, w', hi⟩ := impl_total B he hl (reached_ok hw)
  obtain ⟨full, e, _⟩ := impl_ok B he hl (reached_ok hw) hi
  subst e
  exact ⟨_, _, hi⟩

-- C37's hypotheses are those of C36; a run for the set above
example : ∃ ts st w', Workable .bits4 .raw 20 ts ∧
    Impl smallEnv (optimizerFor .bits4) 20 ts ⟨fun _ => none, []⟩ (.ok st) w' := by
  obtain ⟨ts, _, h⟩ := workable_bits4
  obtain ⟨st, w', hr⟩ := C37_terminates smallEnv smallEnv_ok _ _ _ ts h _ (reached_new smallEnv [])
  exact ⟨ts, st, w', h, hr⟩

/-! ## C38 the result -/

/-- What a user gets from the optimizer: the tokenizer accepts the set; it is sorted, losslessly
decodable, of the requested type and processing, with at most `ntokens` tokens; the statistics are the
ones that the sequential tokenizer computes with it for the data (except that the counts of pairs are
left out); and the files written on the way hold valid sets. -/
structure Result (env : Env) (ty : TokenType) (p : Processing) (ntokens : Nat) (st : TokenStats)
    (w : World) : Prop where
  accepted : ∃ tk, FragmentTokenizer.new st.tokenSet = .ok tk
  sorted : Sorted st.tokenSet
  lossless : Lossless st.tokenSet
  type : st.tokenSet.tokenType = ty
  processing : st.tokenSet.processing = p
  budget : st.tokenSet.tokens.length ≤ ntokens
  stats : ∃ full, tokenizeFileSync st.tokenSet env.sampler.samples env.initialSize = .ok full ∧
    st = full.cloneWithoutPairs
  saved : ∀ f ∈ w.saved, ∃ ts tk, FragmentTokenizer.new ts = .ok tk ∧ Sorted ts ∧ Lossless ts ∧
    ts.tokenType = ty ∧ ts.processing = p ∧ ts.tokens.length ≤ ntokens ∧ Regular ts ∧
    savedFile ts = .ok f

theorem workable_accepted {ty : TokenType} {p : Processing} {ntokens : Nat} {ts : TokenSet}
    (h : Workable ty p ntokens ts) : ∃ tk, FragmentTokenizer.new ts = .ok tk := by
  obtain ⟨tk, h, _⟩ := FragmentTokenizer.new_ok_of (Tokens.Family.usable h.family).accepted
  exact ⟨tk, h⟩

theorem result_of (env : Env) (he : EnvOk env) (ty : TokenType) (p : Processing) (ntokens : Nat)
    (ts : TokenSet) (h : Workable ty p ntokens ts) (w w' : World) (hw : Reached env w)
    (hs : w.saved = []) (r : R TokenStats) (hr : Impl env (optimizerFor ty) ntokens ts w r w') :
    ∃ st, r = .ok st ∧ Result env ty p ntokens st w' ∧ Workable ty p ntokens st.tokenSet ∧
      ts.tokens.length ≤ st.tokenSet.tokens.length ∧
      ((ty = .bytesHuff → shortCount ts = 258 ∨ ts.tokens.length = ntokens) →
        ∀ st0, Fresh env ts st0 → st.totalTokens ≤ st0.totalTokens) := by
  obtain ⟨Fam, lo, hi, B, hl, hback, hm, hh⟩ := workable_behaves h
  obtain ⟨full, e, k1, k2, k3, k4, k5, k6, k7, _⟩ := impl_ok B he hl (reached_ok hw) hr
  have hwk := hback _ k3
  refine ⟨_, e, ⟨workable_accepted hwk, sorted_of_sort k2, C16_lossless _ hwk.family, hwk.type,
    hwk.processing, hwk.size, ⟨full, ?_, rfl⟩, ?_⟩, hwk, k4, ?_⟩
  · obtain ⟨ts', g1, g2⟩ := k1
    have := Except.ok.inj (k2.symm.trans g1)
    subst this
    exact g2
  · obtain ⟨l, e1, hf⟩ := k7
    intro f hfm
    rw [e1, hs, List.nil_append] at hfm
    obtain ⟨x, ⟨hx1, hx2⟩, hx3⟩ := hf f hfm
    have hx := hback x hx1
    obtain ⟨tk, htk⟩ := workable_accepted hx
    exact ⟨x, tk, htk, sorted_of_sort hx2, C16_lossless _ hx.family, hx.type, hx.processing, hx.size,
      regular_of_sorted hx.family (sorted_of_sort hx2), hx3⟩
  · intro hsafe st0 hst0
    rw [← fresh_tot hst0]
    refine k5 ?_
    by_cases hty : ty = .bytesHuff
    · rcases hsafe hty with h' | h'
      · exact .inr (.inl (by rw [h', hh hty]))
      · exact .inr (.inr h')
    · exact .inl (hm hty)

theorem start_run {env : Env} (he : EnvOk env) {ty : TokenType} {p : Processing} {ntokens : Nat}
    (hn : Admissible ty ntokens) {r : R TokenSet} {w : World}
    (h : Run env (startSet ntokens p ty none) ⟨fun _ => none, []⟩ r w) :
    ∃ ts, r = .ok ts ∧ GoodStart ty p ntokens ts ∧ Reached env w ∧ w.saved = [] := by
  have hwp := start_wp (env := env) (S := fun _ => False) ty p ntokens hn
  have hw0 := reached_new env []
  obtain ⟨⟨ts, e, hg⟩, _, l, hs, hl⟩ := wp_sound he h hwp (reached_ok hw0)
  refine ⟨ts, e, hg, reached_run he h hwp hw0, ?_⟩
  have : l = [] := by
    rw [List.eq_nil_iff_forall_not_mem]
    intro f hx
    obtain ⟨_, h, _⟩ := hl f hx
    exact h
  rw [hs, this]; rfl

/-- **C38**, without a pretrained set: for every type and admissible size, every outcome of
`optimize_tokenset` is a result as described, and needs no more output tokens for the data than the set
it started from. -/
theorem C38_from_scratch (env : Env) (he : EnvOk env) (ty : TokenType) (p : Processing) (ntokens : Nat)
    (hn : Admissible ty ntokens) (r : R TokenStats) (w : World)
    (h : OptimizeTokenset env ntokens p ty none r w) :
    ∃ st, r = .ok st ∧ Result env ty p ntokens st w ∧
      ∃ start st0, StartsWith env ntokens p ty none start ∧ Fresh env start st0 ∧
        st.totalTokens ≤ st0.totalTokens ∧ start.tokens.length ≤ st.tokenSet.tokens.length := by
  cases h with
  | run h1 h2 =>
    obtain ⟨ts, e, hg, hw, hs⟩ := start_run he hn h1
    cases e
    obtain ⟨st, k1, k2, _, k3, k4⟩ := result_of env he ty p ntokens _ hg.work _ _ hw hs _ h2
    obtain ⟨st0, hst0⟩ := fresh_exists env hg.work.family
    exact ⟨st, k1, k2, _, st0, ⟨_, h1⟩, hst0, k4 hg.full st0 hst0, k3⟩
  | startFail h1 =>
    obtain ⟨ts, e, _⟩ := start_run he hn h1
    cases e

/-- **C38**, with a pretrained set, for the types other than byteshuff. -/
theorem C38_pretrained (env : Env) (he : EnvOk env) (ty : TokenType) (hty : ty ≠ .bytesHuff)
    (p : Processing) (ntokens : Nat) (ts : TokenSet) (hwk : Workable ty p ntokens ts)
    (r : R TokenStats) (w : World) (h : OptimizeTokenset env ntokens p ty (some ts) r w) :
    ∃ st, r = .ok st ∧ Result env ty p ntokens st w ∧ ts.tokens.length ≤ st.tokenSet.tokens.length ∧
      ∃ st0, Fresh env ts st0 ∧ st.totalTokens ≤ st0.totalTokens := by
  cases h with
  | run h1 h2 =>
    cases h1
    obtain ⟨st, k1, k2, _, k3, k4⟩ := result_of env he ty p ntokens _ hwk _ _ (reached_new env []) rfl _ h2
    obtain ⟨st0, hst0⟩ := fresh_exists env hwk.family
    exact ⟨st, k1, k2, k3, st0, hst0, k4 (fun h => absurd h hty) st0 hst0⟩
  | startFail h1 => cases h1

/-- **C38**, with a pretrained byteshuff set: all but the last claim holds, and that one if the set has
the full number of tokens, or of ext and byte tokens.  Missing: in general the result may need more
output tokens than the set given, see `C38_pretrained_violated`. -/
theorem C38_pretrained_huff_partial (env : Env) (he : EnvOk env) (p : Processing) (ntokens : Nat)
    (ts : TokenSet) (hwk : Workable .bytesHuff p ntokens ts)
    (r : R TokenStats) (w : World) (h : OptimizeTokenset env ntokens p .bytesHuff (some ts) r w) :
    ∃ st, r = .ok st ∧ Result env .bytesHuff p ntokens st w ∧
      ts.tokens.length ≤ st.tokenSet.tokens.length ∧
      (shortCount ts = 258 ∨ ts.tokens.length = ntokens →
        ∃ st0, Fresh env ts st0 ∧ st.totalTokens ≤ st0.totalTokens) := by
  cases h with
  | run h1 h2 =>
    cases h1
    obtain ⟨st, k1, k2, _, k3, k4⟩ := result_of env he .bytesHuff p ntokens _ hwk _ _ (reached_new env []) rfl _ h2
    obtain ⟨st0, hst0⟩ := fresh_exists env hwk.family
    exact ⟨st, k1, k2, k3, fun h => ⟨st0, hst0, k4 (fun _ => h) st0 hst0⟩⟩
  | startFail h1 => cases h1

/-- The result needs no more output tokens than the pretrained set it started from. -/
def NoWorse (env : Env) (ty : TokenType) (p : Processing) (ntokens : Nat) (ts : TokenSet) : Prop :=
  ∀ st w st0, OptimizeTokenset env ntokens p ty (some ts) (.ok st) w → Fresh env ts st0 →
    st.totalTokens ≤ st0.totalTokens

/-- **C38** does not hold for all pretrained byteshuff sets: for the set of all 256 single-byte tokens,
size 257 and data of 256 one-byte samples, the result needs at least 257 output tokens, the set given
only 256. -/
theorem C38_pretrained_violated :
    ¬ ∀ env p ntokens ts, EnvOk env → Workable .bytesHuff p ntokens ts →
      NoWorse env .bytesHuff p ntokens ts := by
  intro h
  have he : EnvOk singleEnv := ⟨by decide, .inl (by decide)⟩
  obtain ⟨st, w', hi⟩ := C37_terminates singleEnv he .bytesHuff .raw 257 allBytesHuff allBytesHuff_workable _
    (reached_new singleEnv [])
  obtain ⟨st', e, h1⟩ := witness_impl he (reached_new singleEnv []) hi
  cases e
  obtain ⟨st0, h2, h3⟩ := fresh_of singleEnv allBytesHuff_workable.family
  have := h singleEnv .raw 257 allBytesHuff he allBytesHuff_workable st w' st0 (.run .pure hi) h2
  rw [h3, allBytesHuff_total] at this
  omega

-- a run of each kind: every admissible size of every type has one
theorem optimize_ends (env : Env) (he : EnvOk env) (ty : TokenType) (p : Processing) (ntokens : Nat)
    (hn : Admissible ty ntokens) : ∃ st w, OptimizeTokenset env ntokens p ty none (.ok st) w := by
  obtain ⟨r, w, hr⟩ := wp_total he _ (start_wp (env := env) (S := fun _ => False) ty p ntokens hn)
    (reached_ok (reached_new env []))
  obtain ⟨ts, e, hg, hw, hs⟩ := start_run he hn hr
  subst e
  obtain ⟨st, w', h2⟩ := C37_terminates env he ty p ntokens ts hg.work w hw
  exact ⟨st, w', .run hr h2⟩

example : ∃ st w, OptimizeTokenset smallEnv 300 .raw .bytesHuff none (.ok st) w :=
  optimize_ends smallEnv smallEnv_ok _ _ _ (by decide : 3 ≤ 300)

/-! ## C39 optimizing to any size -/

/-- **C39** (the part that holds).  For a bits type, the optimizer works from scratch for every size
from the number of ext tokens to 256 more: it has an outcome, and every outcome is a success.  Missing:
larger sizes, see the next theorem. -/
theorem C39_sizes_partial (env : Env) (he : EnvOk env) (ty : TokenType) (p : Processing) (nExt len : Nat)
    (hty : bitsParams ty = some (nExt, len)) (ntokens : Nat) (h1 : nExt ≤ ntokens)
    (h2 : ntokens ≤ nExt + 256) :
    (∃ r w, OptimizeTokenset env ntokens p ty none r w) ∧
    ∀ r w, OptimizeTokenset env ntokens p ty none r w → ∃ st, r = .ok st := by
  have hn : Admissible ty ntokens := by
    cases ty <;> simp [bitsParams] at hty <;> obtain ⟨rfl, rfl⟩ := hty <;> exact ⟨h1, h2⟩
  obtain ⟨st, w, h⟩ := optimize_ends env he ty p ntokens hn
  refine ⟨⟨_, _, h⟩, ?_⟩
  intro r w h
  obtain ⟨st, e, _⟩ := C38_from_scratch env he ty p ntokens hn r w h
  exact ⟨st, e⟩

theorem impl_bad {env : Env} (he : EnvOk env) {bo : BytesOptimizer} {n : Nat} {ts : TokenSet}
    (hf : Family ts)
    (hbad : ∀ rc, (optimizationStep bo ts n rc).wp env (fun _ => False) (fun r => ∃ e, r = .error e))
    {w w' : World} (hw : Reached env w) {r : R TokenStats} (h : Impl env bo n ts w r w') :
    ∃ e, r = .error e := by
  have hstep : ∀ st w1, Run env (getStats ts) w (.ok st) w1 → ∀ r2 w2,
      Loop env bo n ts (fun _ => 0) w1 r2 w2 → ∃ e, r2 = .error e := by
    intro st w1 h1 r2 w2 h2
    have hwp : (getStats ts).wp env (fun _ => False) (fun _ => True) := ⟨hf, fun st _ => trivial⟩
    have hw1 := reached_ok (reached_run he h1 hwp hw)
    cases h2 with
    | stop hs => obtain ⟨⟨e, h⟩, _⟩ := wp_sound he hs (hbad _) hw1; cases h
    | fail hs => exact ⟨_, rfl⟩
    | again hs _ _ => obtain ⟨⟨e, h⟩, _⟩ := wp_sound he hs (hbad _) hw1; cases h
    | saveFail hs _ => exact ⟨_, rfl⟩
  cases h with
  | done h1 h2 _ =>
    obtain ⟨e, h⟩ := hstep _ _ h1 _ _ h2
    cases h
  | firstFail h1 => exact ⟨_, rfl⟩
  | loopFail h1 h2 => exact ⟨_, rfl⟩

theorem bad_total {env : Env} (he : EnvOk env) {bo : BytesOptimizer} {n : Nat} {ts : TokenSet}
    (hf : Family ts)
    (hbad : ∀ rc, (optimizationStep bo ts n rc).wp env (fun _ => False) (fun r => ∃ e, r = .error e))
    {w : World} (hw : Reached env w) : ∃ r w', Impl env bo n ts w r w' := by
  have hwp : (getStats ts).wp env (fun _ => False) (fun r => ∃ st, r = .ok st) := ⟨hf, fun st _ => ⟨_, rfl⟩⟩
  obtain ⟨r1, w1, h1⟩ := wp_total he _ hwp (reached_ok hw)
  obtain ⟨⟨st, rfl⟩, hw1, _⟩ := wp_sound he h1 hwp (reached_ok hw)
  obtain ⟨r2, w2, h2⟩ := wp_total he _ (hbad (fun _ => 0)) hw1
  obtain ⟨⟨e, rfl⟩, _⟩ := wp_sound he h2 (hbad (fun _ => 0)) hw1
  exact ⟨_, _, .loopFail h1 (.fail h2)⟩

/-- **C39** does not hold as claimed.  Every other size makes the optimizer panic, whatever the data:
for a bits type also every size that exceeds the number of ext tokens by more than 256 (the README
speaks of tens of thousands). -/
theorem C39_violated (env : Env) (he : EnvOk env) (ty : TokenType) (p : Processing) (ntokens : Nat)
    (hn : ¬ Admissible ty ntokens) :
    (∃ r w, OptimizeTokenset env ntokens p ty none r w) ∧
    ∀ r w, OptimizeTokenset env ntokens p ty none r w → ∃ e, r = .error e := by
  have hwp := start_bad (env := env) (S := fun _ => False) ty p ntokens hn
  have hw0 := reached_new env []
  constructor
  · obtain ⟨r1, w1, h1⟩ := wp_total he _ hwp (reached_ok hw0)
    obtain ⟨h3, _, _⟩ := wp_sound he h1 hwp (reached_ok hw0)
    rcases h3 with ⟨e, rfl⟩ | ⟨ts, rfl, h4, h5⟩
    · exact ⟨_, _, .startFail h1⟩
    · obtain ⟨r2, w2, h2⟩ := bad_total he h4 h5 (reached_run he h1 hwp hw0)
      exact ⟨_, _, .run h1 h2⟩
  intro r w h
  cases h with
  | run h1 h2 =>
    obtain ⟨h3, _, _⟩ := wp_sound he h1 hwp (reached_ok hw0)
    rcases h3 with ⟨e, h3⟩ | ⟨ts, h3, h4, h5⟩
    · cases h3
    · cases h3
      exact impl_bad he h4 h5 (reached_run he h1 hwp hw0) h2
  | startFail h1 => exact ⟨_, rfl⟩

-- 1000 tokens with four bits
example : ¬ Admissible .bits4 1000 := by unfold Admissible; omega

/-! ## C41 predicted byte savings -/

/-- **C41**.  Whatever the byte optimizer: if `add_byte` predicts a saving of `d` for a set that the
tokenizer accepts and that keeps the tokens of two or more bytes, then the same samples need with that
set at most `total_tokens - d` output tokens.  (The set at hand has sequences for single bytes only; the
new one has no empty sequence.) -/
theorem C41_byte_saving (ts ts' : TokenSet) (samples : List Bytes) (n : Option Nat) (st : TokenStats)
    (bo : BytesOptimizer) (d : Int) (hr : SeqsInRange ts) (h : tokenizeFileSync ts samples n = .ok st)
    (hone : ∀ q ∈ ts.sequences, q.string.length = 1) (ha : addByte bo st = .ok (some (ts', d)))
    (ht' : Tokenizable ts') (hr' : SeqsInRange ts') (hne' : ∀ q ∈ ts'.sequences, q.tokens ≠ [])
    (hlong : ∀ s, 1 < s.length → Token.str s ∈ ts.tokens → Token.str s ∈ ts'.tokens) :
    ∃ st', tokenizeFileSync ts' samples n = .ok st' ∧ (st'.totalTokens : Int) ≤ st.totalTokens - d := by
  obtain ⟨_, _, _, ht, _, hsh, _, _⟩ := sync_inv hr h
  have e := hsh.tokenSet
  have hc := fit_of_sync hsh
  obtain ⟨st', g1, g2⟩ := byte_saving hr h ht' hr' hne' hone hlong
  refine ⟨st', g1, ?_⟩
  unfold addByte at ha
  rw [countTokensInBytes_eq (by rw [e]; exact ht) hc, R.ok_bind, e] at ha
  cases h1 : subR ts.ntokens ts.nLongTokens with
  | error x => rw [h1] at ha; cases ha
  | ok k =>
    rw [h1, R.ok_bind] at ha
    cases h2 : bo st (k + 1) with
    | error x => rw [h2] at ha; cases ha
    | ok t =>
      rw [h2, R.ok_bind] at ha
      by_cases h3 : t.ntokens = ts.ntokens
      · rw [if_pos h3] at ha; cases ha
      · rw [if_neg h3] at ha
        cases h4 : countTokensInBytes t st with
        | error x => rw [h4] at ha; cases ha
        | ok c =>
          rw [h4, R.ok_bind] at ha
          have ha' := Except.ok.inj ha
          simp only [Option.some.injEq, Prod.mk.injEq] at ha'
          obtain ⟨rfl, rfl⟩ := ha'
          have h5 := Except.ok.inj (h4.symm.trans (countTokensInBytes_eq ht' hc))
          omega

/-- **C41**, for the byte optimizers of the program and the sets they are used on: `add_byte` does not
panic; it proposes nothing, or a valid set with one more ext or byte token and the same longer tokens,
and the predicted saving is realised. -/
theorem C41_add_byte (env : Env) (ty : TokenType) (p : Processing) (ntokens : Nat) (st : TokenStats)
    (hwk : Workable ty p ntokens st.tokenSet) (hlt : st.tokenSet.tokens.length < ntokens)
    (samples : List Bytes) (n : Option Nat) (h : tokenizeFileSync st.tokenSet samples n = .ok st) :
    addByte (optimizerFor ty) st = .ok none ∨
    ∃ ts' d st', addByte (optimizerFor ty) st = .ok (some (ts', d)) ∧ Workable ty p ntokens ts' ∧
      longTokens ts' = longTokens st.tokenSet ∧ shortCount ts' = shortCount st.tokenSet + 1 ∧
      tokenizeFileSync ts' samples n = .ok st' ∧ (st'.totalTokens : Int) ≤ st.totalTokens - d := by
  obtain ⟨Fam, lo, hi, B, hl, hback, _⟩ := workable_behaves hwk
  rcases addByte_ok B hl.fam h hlt with ⟨_, h1⟩ | ⟨ts', d, st', h1, h2, h3, h4, _, _, h5, h6⟩
  · exact .inl h1
  · refine .inr ⟨ts', d, st', h1, hback ts' ⟨h2, ?_⟩, h3, h4, h5, by omega⟩
    have e1 := size_of B h2
    have e2 := size_of B hl.fam
    rw [h3, h4] at e1
    omega

-- the four-bit set and some statistics with it
example : ∃ st ts' d, Workable .bits4 .raw 20 st.tokenSet ∧
    tokenizeFileSync st.tokenSet [[97, 98, 97, 98]] none = .ok st ∧
    addByte (optimizerFor .bits4) st = .ok (some (ts', d)) := by
  obtain ⟨ts, h0, h⟩ := workable_bits4
  have hu := Tokens.Family.usable h.family
  obtain ⟨st, hst⟩ := sync_exists hu.accepted hu.inRange [[97, 98, 97, 98]] none
  obtain ⟨_, _, _, _, _, hsh, _, _⟩ := sync_inv hu.inRange hst
  have e := hsh.tokenSet
  obtain ⟨Fam, lo, hi, B, hl, hback, hm, _⟩ := workable_behaves h
  rw [newBits4_eq] at h0
  have h0 := Except.ok.inj h0
  have hs : shortCount ts = 16 := by rw [← h0]; decide
  have hlen : ts.tokens.length = 16 := by rw [← h0]; decide
  have hb : BitsFamily st.tokenSet := by
    rw [e]
    rcases h.family with h' | h' | h'
    · exact h'
    · have := h'.type; rw [h.type] at this; cases this
    · have := h'.type; rw [h.type] at this; cases this
  rcases addByte_ok (bits_behaves (ty := .bits4) (q := (16, 2)) (p := .raw) rfl (by decide : 20 ≤ 16 + 256))
      (st := st) (samples := [[97, 98, 97, 98]]) (n := none)
      ⟨hb, by rw [e]; exact h.type, by rw [e]; exact h.processing⟩ (by rw [e]; exact hst) (by rw [e, hlen]; decide) with
    ⟨h1, _⟩ | ⟨ts', d, st', h1, _⟩
  · rw [e, hs] at h1; simp at h1
  · exact ⟨st, ts', d, by rw [e]; exact h, by rw [e]; exact hst, h1⟩

end Tokens.Props
