import Verif.Proofs.Optimum
import Verif.Props.Optimize

/-!
# Properties C49, C50: where the optimizer stops

Read together with `Verif/Spec/Optimizing.lean`, `Verif/Spec/Segmentation.lean` (`LongestLast`: the
segmentation that the tokenizer uses) and `Verif/Props/Optimize.lean`.
-/

namespace Tokens.Props
open Tokens Spec TokenSet Batch OptimizeBytes Optimize

/-- What the optimizer is called with: a size that it can handle, or a set to start from that is valid
for the type, the processing and the size. -/
def CanStart (ty : TokenType) (p : Processing) (ntokens : Nat) : Option TokenSet → Prop
  | none => Admissible ty ntokens
  | some ts => Workable ty p ntokens ts

theorem started {env : Env} (he : EnvOk env) {ty : TokenType} {p : Processing} {ntokens : Nat}
    {pre : Option TokenSet} (hp : CanStart ty p ntokens pre) {r : R TokenStats} {w : World}
    (h : OptimizeTokenset env ntokens p ty pre r w) :
    ∃ ts w0, Workable ty p ntokens ts ∧ Reached env w0 ∧ w0.saved = [] ∧
      Impl env (optimizerFor ty) ntokens ts w0 r w := by
  cases h with
  | run h1 h2 =>
    cases pre with
    | none =>
      obtain ⟨ts, e, hg, hw, hs⟩ := start_run he hp h1
      cases e
      exact ⟨_, _, hg.work, hw, hs, h2⟩
    | some ts =>
      cases h1
      exact ⟨_, _, hp, reached_new env [], rfl, h2⟩
  | startFail h1 =>
    cases pre with
    | none => obtain ⟨ts, e, _⟩ := start_run he hp h1; cases e
    | some ts => cases h1

theorem workable_sorted_stuck {env : Env} (he : EnvOk env) {ty : TokenType} {p : Processing} {ntokens : Nat}
    {pre : Option TokenSet} (hp : CanStart ty p ntokens pre) {st : TokenStats} {w : World}
    (h : OptimizeTokenset env ntokens p ty pre (.ok st) w) :
    Workable ty p ntokens st.tokenSet ∧ Stuck env (optimizerFor ty) ntokens st.tokenSet ∧
      ∃ full, Fresh env st.tokenSet full ∧ full.tokenSet = st.tokenSet ∧ st = full.cloneWithoutPairs := by
  obtain ⟨ts, w0, h1, h2, h3, h4⟩ := started he hp h
  obtain ⟨Fam, lo, hi, B, hl, hback, _⟩ := workable_behaves h1
  obtain ⟨full, e, k1, k2, k3, _⟩ := impl_ok B he hl (reached_ok h2) h4
  have hst := impl_stuck B he hl (reached_ok h2) h4
  have e := Except.ok.inj e
  subst e
  exact ⟨hback _ k3, hst, full, k1, rfl, rfl⟩

/-! ## C49 the budget is used -/

/-- **C49**.  The optimizer returns a set of exactly `ntokens` tokens, with two exceptions: for type
bytes, every sample (that is not empty) is already a token; for type byteshuff, the set has the full
number of ext and byte tokens, and in no sample are two tokens next to each other. -/
theorem C49_budget_used (env : Env) (he : EnvOk env) (ty : TokenType) (p : Processing) (ntokens : Nat)
    (pre : Option TokenSet) (hp : CanStart ty p ntokens pre) (st : TokenStats) (w : World)
    (h : OptimizeTokenset env ntokens p ty pre (.ok st) w) :
    st.tokenSet.tokens.length = ntokens ∨
    (ty = .bytes ∧ ∀ x ∈ env.sampler.samples, x ≠ [] → Token.str x ∈ st.tokenSet.tokens) ∨
    (ty = .bytesHuff ∧ shortCount st.tokenSet = 258 ∧
      ∀ x ∈ env.sampler.samples, ∀ ps, LongestLast st.tokenSet ps x →
        ∀ u v a b, ps ≠ u ++ .tok a :: .tok b :: v) := by
  obtain ⟨hwk, hstuck, full, hfresh, hset, _⟩ := workable_sorted_stuck he hp h
  obtain ⟨Fam, lo, hi, B, hl, _, _, hhi⟩ := workable_behaves' hwk
  by_cases hlen : st.tokenSet.tokens.length = ntokens
  · exact .inl hlen
  right
  obtain ⟨hsc, full', hf', h0⟩ := stuck_small B hl.fam hstuck (by have := hwk.size; omega)
  have := fresh_unique hfresh hf'
  subst this
  have hsync := (fresh_facts B hl.fam hf').2.2.2.1
  have hseq := (fresh_facts B hl.fam hf').2.2.2.2.2
  rw [hset] at hsync hseq
  have hsize := hwk.size
  have hle := (size_of B hl.fam).2.2
  have bits : ∀ q, bitsParams ty = some q → fullShort ty = q.1 + 256 → False := by
    intro q hq e
    have := hwk.bits q hq
    have e1 := (size_of B hl.fam).1
    omega
  cases ty with
  | bits1 => exact (bits _ rfl rfl).elim
  | bits2 => exact (bits _ rfl rfl).elim
  | bits4 => exact (bits _ rfl rfl).elim
  | bytes =>
    have hb : st.tokenSet.sequences = [] := by
      rcases hwk.family with h' | h' | h'
      · obtain ⟨_, hp, _⟩ := h'.params; rw [hwk.type] at hp; simp [bitsParams] at hp
      · exact h'.noSeq
      · have := h'.type; rw [hwk.type] at this; simp at this
    exact .inl ⟨rfl, fun x hx hne => one_token hb hsync h0 hx hne⟩
  | bytesHuff =>
    exact .inr ⟨rfl, by rw [hsc, hhi]; rfl, fun x hx ps hps u v a b =>
      no_adjacent hseq hsync h0 hx hps u v a b⟩

/-- **C49**, for the bits types: the set returned always has exactly the size asked for. -/
theorem C49_bits_exact (env : Env) (he : EnvOk env) (ty : TokenType) (q : Nat × Nat)
    (hty : bitsParams ty = some q) (p : Processing) (ntokens : Nat)
    (pre : Option TokenSet) (hp : CanStart ty p ntokens pre) (st : TokenStats) (w : World)
    (h : OptimizeTokenset env ntokens p ty pre (.ok st) w) : st.tokenSet.tokens.length = ntokens := by
  rcases C49_budget_used env he ty p ntokens pre hp st w h with h | ⟨rfl, _⟩ | ⟨rfl, _⟩
  · exact h
  · simp [bitsParams] at hty
  · simp [bitsParams] at hty

-- runs to which it applies
example : ∃ st w, CanStart .bits4 .raw 30 none ∧
    OptimizeTokenset smallEnv 30 .raw .bits4 none (.ok st) w ∧ st.tokenSet.tokens.length = 30 := by
  have hc : CanStart .bits4 .raw 30 none := by show Admissible .bits4 30; unfold Admissible; omega
  obtain ⟨st, w, h⟩ := optimize_ends smallEnv smallEnv_ok .bits4 .raw 30 hc
  exact ⟨st, w, hc, h, C49_bits_exact smallEnv smallEnv_ok .bits4 _ rfl _ _ none hc st w h⟩

-- with 300 tokens the two samples `abab` and `\n\200` become tokens
example : ∃ st w, OptimizeTokenset smallEnv 300 .raw .bytes none (.ok st) w ∧
    (st.tokenSet.tokens.length = 300 ∨ Token.str [97, 98, 97, 98] ∈ st.tokenSet.tokens) := by
  have hc : CanStart .bytes .raw 300 none := by show Admissible .bytes 300; unfold Admissible; omega
  obtain ⟨st, w, h⟩ := optimize_ends smallEnv smallEnv_ok .bytes .raw 300 hc
  refine ⟨st, w, h, ?_⟩
  rcases C49_budget_used smallEnv smallEnv_ok .bytes .raw 300 none hc st w h with h | ⟨_, h⟩ | ⟨h, _⟩
  · exact .inl h
  · exact .inr (h _ (by simp [smallEnv]) (by simp))
  · cases h

/-! ## C50 optimizing again -/

/-- **C50**.  Optimizing a set that the optimizer returned, for the same data, type and size, returns
the same set and statistics and writes no file, whatever the number of threads, the order in which ties
are tried and the time that passes. -/
theorem C50_again (env env' : Env) (he : EnvOk env) (he' : EnvOk env') (hsame : env'.sampler = env.sampler)
    (hinit : env'.initialSize = env.initialSize) (ty : TokenType) (p : Processing) (ntokens : Nat)
    (pre : Option TokenSet) (hp : CanStart ty p ntokens pre) (st : TokenStats) (w : World)
    (h : OptimizeTokenset env ntokens p ty pre (.ok st) w) :
    (∃ r' w', OptimizeTokenset env' ntokens p ty (some st.tokenSet) r' w') ∧
    ∀ r' w', OptimizeTokenset env' ntokens p ty (some st.tokenSet) r' w' → r' = .ok st ∧ w'.saved = [] := by
  obtain ⟨hwk, hstuck, full, hfresh, hset, hst⟩ := workable_sorted_stuck he hp h
  constructor
  · obtain ⟨st', w', h'⟩ := C37_terminates env' he' ty p ntokens _ hwk _ (reached_new env' [])
    exact ⟨_, _, .run .pure h'⟩
  · intro r' w' h'
    have hp' : CanStart ty p ntokens (some st.tokenSet) := hwk
    cases h' with
    | run h1 h2 =>
      cases h1
      obtain ⟨Fam, lo, hi, B, hl, _⟩ := workable_behaves hwk
      obtain ⟨⟨full', g1, g2⟩, g3⟩ := impl_of_stuck B he' hl (reached_ok (reached_new env' []))
        (stuck_threads hsame hinit hstuck) h2
      have g1' : Fresh env st.tokenSet full' := by
        obtain ⟨t, x1, x2⟩ := g1
        exact ⟨t, x1, by rw [← hsame, ← hinit]; exact x2⟩
      have := fresh_unique hfresh g1'
      subst this
      rw [← hst] at g2
      exact ⟨g2, g3⟩
    | startFail h1 => cases h1

-- the surroundings above, then with one thread only
example : ∃ st w, OptimizeTokenset smallEnv 30 .raw .bits4 none (.ok st) w ∧
    ∀ r' w', OptimizeTokenset { smallEnv with nthreads := 1 } 30 .raw .bits4 (some st.tokenSet) r' w' →
      r' = .ok st := by
  have hc : CanStart .bits4 .raw 30 none := by show Admissible .bits4 30; unfold Admissible; omega
  obtain ⟨st, w, h⟩ := optimize_ends smallEnv smallEnv_ok .bits4 .raw 30 hc
  exact ⟨st, w, h, fun r' w' h' => ((C50_again smallEnv { smallEnv with nthreads := 1 } smallEnv_ok
    ⟨by decide, .inl (by decide)⟩ rfl rfl _ _ _ none hc st w h).2 r' w' h').1⟩

end Tokens.Props
