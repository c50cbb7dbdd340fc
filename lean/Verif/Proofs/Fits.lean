import Verif.Proofs.Disk
import Verif.Proofs.Load
import Verif.Props.Machine

/-! The numbers in the files fit into 64 bits. -/

set_option linter.unusedSimpArgs false
set_option linter.unusedVariables false

namespace Tokens
open Spec TokenSet Optimize Batch Main Input Disk Props

/-- A replacement is not more than three times as long. -/
theorem lossy_length (s : Bytes) : (fromUtf8Lossy s).length ≤ 3 * s.length := by
  obtain ⟨n, hn⟩ : ∃ n, s.length ≤ n := ⟨_, Nat.le_refl _⟩
  induction n generalizing s with
  | zero =>
    have : s = [] := List.length_eq_zero_iff.1 (by omega)
    subst this
    rw [lossy_nil]; simp
  | succ n ih =>
    by_cases hs : s = []
    · subst hs; rw [lossy_nil]; simp
    have h0 := List.length_pos_iff.2 hs
    have h1 := scanChar_pos s
    have h2 := ih (s.drop (scanChar s).1) (by rw [List.length_drop]; omega)
    rw [fromUtf8Lossy, dif_neg hs]
    simp only [List.length_append]
    rw [List.length_drop] at h2
    split
    · rw [List.length_take]; omega
    · have : replacement.length = 3 := rfl
      omega

/-- The sequences of the families list at most 256 tokens. -/
theorem family_short {ts : TokenSet} (h : Family ts) : ∀ q ∈ ts.sequences, q.tokens.length ≤ 256 := by
  intro q hq
  have hm : (q.string, listed ts q) ∈ meaning ts := List.mem_map.2 ⟨q, hq, rfl⟩
  have hl : (listed ts q).length = q.tokens.length := by unfold listed; rw [List.length_map]
  rcases h with h | h | h
  · obtain ⟨len, hp, hcodes⟩ := h.params
    obtain ⟨b, ds, e, hlen, _⟩ := hcodes _ hm
    have : listed ts q = ds.map (fun d => some (Token.ext d)) := (Prod.mk.inj e).2
    rw [← hl, this, List.length_map, hlen]
    unfold bitsParams at hp
    split at hp <;> first | (have := (Prod.mk.inj (Option.some.inj hp)).2; omega) | cases hp
  · rw [h.noSeq] at hq; cases hq
  · rw [← hl]; exact h.short _ hm

/-- Statistics of samples of `N` bytes in all. -/
theorem fits_of {ts : TokenSet} (hr : SeqsInRange ts) {K : Nat} (hK1 : 1 ≤ K)
    (hK : ∀ q ∈ ts.sequences, q.tokens.length ≤ K) {samples : List Bytes} {n : Option Nat} {st : TokenStats}
    (h : tokenizeFileSync ts samples n = .ok st) {N : Nat} (hN : (samples.map List.length).sum ≤ N)
    (hN' : K * N < 2 ^ 64) (hn : ∀ k, n = some k → k < 2 ^ 64) (ht : ts.tokens.length < 2 ^ 64) :
    Fits64 st := by
  obtain ⟨k1, k2, _⟩ := C51_counters_bounded ts hr K hK1 hK ⟨samples, 0⟩ n 1
    (by decide) st (.sync (show 0 < 1 <<< 25 by decide) h) _ rfl
  obtain ⟨_, _, _, _, _, hsh, hi, _⟩ := sync_inv hr h
  have k1' : st.scannedBytes = (samples.map List.length).sum := k1
  have k2' : st.totalTokens ≤ K * (samples.map List.length).sum := k2
  have h1 := Nat.mul_le_mul_left K hN
  have h2 := Nat.mul_le_mul_right N hK1
  refine ⟨by rw [hsh.tokenSet]; exact ht, by omega, by omega, ?_⟩
  intro k hk
  exact hn k (by rw [← hk]; exact hi.symm)

theorem sum_lossy (l : List Bytes) :
    ((l.map fromBytes).map List.length).sum ≤ 3 * l.flatten.length := by
  induction l with
  | nil => simp
  | cons x l ih =>
    have := lossy_length x
    simp only [List.map_cons, List.sum_cons, List.flatten_cons, List.length_append, fromBytes] at ih ⊢
    omega

theorem memoryEnv_sum {m : Machine} {data : Bytes} {n : Option Nat} {env : Env}
    (h : memoryEnv m data n = .ok env) : (env.sampler.samples.map List.length).sum ≤ 3 * data.length := by
  obtain ⟨slices, h1, h2, h3⟩ := C23_memory_partition ⟨data, 1 <<< 20⟩ (by decide : 0 < 1 <<< 20)
  unfold memoryEnv memorySampler at h
  rw [h1 _ (by simp)] at h
  have := Except.ok.inj h
  subst this
  have := sum_lossy slices
  rw [h2] at this
  exact this

theorem flatten_sum (l : List Bytes) : (l.map List.length).sum = l.flatten.length := by
  rw [List.length_flatten]

/-- What is known about the statistics of an optimization. -/
theorem optimized_stats {m : Machine} (hm : MachineOk m) {data : Bytes} {ntokens : Nat} {p : Processing}
    {ty : TokenType} {rawSize : Nat} {input : Option TokenSet} (hi : GoodInput ty p ntokens input)
    {minSize : Option Nat} {st : TokenStats} {saved : List (Text × Text)}
    (h : Optimized m data ntokens p ty rawSize input minSize (.ok st) saved) :
    ∃ samples full, tokenizeFileSync st.tokenSet samples (some rawSize) = .ok full ∧
      (samples.map List.length).sum ≤ 3 * data.length ∧ Family st.tokenSet ∧
      st.tokenSet.tokens.length ≤ ntokens ∧ (Fits64 full → Fits64 st) := by
  have hout := (optimized_good hm hi h).result st rfl
  have clone : ∀ full : TokenStats, Fits64 full → Fits64 full.cloneWithoutPairs :=
    fun full h => ⟨h.ntokens, h.scanned, h.total, h.initial⟩
  have key : ∀ {env : Env} {r : R TokenStats} {w : World}, EnvOk env →
      OptimizeTokenset env ntokens p ty input r w → r = .ok st →
      env.initialSize = some rawSize → (env.sampler.samples.map List.length).sum ≤ 3 * data.length →
      ∃ samples full, tokenizeFileSync st.tokenSet samples (some rawSize) = .ok full ∧
        (samples.map List.length).sum ≤ 3 * data.length ∧ Family st.tokenSet ∧
        st.tokenSet.tokens.length ≤ ntokens ∧ (Fits64 full → Fits64 st) := by
    intro env r w he ho hr hn hs
    obtain ⟨st', e, hres, hw⟩ := optimize_good he hi ho
    have := Except.ok.inj (hr.symm.trans e)
    subst this
    obtain ⟨full, h1, h2⟩ := hres.stats
    rw [hn] at h1
    exact ⟨_, full, h1, hs, hw.family, hres.budget, fun hf => by rw [h2]; exact clone _ hf⟩
  generalize hr : (Except.ok st : R TokenStats) = r at h
  cases h with
  | increasing h =>
    rcases C40_result_partial m hm data ntokens p ty _ _ input hi r saved h with
      ⟨st', k, e, ⟨hf, _⟩, _⟩ | ⟨short, e, _, h⟩ | h
    all_goals first | (rw [h] at hr; cases hr) | skip
    have := Except.ok.inj (hr.trans e)
    subst this
    obtain ⟨short, sd, h1, h2, h3⟩ := hf
    refine ⟨_, _, h3, ?_, hout.2.family, hout.1.budget, id⟩
    rw [flatten_sum, h2]
    omega
  | memory _ he h =>
    obtain ⟨env, h1, h2, h3, _⟩ := memoryEnv_ok hm data (some rawSize)
    have := Except.ok.inj (h1.symm.trans he)
    subst this
    exact key h2 h hr.symm h3 (memoryEnv_sum he)
  | memoryFail => cases hr
  | file _ he h =>
    have hfacts := fileSampler_facts he
    refine key ⟨hm.threads, .inr hfacts.2.1⟩ h hr.symm rfl ?_
    show (List.map List.length _).sum ≤ _
    rw [flatten_sum, hfacts.1]
    omega
  | fileFail => cases hr

/-- The statistics that a command saves at its end, if it comes to that. -/
inductive Saves (m : Machine) (d : Files) : Command → TokenStats → Prop where
  | convert {data processed inputTokens tokensDir v raw file ts bytes st}
      (hv : readJson d inputTokens = .ok v) (hr : openFile d data = .ok raw)
      (ht : TokenSet.fromJson v = .ok ts) (hp : openProcessed d processed ts.processing = .ok file)
      (hd : maybeProcessFile m raw file ts.processing = .ok bytes)
      (h : Tokenized m bytes ts (some raw.length) (.ok st)) :
      Saves m d (.convert data processed inputTokens tokensDir) st
  | optimize {data processed tokensDir p ty ntokens inputTokens minSize raw file v bytes ts st saved}
      (hr : openFile d data = .ok raw) (hp : openProcessed d processed p = .ok file)
      (hi : openInput d inputTokens = .ok v) (hd : maybeProcessFile m raw file p = .ok bytes)
      (ht : readInput v = .ok ts)
      (h : Optimized m bytes ntokens p ty raw.length ts minSize (.ok st) saved) :
      Saves m d (.optimize data processed tokensDir p ty ntokens inputTokens minSize) st

/-- The numbers that a command saves fit into 64 bits. -/
theorem saves_fit_optimize {m : Machine} (hm : MachineOk m) {d : Files} {data : Text}
    {processed : Option Text} {dir : Text} {p : Processing} {ty : TokenType} {ntokens : Nat}
    {inputTokens : Option Text} {minSize : Option Nat} (hg : StartsGood d p ty ntokens inputTokens)
    (hsmall : SmallEnough m d (.optimize data processed dir p ty ntokens inputTokens minSize)) :
    ∀ st, Saves m d (.optimize data processed dir p ty ntokens inputTokens minSize) st → Fits64 st := by
  intro st h
  cases h with
  | optimize hr hp hi hd ht h =>
    obtain ⟨h0, hs⟩ := hsmall
    obtain ⟨h1, h2⟩ := hs _ _ (dataRead_iff.2 ⟨_, hr, hp, hd⟩)
    obtain ⟨samples, full, k1, k2, k3, k4, k5⟩ := optimized_stats hm (starts_input hg hi ht) h
    refine k5 (fits_of (Tokens.Family.usable k3).inRange (by decide) (family_short k3) k1 k2 ?_ ?_ ?_)
    · omega
    · intro k hk
      have := Option.some.inj hk
      omega
    · omega

theorem saves_fit_convert {m : Machine} (hm : MachineOk m) {d : Files} {data : Text}
    {processed : Option Text} {inputTokens dir : Text}
    (hsmall : SmallEnough m d (.convert data processed inputTokens dir)) :
    ∀ st, Saves m d (.convert data processed inputTokens dir) st → Fits64 st := by
  intro st h
  cases h with
  | convert hv hr ht hp hd h =>
    obtain ⟨b, g1, g2⟩ := readJson_set hv ht
    obtain ⟨h1, h2, K, h3, h4, h5⟩ := hsmall b _ _ _ g1 g2 (dataRead_iff.2 ⟨_, hr, hp, hd⟩)
    have hin := (fromJson_loaded ht).inRange
    cases h with
    | ok hs htok =>
      have h6 := C07_tokenize_file _ hin _ _ _ hm.threads _ htok
      refine fits_of hin h3 h5 h6 (N := _) ?_ h4 ?_ h2
      · rw [flatten_sum, (fileSampler_facts hs).1]
      · intro k hk
        have := Option.some.inj hk
        omega

end Tokens
