import Verif.Proofs.RepeatMain
import Verif.Proofs.Resume
import Verif.Props.Optimum

/-!
The paragraph flag does not matter for tokenizing, and the statistics that the optimizer ends with are those
of the whole file.
-/

namespace Tokens
open Spec TokenSet Optimize Batch Main Input Disk Props FragmentTokenizer

set_option linter.unusedVariables false

/-! ### The flag -/

/-- The set with the flag as given. -/
abbrev flagged (ts : TokenSet) (b : Bool) : TokenSet := { ts with splitParagraphs := b }

theorem spells_congr {a b : TokenSet} (hs : a.tokens = b.tokens) (hq : a.sequences = b.sequences) {ps : List Piece}
    {t : Bytes} (h : Spells a ps t) : Spells b ps t := by
  have hstr : ∀ p : Piece, p.string a = p.string b := by
    intro p; cases p <;> simp only [Piece.string, hs, hq]
  induction h with
  | nil => exact .nil
  | cons h1 h2 ih => exact .cons (by rw [← hstr]; exact h1) ih

theorem output_congr {a b : TokenSet} (hq : a.sequences = b.sequences) (ps : List Piece) :
    output a ps = output b ps := by
  have : Piece.output a = Piece.output b := by
    funext p; cases p <;> simp only [Piece.output, hq]
  unfold output; rw [this]

theorem optimal_congr {a b : TokenSet} (hs : a.tokens = b.tokens) (hq : a.sequences = b.sequences) {ps : List Piece}
    {t : Bytes} (h : Optimal a t ps) : Optimal b t ps := by
  refine ⟨spells_congr hs hq h.1, ?_⟩
  intro qs hqs
  rw [← output_congr hq, ← output_congr hq]
  exact h.2 qs (spells_congr hs.symm hq.symm hqs)

theorem longestLast_congr {a b : TokenSet} (hs : a.tokens = b.tokens) (hq : a.sequences = b.sequences)
    {ps : List Piece} {t : Bytes} (h : LongestLast a ps t) : LongestLast b ps t := by
  have hstr : ∀ p : Piece, p.string a = p.string b := by
    intro p; cases p <;> simp only [Piece.string, hs, hq]
  induction h with
  | nil => exact .nil
  | snoc h1 h2 h3 h4 ih =>
    refine .snoc ih (by rw [← hstr]; exact h2) (optimal_congr hs hq h3) ?_
    intro qs q r hr ho
    exact h4 qs q r (by rw [hstr]; exact hr) (optimal_congr hs.symm hq.symm ho)

theorem sync_flag {ts : TokenSet} (hr : SeqsInRange ts) {samples : List Bytes} {n : Option Nat} {st : TokenStats}
    (h : tokenizeFileSync ts samples n = .ok st) (b : Bool) :
    tokenizeFileSync (flagged ts b) samples n = .ok { st with tokenSet := flagged ts b } := by
  obtain ⟨_, d1, _, t1, w1, s1, n1, c1⟩ := sync_inv hr h
  have hr2 : SeqsInRange (flagged ts b) := hr
  have t2 : Tokenizable (flagged ts b) := ⟨t1.nodup, t1.nonempty, t1.bytes⟩
  obtain ⟨y, hy⟩ := sync_exists t2 hr2 samples n
  obtain ⟨_, d2, _, _, w2, s2, n2, c2⟩ := sync_inv hr2 hy
  rw [hy]
  refine congrArg _ (stats_ext s2 ⟨rfl, s1.tokenCounts, s1.seqCounts, s1.pairCounts⟩ (n2.trans n1.symm) ?_)
  intro ix
  rw [c2 ix, show cnt { st with tokenSet := flagged ts b } ix = cnt st ix from by cases ix <;> rfl, c1 ix]
  unfold workSum
  congr 1
  apply List.map_congr_left
  intro t _
  obtain ⟨ps, hps, e1⟩ := w1.seg t
  obtain ⟨qs, hqs, e2⟩ := w2.seg t
  have := longestLast_unique t2 hqs (longestLast_congr (a := ts) (b := flagged ts b) rfl rfl hps)
  subst this
  rw [e1, e2]
  cases ix with
  | total => simp only [segCount]; rw [output_congr (a := flagged ts b) (b := ts) rfl]
  | scanned => rfl
  | tok i => simp only [segCount]; rw [output_congr (a := flagged ts b) (b := ts) rfl]
  | seq j => rfl
  | pair k => rfl

/-! ### One sample -/

theorem memory_one {data : Bytes} (hl : data.length ≤ 2 ^ 20) (hv : validUtf8 data = true) {sd : SamplerData}
    (h : memorySampler ⟨data, 1 <<< 20⟩ = .ok sd) : sd.samples = if data = [] then [] else [data] := by
  have hsl : memSlices ⟨data, 1 <<< 20⟩ (data.length + 1) 0 = .ok (if data = [] then [] else [data]) := by
    by_cases hd : data = []
    · subst hd
      rw [if_pos rfl, memSlices]
      rfl
    · rw [if_neg hd]
      have hpos : 0 < data.length := List.length_pos_of_ne_nil hd
      obtain ⟨k, hk⟩ := Nat.exists_eq_add_of_le' hpos
      have hmin : min (0 + 1 <<< 20) data.length = data.length := by
        have : (1 <<< 20 : Nat) = 2 ^ 20 := by decide
        omega
      have h1 : memNext ⟨data, 1 <<< 20⟩ 0 = .ok (some (data, data.length)) := by
        obtain ⟨r, e, _, _⟩ := findParagraphEnd_spec data data.length (Nat.le_refl _)
        unfold memNext
        simp only [hmin]
        rw [if_pos hpos, e, R.ok_bind, if_neg (by simp), sliceR_ok (Nat.zero_le _) (Nat.le_refl _), R.ok_bind]
        simp
      have h2 : memNext ⟨data, 1 <<< 20⟩ data.length = .ok none := by
        unfold memNext
        rw [if_neg (by simp)]
      rw [memSlices, h1, R.ok_bind]
      simp only
      rw [hk, memSlices, ← hk, h2]
      rfl
  unfold memorySampler at h
  simp only at h
  rw [hsl, R.ok_bind] at h
  rw [← Except.ok.inj h]
  have hb : fromBytes data = data := (lossy_eq_iff data).2 hv
  split <;> simp [hb]

theorem file_one {data : Bytes} (hl : data.length ≤ 2 ^ 20) (hv : validUtf8 data = true) :
    ∃ sd, fileSampler data (1 <<< 24) (fun _ => 1 <<< 24) = .ok sd ∧
      sd.samples = if data = [] then [] else [data] := by
  have h24 : (1 <<< 24 : Nat) = 2 ^ 24 := by decide
  have hread : ∀ o, readAt data o (1 <<< 24) (1 <<< 24) = data.drop o := by
    intro o
    unfold readAt
    rw [List.take_of_length_le (by rw [List.length_drop]; omega : (data.drop o).length ≤ 1 <<< 24),
      List.take_of_length_le (by rw [List.length_drop]; omega)]
  have hsl : fileSlices data (1 <<< 24) (fun _ => 1 <<< 24) (data.length + 1) 0 0 =
      .ok (if data = [] then [] else [data]) := by
    have h2 : fileNext data (1 <<< 24) data.length (1 <<< 24) = .ok none := by
      unfold fileNext
      rw [hread]
      simp
    by_cases hd : data = []
    · subst hd
      rw [if_pos rfl, fileSlices, show fileNext [] (1 <<< 24) 0 (1 <<< 24) = .ok none from h2]
      rfl
    · rw [if_neg hd]
      have hpos : 0 < data.length := List.length_pos_of_ne_nil hd
      obtain ⟨k, hk⟩ := Nat.exists_eq_add_of_le' hpos
      have h1 : fileNext data (1 <<< 24) 0 (1 <<< 24) = .ok (some (data, data.length)) := by
        unfold fileNext
        rw [hread]
        simp only [List.drop_zero, Nat.zero_add]
        rw [if_neg (by omega), if_pos (by omega)]
      rw [fileSlices, h1, R.ok_bind]
      simp only
      rw [hk, fileSlices, ← hk, h2]
      rfl
  rcases fromVecs_ok_iff (if data = [] then [] else [data]) with ⟨_, h⟩ | ⟨h, _⟩
  · refine ⟨⟨if data = [] then [] else [data], data.length⟩, ?_, rfl⟩
    unfold fileSampler
    rw [hsl, R.ok_bind, h, R.ok_bind]
  · refine absurd (fun x hx => ?_) h
    split at hx
    · cases hx
    · rw [List.mem_singleton.1 hx]; exact hv

/-! ### The statistics of the whole file -/

/-- The statistics, but for the pairs, are those of tokenizing the whole file with its set. -/
def OfFile (data : Bytes) (n : Option Nat) (st : TokenStats) : Prop :=
  ∃ sd full, fileSampler data (1 <<< 24) (fun _ => 1 <<< 24) = .ok sd ∧
    tokenizeFileSync st.tokenSet sd.samples n = .ok full ∧ st.cloneWithoutPairs = full.cloneWithoutPairs

variable {f : SortFn} {m m1 m2 : Machine}

theorem increasing_ofFile (hf : f.Sorts) (hm : MachineOk m) {file : Bytes} {ntokens : Nat} {p : Processing}
    {ty : TokenType} {n : Option Nat} {size : Nat} {ts : Option TokenSet} {r : R TokenStats}
    {saved : List (Text × Text)} (h : IncreasingBy f m file ntokens p ty n size ts r saved) :
    GoodInput ty p ntokens ts → ∀ st, r = .ok st → OfFile file n st := by
  induction h with
  | exhausted => intro _ _ e; cases e
  | sample => intro _ _ e; cases e
  | before => intro _ _ e; cases e
  | optimize => intro _ _ e; cases e
  | full => intro _ _ e; cases e
  | @stop size ts env st w st' h hs hb ho hf' hstop =>
    intro hi st0 e
    have := Except.ok.inj e
    subst this
    obtain ⟨st1, e1, _, hw⟩ := optimize_good (sampleEnv_good hm hs) hi (ho.optimize hf)
    have := Except.ok.inj e1
    subst this
    generalize hq : (Except.ok st' : R TokenStats) = q at hf'
    cases hf' with
    | sampler => cases hq
    | tokenizer => cases hq
    | @ok sd st2 hs' ht =>
      have := Except.ok.inj hq
      subst this
      have hsync := C07_tokenize_file _ (Tokens.Family.usable hw.family).inRange _ n _ hm.threads _ ht
      obtain ⟨_, _, _, _, _, sh, _⟩ := sync_inv (Tokens.Family.usable hw.family).inRange hsync
      exact ⟨sd, st', hs', by rw [sh.tokenSet]; exact hsync, rfl⟩
  | again h hs hb ho hf' hstop hr ih =>
    intro hi
    obtain ⟨st1, e1, _, hw⟩ := optimize_good (sampleEnv_good hm hs) hi (ho.optimize hf)
    have := Except.ok.inj e1
    subst this
    exact ih hw

theorem env_stats {env : Env} (he : EnvOk env) (hf : f.Sorts) {ntokens : Nat} {p : Processing}
    {ty : TokenType} {ts : Option TokenSet} (hi : GoodInput ty p ntokens ts) {st : TokenStats} {w : World}
    (ho : OptimizeBy f env ntokens p ty ts (.ok st) w) :
    ∃ full, tokenizeFileSync st.tokenSet env.sampler.samples env.initialSize = .ok full ∧
      st.cloneWithoutPairs = full.cloneWithoutPairs := by
  have hcs : CanStart ty p ntokens ts := by cases ts <;> exact hi
  obtain ⟨hw, _, full, ⟨ts', h1, h2⟩, h3, h4⟩ := workable_sorted_stuck he hcs (ho.optimize hf)
  have hr := (Tokens.Family.usable (sort_family hw.family h1)).inRange
  obtain ⟨_, _, _, _, _, sh, _⟩ := sync_inv hr h2
  refine ⟨full, ?_, by rw [h4]; rfl⟩
  rw [← h3, sh.tokenSet]
  exact h2

theorem optimized_ofFile (hf : f.Sorts) (hm : MachineOk m) {data : Bytes} {ntokens : Nat} {p : Processing}
    {ty : TokenType} {rawSize : Nat} {input : Option TokenSet} (hi : GoodInput ty p ntokens input)
    {minSize : Option Nat}
    (hwhole : minSize ≠ none ∨ 2 ^ 34 ≤ rawSize ∨ (data.length ≤ 2 ^ 20 ∧ validUtf8 data = true))
    {st : TokenStats} {saved : List (Text × Text)}
    (h : OptimizedBy f m data ntokens p ty rawSize input minSize (.ok st) saved) :
    OfFile data (some rawSize) st := by
  have h34 : (1 <<< 34 : Nat) = 2 ^ 34 := by decide
  generalize hr : (Except.ok st : R TokenStats) = r at h
  cases h with
  | increasing h => exact increasing_ofFile hf hm h hi st hr.symm
  | memoryFail => cases hr
  | fileFail => cases hr
  | memory hz he h =>
    subst hr
    rcases hwhole with hw | hw | ⟨hl, hv⟩
    · exact absurd rfl hw
    · omega
    · obtain ⟨a1, a2, a3⟩ := memoryEnv_inv he
      obtain ⟨full, b1, b2⟩ := env_stats (Disk.memory_ok hm he) hf hi h
      obtain ⟨sd, c1, c2⟩ := file_one hl hv
      refine ⟨sd, full, c1, ?_, b2⟩
      rw [c2, ← memory_one hl hv a1, ← a2]
      exact b1
  | file hz he h =>
    subst hr
    obtain ⟨full, b1, b2⟩ := env_stats ⟨hm.threads, .inr (fileSampler_facts he).2.1⟩ hf hi h
    exact ⟨_, full, he, b1, b2⟩

end Tokens
