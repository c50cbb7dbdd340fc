import Verif.Proofs.Reorder
import Verif.Proofs.Reach
import Verif.Props.Optimize
import Verif.Props.OptimizeBytes
import Verif.Props.Tokenizer
import Verif.Props.Batch

/-!
# Property C108: the order in which a set lists its tokens and sequences does not matter

Read together with `SameSet` (`Verif/Spec/Views.lean`: the same header, the same tokens, the same
sequences with the same tokens listed, whatever the numbering) and `SameStats`
(`Verif/Spec/Reorder.lean`).
-/

namespace Tokens.Props
open Tokens Spec TokenSet Batch OptimizeBytes Optimize

set_option linter.unusedVariables false

/-- **C108** (the tokenizer).  Two sets that list the same distinct tokens and the same sequences in
different orders give the same statistics for the same data, whatever the number of threads and however
they are scheduled: the same totals, and the same count for each token, sequence and pair of tokens. -/
theorem C108_counts (a b : TokenSet) (h : SameSet a b) (ha : SeqsInRange a) (hn : a.tokens.Nodup)
    (sampler : SamplerData) (n : Option Nat) (k m : Nat) (hk : 0 < k) (hm : 0 < m) (x y : TokenStats)
    (hx : TokenizeFile a sampler n k x) (hy : TokenizeFile b sampler n m y) : SameStats x y :=
  have hb := inRange_sameSet h ha
  stats_sameSet h ha hb hn (C07_tokenize_file a ha sampler n k hk x hx)
    (C07_tokenize_file b hb sampler n m hm y hy)

/-- **C108** (acceptance).  One of the two is accepted by the tokenizer exactly if the other is. -/
theorem C108_accepted (a b : TokenSet) (h : SameSet a b) :
    (∃ tk, FragmentTokenizer.new a = .ok tk) ↔ ∃ tk, FragmentTokenizer.new b = .ok tk := by
  have hp : (strTokens a ++ a.sequences.map (·.string)).Perm (strTokens b ++ b.sequences.map (·.string)) :=
    pieceStrings_sameSet h
  rw [C03_new_succeeds_iff, C03_new_succeeds_iff]
  exact and_congr hp.nodup_iff (and_congr (forall_congr' fun s => by rw [hp.mem_iff])
    (forall_congr' fun b => hp.mem_iff))

/-- **C108** (the cache).  With any cache, the two methods of the tokenizer cache do exactly the same for
the two sets: the same result, and the same cache afterwards. -/
theorem C108_cache (a b : TokenSet) (h : SameSet a b) (ha : SeqsInRange a) (hn : a.tokens.Nodup)
    (hq : (a.sequences.map (·.string)).Nodup) (sampler : SamplerData) (n : Option Nat) (k : Nat)
    (c c' : Cache) (st : TokenStats) :
    (GetStats sampler n k c a c' st ↔ GetStats sampler n k c b c' st) ∧
    (GetStatsWithPairs sampler n k c a c' st ↔ GetStatsWithPairs sampler n k c b c' st) := by
  have e := sort_sameSet_eq h hn hq ha (inRange_sameSet h ha)
  exact ⟨⟨getStats_same e, getStats_same e.symm⟩, ⟨getPairs_same e, getPairs_same e.symm⟩⟩

/-- **C108** (the optimizer).  Started from one or the other of the two sets, the optimizer can come to
exactly the same results, and write exactly the same files on the way. -/
theorem C108_optimizer (env : Env) (ty : TokenType) (p : Processing) (ntokens : Nat) (a b : TokenSet)
    (h : SameSet a b) (ha : Workable ty p ntokens a) (r : R TokenStats) (w : World) :
    OptimizeTokenset env ntokens p ty (some a) r w ↔ OptimizeTokenset env ntokens p ty (some b) r w := by
  have key : ∀ {a b : TokenSet}, SameSet a b → Workable ty p ntokens a →
      OptimizeTokenset env ntokens p ty (some a) r w →
      Workable ty p ntokens b ∧ OptimizeTokenset env ntokens p ty (some b) r w := by
    intro a b h ha ho
    obtain ⟨Fam, lo, hi, B, hl, hback, _⟩ := workable_behaves ha
    have hu := Tokens.Family.usable (B.family hl.fam)
    have hfb : Fam b := B.keep hl.fam (usable_sameSet hu h.symm (inRange_sameSet h hu.inRange))
      (shrinks_sameSet h.symm) h.symm.header (sameSet_short h.symm)
    refine ⟨hback b ⟨hfb, by rw [← h.tokens.length_eq]; exact hl.size⟩, ?_⟩
    cases ho with
    | run h1 h2 =>
      unfold Optimize.startSet at h1
      cases h1 with
      | pure => exact .run (by unfold Optimize.startSet; exact .pure) (impl_same B h hl.fam hfb h2)
    | startFail h1 =>
      unfold Optimize.startSet at h1
      cases h1
  constructor
  · exact fun ho => (key h ha ho).2
  · intro ho
    obtain ⟨Fam, lo, hi, B, hl, hback, _⟩ := workable_behaves ha
    have hu := Tokens.Family.usable (B.family hl.fam)
    have hfb : Fam b := B.keep hl.fam (usable_sameSet hu h.symm (inRange_sameSet h hu.inRange))
      (shrinks_sameSet h.symm) h.symm.header (sameSet_short h.symm)
    exact (key h.symm (hback b ⟨hfb, by rw [← h.tokens.length_eq]; exact hl.size⟩) ho).2

/-- The set `Example.grown` with the tokens and the sequences listed the other way round. -/
def backwards : TokenSet :=
  { Example.grown with
    tokens := Example.grown.tokens.reverse,
    sequences := Example.grown.sequences.reverse.map (fun q =>
      { q with tokens := q.tokens.map (fun i => 19 - i) }) }

theorem backwards_same : SameSet Example.grown backwards := by
  refine ⟨⟨rfl, rfl, rfl, rfl⟩, (List.reverse_perm _).symm, ?_⟩
  have hlen : Example.grown.tokens.length = 20 := by decide +kernel
  have : meaning backwards = (meaning Example.grown).reverse := by
    have hr := Example.grown_ok.2
    unfold meaning
    rw [← List.map_reverse]
    rw [show backwards.sequences = Example.grown.sequences.reverse.map (fun q =>
      { q with tokens := q.tokens.map (fun i => 19 - i) }) from rfl, List.map_map]
    apply List.map_congr_left
    intro q hq
    have hq' := hr q (List.mem_reverse.1 hq)
    show (q.string, listed backwards _) = (q.string, listed Example.grown q)
    congr 1
    unfold listed
    show List.map _ (List.map _ q.tokens) = _
    rw [List.map_map]
    apply List.map_congr_left
    intro i hi
    have := hq' i hi
    show Example.grown.tokens.reverse[19 - i]? = Example.grown.tokens[i]?
    rw [List.getElem?_reverse (by omega)]
    congr 1
    omega
  rw [this]
  exact (List.reverse_perm _).symm

-- the two sets differ, and tokenize the same text
example : backwards ≠ Example.grown ∧ SameSet Example.grown backwards ∧ SeqsInRange Example.grown ∧
    Example.grown.tokens.Nodup ∧ ∃ x y, TokenizeFile Example.grown smallEnv.sampler none 1 x ∧
      TokenizeFile backwards smallEnv.sampler none 1 y := by
  refine ⟨?_, backwards_same, Example.grown_ok.2, by decide +kernel, ?_⟩
  · intro e
    have := congrArg (fun t => t.tokens.head?) e
    revert this
    decide +kernel
  · have hb := inRange_sameSet backwards_same Example.grown_ok.2
    have hp := pieceStrings_sameSet backwards_same
    have ht : Tokenizable backwards := by
      have h := Example.grown_ok.1
      exact ⟨hp.nodup_iff.1 h.nodup, fun s hs => h.nonempty s (hp.mem_iff.2 hs), fun b =>
        hp.mem_iff.1 (h.bytes b)⟩
    obtain ⟨x, hx⟩ := sync_exists Example.grown_ok.1 Example.grown_ok.2 smallEnv.sampler.samples none
    obtain ⟨y, hy⟩ := sync_exists ht hb smallEnv.sampler.samples none
    exact ⟨x, y, .sync (by decide) hx, .sync (by decide) hy⟩

-- and the optimizer can be started from both
example : Workable .bits4 .raw 30 Example.grown ∧ ∃ st w,
    OptimizeTokenset smallEnv 30 .raw .bits4 (some Example.grown) (.ok st) w ∧
    OptimizeTokenset smallEnv 30 .raw .bits4 (some backwards) (.ok st) w := by
  have hw : Workable .bits4 .raw 30 Example.grown := ⟨.inl grown_bits, rfl, rfl, by decide +kernel, by
    intro q hq; cases hq; decide, fun h => by cases h⟩
  obtain ⟨st, w, h⟩ := C37_terminates smallEnv smallEnv_ok .bits4 .raw 30 _ hw _ (reached_new smallEnv [])
  have h1 : OptimizeTokenset smallEnv 30 .raw .bits4 (some Example.grown) (.ok st) w := .run .pure h
  exact ⟨hw, st, w, h1, (C108_optimizer smallEnv .bits4 .raw 30 _ _ backwards_same hw _ w).1 h1⟩

end Tokens.Props
