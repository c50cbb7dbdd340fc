import Verif.Proofs.Progress
import Verif.Proofs.OnePair
import Verif.Props.Running
import Verif.Props.Bpe
import Verif.Proofs.Origin

/-!
# Properties C76, C77: pairs of tokens and texts; the files written get better

Read together with `Verif/Spec/Pairs.lean` (`SeenPair`) and `Verif/Spec/Progress.lean` (`Improves`,
`GetBetter`).
-/

namespace Tokens.Props
open Tokens Spec TokenSet Batch OptimizeBytes Optimize

/-! ## C76 pairs of tokens stand for texts -/

/-- **C76**.  In the statistics of any tokenization, two pairs of tokens that were seen and spell the same
text are the same pair: the count of a pair is the count of its text. -/
theorem C76_pair_is_text (ts : TokenSet) (hseq : SeqsInRange ts) (samples : List Bytes)
    (n : Option Nat) (st : TokenStats) (h : tokenizeFileSync ts samples n = .ok st) (a b c d : Nat) (s : Bytes)
    (h1 : SeenPair st a b s) (h2 : SeenPair st c d s) : a = c ∧ b = d := by
  obtain ⟨_, _, _, _, _, hsh, _, _⟩ := sync_inv hseq h
  have hts := hsh.tokenSet
  obtain ⟨p1, e1, e2, k1⟩ := pairText_seen hts h1
  obtain ⟨p2, e3, e4, k2⟩ := pairText_seen hts h2
  have := one_pair hseq h k1 k2 p1 p2
  rw [e1, e2, e3, e4] at this
  exact this

-- "\n\n\n" with the tokens "\n" and "\n\n" can be cut into two tokens in two ways: exactly one of the two
-- pairs was seen
example : ∃ st, tokenizeFileSync Example.bytes1 [[10, 10, 10]] none = .ok st ∧
    ((SeenPair st 10 256 [10, 10, 10] ∧ ¬ SeenPair st 256 10 [10, 10, 10]) ∨
      (SeenPair st 256 10 [10, 10, 10] ∧ ¬ SeenPair st 10 256 [10, 10, 10])) := by
  have hu := Example.bytes1_usable
  obtain ⟨st, h⟩ := sync_exists hu.accepted hu.inRange [[10, 10, 10]] none
  refine ⟨st, h, ?_⟩
  obtain ⟨_, _, _, _, _, hsh, _, _⟩ := sync_inv hu.inRange h
  have hts := hsh.tokenSet
  have hone : ¬ (SeenPair st 10 256 [10, 10, 10] ∧ SeenPair st 256 10 [10, 10, 10]) := by
    rintro ⟨h1, h2⟩
    have := (C76_pair_is_text _ hu.inRange _ _ _ h _ _ _ _ _ h1 h2).1
    omega
  suffices SeenPair st 10 256 [10, 10, 10] ∨ SeenPair st 256 10 [10, 10, 10] by
    rcases this with g | g
    · exact .inl ⟨g, fun g' => hone ⟨g, g'⟩⟩
    · exact .inr ⟨g, fun g' => hone ⟨g', g⟩⟩
  have hex : ∃ k, st.pairCounts.getD k 0 ≠ 0 := by
    by_contra hno
    push Not at hno
    have := one_token (ts := Example.bytes1) rfl h hno (x := [10, 10, 10]) (by simp) (by simp)
    rcases Example.bytes1_str this with e | ⟨b, e⟩ <;> simp at e
  obtain ⟨k, hk⟩ := hex
  obtain ⟨_, _, s1, s2, ha, hb, hn, _⟩ := seen_pair hu.inRange h (k := k) (by omega)
  have hp : PairText Example.bytes1 k (s1 ++ s2) := ⟨s1, s2, ha, hb, rfl⟩
  have hs := (seen_pairText hts hp (by omega)).1
  obtain ⟨x, hx, hi⟩ := pair_occurs hu.inRange h (by omega) hp
  rw [List.mem_singleton] at hx
  subst hx
  have g256 : Example.bytes1.tokens[256]? = some (.str [10, 10]) := Example.bytes1_get.1
  have g10 : Example.bytes1.tokens[10]? = some (.str [10]) := by
    show (Example.bytes0.tokens ++ [.str [10, 10]])[10]? = _
    rw [List.getElem?_append_left (by rw [Example.bytes0_len]; omega)]
    exact Example.bytes0_get 10
  have hnd := hu.distinct
  have all10 : ∀ b ∈ s1 ++ s2, b = 10 := by
    intro b hb
    have := hi.subset hb
    simpa using this
  have hlen := hi.length_le
  rcases Example.bytes1_str (List.mem_of_getElem? ha) with rfl | ⟨b1, rfl⟩ <;>
    rcases Example.bytes1_str (List.mem_of_getElem? hb) with rfl | ⟨b2, rfl⟩
  · simp at hlen
  · have : b2 = 10 := all10 b2 (by simp)
    subst this
    rw [Example.nodup_index hnd ha g256, Example.nodup_index hnd hb g10] at hs
    exact .inr hs
  · have : b1 = 10 := all10 b1 (by simp)
    subst this
    rw [Example.nodup_index hnd ha g10, Example.nodup_index hnd hb g256] at hs
    exact .inl hs
  · have e1 : b1 = 10 := all10 b1 (by simp)
    have e2 : b2 = 10 := all10 b2 (by simp)
    subst e1 e2
    exact absurd (List.mem_of_getElem? g256) hn

/-! ## C77 the files written get better -/

/-- **C77**.  In every run of the optimizer, the sets written to files on the way get better: a later one
has no fewer tokens than an earlier one, it overwrites the file of an earlier one only if it needs strictly
fewer tokens for the data, and (except for type byteshuff) it never needs more.  The set returned has no
fewer tokens than each of them, if it has the same file name it does not need more tokens, and (except for
type byteshuff) it never needs more. -/
theorem C77_files_improve (env : Env) (he : EnvOk env) (ty : TokenType) (p : Processing) (ntokens : Nat)
    (pre : Option TokenSet) (hp : CanStart ty p ntokens pre) (st : TokenStats) (w : World)
    (h : OptimizeTokenset env ntokens p ty pre (.ok st) w) :
    ∃ sets, GetBetter ty env sets w.saved ∧ ∀ ts ∈ sets, ∀ s, Fresh env ts s →
      ts.tokens.length ≤ st.tokenSet.tokens.length ∧
      (ts.name = st.tokenSet.name ∨ ty ≠ .bytesHuff → st.totalTokens ≤ s.totalTokens) := by
  obtain ⟨ts0, w0, hwk, hr, hs0, himpl⟩ := started he hp h
  obtain ⟨Fam, lo, hi, B, hl, hall, hmono, _⟩ := workable_behaves hwk
  obtain ⟨sets, ts', ⟨⟨fs, f1, f2⟩, f3, f4, f5⟩, g1, g2, g3, g4⟩ := impl_ahead B he hl (reached_ok hr) himpl
  rw [hs0, List.nil_append] at f1
  refine ⟨sets, ⟨by rw [f1]; exact f2, fun x hx => fresh_exists env (B.family (f3 x hx).fam), ?_⟩, ?_⟩
  · refine f4.imp_of_mem ?_
    intro a b ha hb hab
    refine ⟨hab.size, ?_, ?_⟩
    · intro hn sa sb h1 h2
      rw [← fresh_tot h1, ← fresh_tot h2]
      exact hab.same (name_inj hn).1
    · intro hty sa sb h1 h2
      rw [← fresh_tot h1, ← fresh_tot h2]
      exact (hab.less (.inl (hmono hty))).2
  · intro x hx s hs
    rw [g1.tokens.length_eq, g3, ← fresh_tot hs]
    rcases g4 x hx with rfl | hab
    · exact ⟨Nat.le_refl _, fun _ => Nat.le_refl _⟩
    · refine ⟨hab.size, ?_⟩
      rintro (hn | hty)
      · exact Nat.le_of_lt (hab.same ((name_inj hn).1.trans g1.tokens.length_eq))
      · exact (hab.less (.inl (hmono hty))).2

/-- **C77**, at any moment of a run, also of one that is not finished. -/
theorem C77_running (env : Env) (he : EnvOk env) (ty : TokenType) (p : Processing) (ntokens : Nat)
    (input : Option TokenSet) (hi : GoodInput ty p ntokens input) (w : World)
    (h : PartTokenset env ntokens p ty input w) : ∃ sets, GetBetter ty env sets w.saved := by
  obtain ⟨st, w', h1, fs, h2⟩ := C37_no_dead_end env he ty p ntokens input hi w h
  have hc : CanStart ty p ntokens input := by cases input <;> exact hi
  obtain ⟨sets, ⟨g1, g2, g3⟩, _⟩ := C77_files_improve env he ty p ntokens input hc st w' h1
  refine ⟨sets.take w.saved.length, ?_, fun x hx => g2 x (List.mem_of_mem_take hx),
    g3.sublist (List.take_sublist _ _)⟩
  rw [List.map_take, g1, ← h2]
  simp

/-- There is a run with a file written on the way: the clock says so after the first round. -/
theorem saving_run (env : Env) (he : EnvOk env) (ty : TokenType) (p : Processing) (ntokens : Nat)
    (ts : TokenSet) (hw : Workable ty p ntokens ts) :
    ∃ st w, OptimizeTokenset env ntokens p ty (some ts) (.ok st) w ∧
      (SameSet st.tokenSet ts ∨ w.saved ≠ []) := by
  obtain ⟨Fam, lo, hi, B, hl, hall, hmono, _⟩ := workable_behaves hw
  have hw0 := reached_ok (reached_new env [])
  have hwp : (getStats ts).wp env (Savable Fam ntokens) (fun r => ∃ st, r = .ok st) :=
    ⟨B.family hl.fam, fun st _ => ⟨_, rfl⟩⟩
  obtain ⟨r1, w1, h1⟩ := wp_total he _ hwp hw0
  obtain ⟨⟨st, rfl⟩, a1, _⟩ := wp_sound he h1 hwp hw0
  obtain ⟨r2, w2, h2, h2'⟩ := loop_saving B he (rc := fun _ => 0) hl a1
  obtain ⟨ts'', e, b1, b2, b3, b4, b5, _⟩ := loop_ok B he h2 hl a1
  subst e
  obtain ⟨ts3, hs⟩ := (sort_ok_iff ts'').2 (Tokens.Family.usable (B.family b1.fam)).inRange
  have hF3 : Family ts3 := sort_family (B.family b1.fam) hs
  have hwp3 : (finish ts'').wp env (Savable Fam ntokens)
      (fun r => ∃ full, r = .ok full.cloneWithoutPairs ∧ Fresh env ts3 full) := by
    unfold finish
    refine wp_lift hs ?_
    exact ⟨hF3, fun st hst => ⟨st, rfl, hst⟩⟩
  obtain ⟨r3, w3, h3⟩ := wp_total he _ hwp3 b4
  obtain ⟨⟨full, e3, t, q1, q2⟩, _, k4⟩ := wp_sound he h3 hwp3 b4
  subst e3
  refine ⟨full.cloneWithoutPairs, w3, .run .pure (.done h1 h2 h3), ?_⟩
  rcases h2' with h2' | h2'
  · left
    have h2' := Except.ok.inj h2'
    subst h2'
    have hset : full.tokenSet = t := by
      obtain ⟨_, _, _, _, _, hsh, _, _⟩ := sync_inv (sort_inRange q1) q2
      exact hsh.tokenSet
    show SameSet full.tokenSet ts''
    rw [hset]
    exact sameSet_trans (sort_sameSet q1).1 (sort_sameSet hs).1
  · right
    obtain ⟨l, hl⟩ := k4.prefix
    rw [← hl]
    simp [h2']

-- such a run: 20 tokens for the four-bit encoding, from the set of 16 ext tokens
example : ∃ ts st w, CanStart .bits4 .raw 20 (some ts) ∧
    OptimizeTokenset smallEnv 20 .raw .bits4 (some ts) (.ok st) w ∧ w.saved ≠ [] := by
  obtain ⟨ts, h0, h⟩ := workable_bits4
  obtain ⟨st, w, h1, h2⟩ := saving_run smallEnv smallEnv_ok .bits4 .raw 20 ts h
  refine ⟨ts, st, w, h, h1, ?_⟩
  rcases h2 with h2 | h2
  · have e := C49_bits_exact smallEnv smallEnv_ok .bits4 _ rfl .raw 20 (some ts) h st w h1
    rw [h2.tokens.length_eq] at e
    rw [newBits4_eq] at h0
    have h0 := Except.ok.inj h0
    rw [← h0] at e
    exact absurd e (by decide)
  · exact h2

end Tokens.Props
