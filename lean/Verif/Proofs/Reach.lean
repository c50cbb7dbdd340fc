import Verif.Proofs.Instances

/-! The worlds that runs come to; the uniform form of the instances. -/

set_option linter.unusedSimpArgs false
set_option linter.unusedVariables false

namespace Tokens
open Spec TokenSet Batch OptimizeBytes

namespace Optimize

variable {env : Env} {S : TokenSet → Prop}

theorem reached_ok {w : World} (h : Reached env w) : WorldOk env w := by
  obtain ⟨l, h1, h2⟩ := h
  exact history_ok h1 (fun ts hts => family_identified (h2 ts hts))

theorem reached_new (env : Env) (saved : List (Text × Text)) : Reached env ⟨fun _ => none, saved⟩ :=
  ⟨[], .new, by simp⟩

theorem reached_run (he : EnvOk env) {α : Type} {p : Prog α} {w w' : World} {r : R α}
    (hr : Run env p w r w') : ∀ {Q : R α → Prop}, p.wp env S Q → Reached env w → Reached env w' := by
  induction hr with
  | pure => exact fun _ hw => hw
  | fail => exact fun _ hw => hw
  | stats hg _ ih =>
    intro Q h hw
    obtain ⟨h1, full, h2, h3⟩ := stats_ok he h.1 (reached_ok hw) hg
    subst h3
    refine ih (h.2 full h2) ?_
    obtain ⟨l, k1, k2⟩ := hw
    refine ⟨l ++ [_], .stats k1 hg, ?_⟩
    intro x hx
    rcases List.mem_append.1 hx with h' | h'
    · exact k2 x h'
    · simp at h'; subst h'; exact h.1
  | statsFail hf => exact fun h hw => absurd hf (stats_fails_not he h.1)
  | pairs hg _ ih =>
    intro Q h hw
    obtain ⟨h1, h2⟩ := pairs_ok he h.1 (reached_ok hw) hg
    refine ih (h.2 _ h2) ?_
    obtain ⟨l, k1, k2⟩ := hw
    refine ⟨l ++ [_], .pairs k1 hg, ?_⟩
    intro x hx
    rcases List.mem_append.1 hx with h' | h'
    · exact k2 x h'
    · simp at h'; subst h'; exact h.1
  | pairsFail hf => exact fun h hw => absurd hf (pairs_fails_not he h.1)
  | sortUnstable hp hs _ ih => exact fun h hw => ih (h _ hp hs) hw
  | clock b _ ih => exact fun h hw => ih (h b) hw
  | save hf _ ih =>
    intro Q h hw
    exact ih h.2.2 hw
  | saveFail hf => exact fun _ hw => hw

/-- The largest number of ext and byte tokens that the byte optimizer of a type makes. -/
def fullShort (ty : TokenType) : Nat :=
  match ty with
  | .bits1 => 2 + 256
  | .bits2 => 4 + 256
  | .bits4 => 16 + 256
  | .bytes => 256
  | .bytesHuff => 258

/-- Everything the loop needs for a workable set. -/
theorem workable_behaves' {ty : TokenType} {p : Processing} {ntokens : Nat} {ts : TokenSet}
    (h : Workable ty p ntokens ts) : ∃ Fam lo hi, Behaves (optimizerFor ty) Fam lo hi ntokens ∧
      LoopSet Fam ntokens ts ∧ (∀ x, LoopSet Fam ntokens x → Workable ty p ntokens x) ∧
      (ty ≠ .bytesHuff → Monotone (optimizerFor ty) Fam) ∧ hi = fullShort ty := by
  have bits : ∀ q, bitsParams ty = some q → ∃ Fam lo hi, Behaves simple Fam lo hi ntokens ∧
      LoopSet Fam ntokens ts ∧ (∀ x, LoopSet Fam ntokens x → Workable ty p ntokens x) ∧
      (ty ≠ .bytesHuff → Monotone simple Fam) ∧ hi = fullShort ty := by
    intro q hq
    have hne : ty ≠ .bytesHuff := by rintro rfl; simp [bitsParams] at hq
    have hb : BitsFamily ts := by
      rcases h.family with h' | h' | h'
      · exact h'
      · have := h'.type; rw [h.type] at this; subst this; simp [bitsParams] at hq
      · have := h'.type; rw [h.type] at this; subst this; simp [bitsParams] at hq
    refine ⟨BitsFam p ty, q.1, q.1 + 256, bits_behaves hq (h.bits q hq), ⟨⟨hb, h.type, h.processing⟩, h.size⟩,
      ?_, fun _ => bits_monotone hq, by cases ty <;> simp [bitsParams] at hq <;> subst hq <;> rfl⟩
    rintro x ⟨⟨h1, h2, h3⟩, h4⟩
    exact ⟨.inl h1, h2, h3, h4, h.bits, fun h => absurd h hne⟩
  cases ty with
  | bits1 => exact bits _ rfl
  | bits2 => exact bits _ rfl
  | bits4 => exact bits _ rfl
  | bytes =>
    have hb : BytesFamily ts := by
      rcases h.family with h' | h' | h'
      · obtain ⟨_, hp, _⟩ := h'.params; rw [h.type] at hp; simp [bitsParams] at hp
      · exact h'
      · have := h'.type; rw [h.type] at this; simp at this
    refine ⟨BytesFam p, 256, 256, bytes_behaves, ⟨⟨hb, h.processing⟩, h.size⟩, ?_, fun _ => bytes_monotone,
      rfl⟩
    rintro x ⟨⟨h1, h3⟩, h4⟩
    exact ⟨.inr (.inl h1), h1.type, h3, h4, h.bits, fun h => by simp at h⟩
  | bytesHuff =>
    have hb : HuffFamily ts := by
      rcases h.family with h' | h' | h'
      · obtain ⟨_, hp, _⟩ := h'.params; rw [h.type] at hp; simp [bitsParams] at hp
      · have := h'.type; rw [h.type] at this; simp at this
      · exact h'
    refine ⟨HuffFam p, 3, 258, huff_behaves, ⟨⟨hb, h.processing, h.huff rfl⟩, h.size⟩, ?_, fun h => absurd rfl h,
      rfl⟩
    rintro x ⟨⟨h1, h3, h5⟩, h4⟩
    exact ⟨.inr (.inr h1), h1.type, h3, h4, h.bits, fun _ => h5⟩

theorem workable_behaves {ty : TokenType} {p : Processing} {ntokens : Nat} {ts : TokenSet}
    (h : Workable ty p ntokens ts) : ∃ Fam lo hi, Behaves (optimizerFor ty) Fam lo hi ntokens ∧
      LoopSet Fam ntokens ts ∧ (∀ x, LoopSet Fam ntokens x → Workable ty p ntokens x) ∧
      (ty ≠ .bytesHuff → Monotone (optimizerFor ty) Fam) ∧ (ty = .bytesHuff → hi = 258) := by
  obtain ⟨Fam, lo, hi, h1, h2, h3, h4, h5⟩ := workable_behaves' h
  exact ⟨Fam, lo, hi, h1, h2, h3, h4, fun e => by subst e; exact h5⟩

theorem sorted_of_sort {ts ts' : TokenSet} (h : ts.sort = .ok ts') : Sorted ts' :=
  ⟨(sort_sameSet h).2.1, (sort_sameSet h).2.2.1⟩

/-- The total as a relation. -/
theorem fresh_of (env : Env) {ts : TokenSet} (h : Family ts) :
    ∃ st, Fresh env ts st ∧ st.totalTokens = tot env ts := by
  obtain ⟨st, hst⟩ := fresh_exists env h
  exact ⟨st, hst, (fresh_tot hst).symm⟩

/-- A chain of rounds is no longer than this. -/
theorem rounds_bound {bo : BytesOptimizer} {Fam : TokenSet → Prop} {lo hi ntokens : Nat}
    (B : Behaves bo Fam lo hi ntokens) (he : EnvOk env) (k : Nat) :
    ∀ (f : Nat → TokenSet × Removals × World), LoopSet Fam ntokens (f 0).1 →
      Safe bo Fam hi ntokens (f 0).1 → WorldOk env (f 0).2.2 →
      (∀ i < k, Round env bo ntokens (f i) (f (i + 1))) →
      k ≤ (ntokens - (f 0).1.tokens.length) + tot env (f 0).1 := by
  induction k with
  | zero => intros; exact Nat.zero_le _
  | succ k ih =>
    intro f hl hs hw h
    obtain ⟨w, h1, h2⟩ := h 0 (by omega)
    obtain ⟨g1, g2, o, rc', g3, g4⟩ := step_run B he hl hw h1
    cases g3
    obtain ⟨hb, hsort⟩ := g4 _ rfl
    have hl' : LoopSet Fam ntokens (f 1).1 := ⟨hb.fam, hb.size⟩
    have := ih (fun i => f (i + 1)) hl' (hb.keeps hs) (save_run B he ⟨hl', hsort⟩ g1 h2).1
      (fun i hi => h (i + 1) (by omega))
    have hb' : Better env bo Fam hi ntokens (f 0).1 (f 1).1 := hb
    have less := hb'.less hs
    have sz := hb'.size
    have this' : k ≤ (ntokens - (f 1).1.tokens.length) + tot env (f 1).1 := this
    rcases hb'.progress with ⟨p1, p2⟩ | p1 <;> omega

end Optimize
end Tokens
