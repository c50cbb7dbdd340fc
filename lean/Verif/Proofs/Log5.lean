import Verif.Proofs.Log4
import Verif.Props.Optimum
import Verif.Props.Batch
import Verif.Proofs.Close

/-! The console output of a whole optimization. -/

set_option linter.unusedSimpArgs false
set_option linter.unusedVariables false

namespace Tokens
open Spec TokenSet Batch OptimizeBytes

namespace Optimize

variable {env : Env} {bo : BytesOptimizer} {Fam : TokenSet → Prop} {lo hi ntokens : Nat}

/-! ### The set that an exchange starts from -/

/-- Every exchange starts from the set that the ones before it lead to. -/
def Linked : (Token → Prop) → List Printed → Prop
  | _, [] => True
  | S, .change a b :: l => (∀ t, S t ↔ t ∈ a.tokens) ∧ Linked (fun t => t ∈ b.tokens) l
  | S, .rate _ :: l => Linked S l
  | S, .initial _ _ :: l => Linked S l
  | S, .removing :: l => Linked S l
  | S, .tried _ :: l => Linked S l
  | S, .newline :: l => Linked S l
  | S, .writing _ :: l => Linked S l

theorem linked_congr {S T : Token → Prop} (h : ∀ t, S t ↔ T t) {l : List Printed} (hl : Linked S l) :
    Linked T l := by
  have : S = T := funext fun t => propext (h t)
  rwa [← this]

theorem linked_follow {S : Token → Prop} {l m : List Printed} (h1 : Linked S l) (h2 : Linked (follow S l) m) :
    Linked S (l ++ m) := by
  induction l generalizing S with
  | nil => exact h2
  | cons e l ih =>
    cases e with
    | change a b =>
      refine ⟨h1.1, ih h1.2 ?_⟩
      have : (fun t => (S t ∧ ¬ (t ∈ a.tokens ∧ t ∉ b.tokens)) ∨ (t ∈ b.tokens ∧ t ∉ a.tokens)) =
          (fun t => t ∈ b.tokens) := by
        funext t
        refine propext ?_
        rw [h1.1 t]
        by_cases ha : t ∈ a.tokens <;> by_cases hb : t ∈ b.tokens <;> simp [ha, hb]
      rw [← this]
      exact h2
    | _ => exact ih h1 h2

theorem linked_tried {S : Token → Prop} (l : List Bytes) : Linked S (l.map .tried) := by
  induction l with
  | nil => trivial
  | cons s l ih => exact ih

theorem linked_at {S : Token → Prop} {u v : List Printed} {a b : TokenSet}
    (h : Linked S (u ++ .change a b :: v)) : ∀ t, follow S u t ↔ t ∈ a.tokens := by
  induction u generalizing S with
  | nil => exact h.1
  | cons e u ih =>
    cases e with
    | change a' b' =>
      intro t
      have := ih h.2 t
      rw [← this]
      have e : (fun t => (S t ∧ ¬ (t ∈ a'.tokens ∧ t ∉ b'.tokens)) ∨ (t ∈ b'.tokens ∧ t ∉ a'.tokens)) =
          (fun t => t ∈ b'.tokens) := by
        funext t
        refine propext ?_
        rw [h.1 t]
        by_cases ha : t ∈ a'.tokens <;> by_cases hb : t ∈ b'.tokens <;> simp [ha, hb]
      show follow (fun t => (S t ∧ ¬ (t ∈ a'.tokens ∧ t ∉ b'.tokens)) ∨ (t ∈ b'.tokens ∧ t ∉ a'.tokens)) u t ↔ _
      rw [e]
    | _ => exact ih h

theorem roundOut_linked {ts rc st rc' out} {S : Token → Prop}
    (h : RoundOut env bo Fam hi ntokens ts rc st rc' out) (hS : ∀ t, S t ↔ t ∈ ts.tokens) : Linked S out := by
  cases h with
  | quiet _ => trivial
  | change h _ => exact ⟨hS, trivial⟩
  | gaveUp h => exact linked_follow (linked_tried _) trivial
  | exchange _ _ h _ =>
    refine linked_follow (l := _ :: List.map _ _) (linked_tried _) ?_
    show Linked (follow S (List.map _ _)) _
    rw [follow_tried]
    exact ⟨hS, trivial⟩

theorem story_linked (B : Behaves bo Fam lo hi ntokens) {ts rc ts' out}
    (h : Story env bo Fam hi ntokens ts rc ts' out) : ∀ {S : Token → Prop}, (∀ t, S t ↔ t ∈ ts.tokens) →
    Linked S out := by
  induction h with
  | stop h => exact fun hS => roundOut_linked h hS
  | again h h2 _ _ ih =>
    intro S hS
    refine linked_follow (linked_follow (roundOut_linked h hS) ?_) ?_
    · rcases h2 with rfl | rfl <;> trivial
    · rw [follow_append, follow_saved h2]
      exact ih (roundOut_follow B h hS)

/-! ### A whole optimization -/

/-- The output of an optimization that succeeds. -/
theorem told (he : EnvOk env) {ty : TokenType} {p : Processing} {pre : Option TokenSet}
    (hp : Props.CanStart ty p ntokens pre) {st : TokenStats} {w : World} {out : List Printed}
    (h : OptimizeTokensetT env ntokens p ty pre (.ok st) w out) :
    ∃ start full Fam lo hi ts' o, StartsWith env ntokens p ty pre start ∧ Fresh env start full ∧
      Behaves (optimizerFor ty) Fam lo hi ntokens ∧ Fam start ∧ start.tokens.length ≤ ntokens ∧
      out = .initial start.tokens.length full.cloneWithoutPairs :: o ∧
      Story env (optimizerFor ty) Fam hi ntokens start (fun _ => 0) ts' o ∧
      SameSet st.tokenSet ts' ∧ tot env ts' = st.totalTokens := by
  have main : ∀ start w0, StartsWith env ntokens p ty pre start → Workable ty p ntokens start → Reached env w0 →
      ImplT env (optimizerFor ty) ntokens start w0 (.ok st) w out →
      ∃ start full Fam lo hi ts' o, StartsWith env ntokens p ty pre start ∧ Fresh env start full ∧
        Behaves (optimizerFor ty) Fam lo hi ntokens ∧ Fam start ∧ start.tokens.length ≤ ntokens ∧
        out = .initial start.tokens.length full.cloneWithoutPairs :: o ∧
        Story env (optimizerFor ty) Fam hi ntokens start (fun _ => 0) ts' o ∧
        SameSet st.tokenSet ts' ∧ tot env ts' = st.totalTokens := by
    intro start w0 hsw hwk hr hi
    obtain ⟨Fam, lo, hi', B, hl, _⟩ := workable_behaves hwk
    cases hi with
    | done h1 h2 h3 =>
      rename_i _ _ ts' _ _
      have hwp : (getStats start).wp env (fun _ => False)
          (fun r => ∃ full, r = .ok full.cloneWithoutPairs ∧ Fresh env start full) :=
        ⟨B.family hl.fam, fun st hst => ⟨st, rfl, hst⟩⟩
      obtain ⟨⟨full, e, hfull⟩, hw1, _⟩ := wp_sound he h1 hwp (reached_ok hr)
      have e := Except.ok.inj e
      subst e
      obtain ⟨tsx, e, hstory⟩ := loopT_story B he h2 hl hw1
      have e := Except.ok.inj e
      subst e
      obtain ⟨ts'', e, b1, b2, b3, b4, _⟩ := loop_ok B he (loopT_loop h2) hl hw1
      have e := Except.ok.inj e
      subst e
      obtain ⟨ts3, hs⟩ := (sort_ok_iff ts').2 (Tokens.Family.usable (B.family b1.fam)).inRange
      have hss := (sort_sameSet hs).1
      have hF3 : Fam ts3 := B.keep b1.fam
        (usable_sameSet (Tokens.Family.usable (B.family b1.fam)) hss (sort_inRange hs)) (shrinks_sameSet hss)
        hss.header (sameSet_short hss)
      have hwp : (finish ts').wp env (fun _ => False)
          (fun r => ∃ full, r = .ok full.cloneWithoutPairs ∧ Fresh env ts3 full) := by
        unfold finish
        refine wp_lift hs ?_
        exact ⟨B.family hF3, fun st hst => ⟨st, rfl, hst⟩⟩
      obtain ⟨⟨full3, k1, k2⟩, _⟩ := wp_sound he h3 hwp b4
      have k1 := Except.ok.inj k1
      subst k1
      have hset : full3.tokenSet = ts3 := by
        have := (fresh_facts B hF3 k2).2.2.1
        rw [sort_idem hs] at this
        exact (Except.ok.inj this).symm
      have htot : tot env ts' = full3.totalTokens := by
        obtain ⟨x, hx⟩ := fresh_exists env (B.family b1.fam)
        have : Fresh env ts3 x := by
          obtain ⟨t, g1, g2⟩ := hx
          have := Except.ok.inj (hs.symm.trans g1)
          subst this
          exact ⟨ts3, sort_idem hs, g2⟩
        rw [fresh_unique k2 this, fresh_tot hx]
      refine ⟨start, full, Fam, lo, hi', ts', _, hsw, hfull, B, hl.fam, hl.size, rfl, hstory, ?_, htot⟩
      show SameSet full3.tokenSet ts'
      rw [hset]
      exact hss
  cases h with
  | run h1 h2 =>
    cases pre with
    | none =>
      obtain ⟨ts, e, hg, hw, hs⟩ := Props.start_run he hp h1
      cases e
      exact main _ _ ⟨_, h1⟩ hg.work hw h2
    | some ts =>
      have h1' := h1
      cases h1'
      exact main _ _ ⟨_, h1⟩ hp (reached_new env []) h2

/-- The exchanges read from their lines. -/
theorem exchanged_lines {plain : Char → Bool} (l : List Printed) : ∀ {x : List Text} {S : Token → Prop},
    List.Forall₂ (fun (p : TokenSet × TokenSet) line => Show.ShowDiff plain p.1 p.2 line) (exchanges l) x →
    ∃ ex : List (List Token × List Token), x = ex.map (exchangeLine plain) ∧
      ∀ t, follow S l t ↔ exchanged S ex t := by
  induction l with
  | nil => intro x S h; cases h; exact ⟨[], rfl, fun _ => Iff.rfl⟩
  | cons e l ih =>
    intro x S h
    cases e with
    | change a b =>
      cases h with
      | cons hp h =>
        obtain ⟨r, d, rfl, _, _, h1, h2, _⟩ := Props.C75_line _ _ _ _ hp
        obtain ⟨ex, rfl, h3⟩ := ih (S := fun t => (S t ∧ ¬ (t ∈ a.tokens ∧ t ∉ b.tokens)) ∨
          (t ∈ b.tokens ∧ t ∉ a.tokens)) h
        refine ⟨(r, d) :: ex, rfl, fun t => ?_⟩
        have e : (fun t => (S t ∧ ¬ (t ∈ a.tokens ∧ t ∉ b.tokens)) ∨ (t ∈ b.tokens ∧ t ∉ a.tokens)) =
            (fun t => (S t ∧ t ∉ r) ∨ t ∈ d) := by
          funext t
          rw [h1 t, h2 t]
        rw [e] at h3
        show follow (fun t => (S t ∧ ¬ (t ∈ a.tokens ∧ t ∉ b.tokens)) ∨ (t ∈ b.tokens ∧ t ∉ a.tokens)) l t ↔ _
        rw [e]
        exact h3 t
    | _ => exact ih h

/-! ### Rates -/

theorem fresh_scanned {ts : TokenSet} {st : TokenStats} (h : Fresh env ts st) :
    st.scannedBytes = (env.sampler.samples.map (·.length)).sum := by
  obtain ⟨ts', h1, h2⟩ := h
  exact (Props.C05_accounting ts' (sort_inRange h1) _ _ _ h2).2.1

/-- Fewer output tokens for the same bytes: the rate that is printed is not lower. -/
theorem rate_not_lower {st st' : TokenStats} (hs : st'.scannedBytes = st.scannedBytes)
    (ht : st'.totalTokens < st.totalTokens) :
    (Main.bytesPerToken st').lt (Main.bytesPerToken st) = false := by
  unfold Main.bytesPerToken F64.ofNat
  rw [hs]
  have hpos : 0 < round53 (st.totalTokens : ℚ) := round53_nat_pos (by omega)
  have hn : 0 ≤ round53 (st.scannedBytes : ℚ) := round53_nonneg (by exact_mod_cast Nat.zero_le _)
  rcases Nat.eq_zero_or_pos st'.totalTokens with h0 | h0
  · rw [h0]
    simp only [F64.div]
    rw [if_neg hpos.ne', if_pos (by simpa using round53_zero)]
    split
    · rfl
    · have : decide (round53 (st.scannedBytes : ℚ) < 0) = false := by simpa using hn
      rw [this]
      rfl
  · have hpos' : 0 < round53 (st'.totalTokens : ℚ) := round53_nat_pos h0
    simp only [F64.div]
    rw [if_neg hpos.ne', if_neg hpos'.ne']
    show decide _ = false
    rw [decide_eq_false_iff_not, not_lt]
    refine round53_mono (div_le_div_of_nonneg_left hn hpos' ?_)
    exact round53_mono (by exact_mod_cast ht.le)

theorem rates_fresh {ts rc ts' out}
    (h : Story env bo Fam hi ntokens ts rc ts' out) :
    ∀ st ∈ rates out, ∃ a full, Fresh env a full ∧ st = full.cloneWithoutPairs := by
  induction h with
  | stop h =>
    intro st hst
    rw [roundOut_rates h] at hst
    simp at hst
  | again h h2 _ _ ih =>
    intro st hst
    rw [rates_append, rates_append, rates_saved h2, List.append_nil, roundOut_rates h] at hst
    rcases List.mem_append.1 hst with hst | hst
    · simp at hst
      subst hst
      obtain ⟨a, hc⟩ := roundOut_changed h
      obtain ⟨full, h1, h2⟩ := hc.fresh
      exact ⟨a, full, h1, h2⟩
    · exact ih st hst

theorem story_fam {ts rc ts' out} (h : Story env bo Fam hi ntokens ts rc ts' out) : Fam ts →
    ∀ a b, Printed.change a b ∈ out → Fam a := by
  have round : ∀ {ts rc st rc' o}, RoundOut env bo Fam hi ntokens ts rc st rc' o → Fam ts →
      ∀ a b, Printed.change a b ∈ o → Fam a := by
    intro ts rc st rc' o h hf a b hm
    cases h with
    | quiet _ => simp at hm
    | change _ _ => simp at hm; rw [hm.1]; exact hf
    | gaveUp _ => simp at hm
    | exchange _ _ _ _ => simp at hm; rw [hm.1]; exact hf
  induction h with
  | stop h => exact round h
  | again h h2 hset _ ih =>
    intro hf a b hm
    rcases List.mem_append.1 hm with hm | hm
    · rcases List.mem_append.1 hm with hm | hm
      · exact round h hf a b hm
      · rcases h2 with rfl | rfl <;> simp at hm
    · exact ih hset.1 a b hm

theorem story_before (B : Behaves bo Fam lo hi ntokens) {ts rc ts' u v a b}
    (h : Story env bo Fam hi ntokens ts rc ts' (u ++ .change a b :: v)) (hf : Fam ts) :
    ∃ fa, Fresh env a fa := fresh_exists env (B.family (story_fam h hf a b (by simp)))

theorem follow_still {S : Token → Prop} : ∀ {l : List Printed}, (∀ a b, Printed.change a b ∉ l) → follow S l = S
  | [], _ => rfl
  | e :: l, h => by
    have ih := follow_still (S := S) (l := l) (fun a b hm => h a b (by simp [hm]))
    cases e with
    | change a b => exact absurd (by simp) (h a b)
    | _ => exact ih

end Optimize
end Tokens
