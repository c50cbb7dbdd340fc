import Verif.Proofs.Log

/-! What a round of the optimizer prints. -/

set_option linter.unusedSimpArgs false
set_option linter.unusedVariables false

namespace Tokens
open Spec TokenSet Batch OptimizeBytes

namespace Optimize

variable {env : Env} {S : TokenSet → Prop} {bo : BytesOptimizer} {Fam : TokenSet → Prop}
  {lo hi ntokens : Nat}

/-- What comes after a call. -/
def afterCall {α β : Type} (f : β → Prop) (Q : R α → List Printed → Prop) : R β → Prop
  | .ok b => f b
  | .error e => Q (.error e) []

/-- Weakest preconditions for programs that print. -/
def Talk.wp (env : Env) (S : TokenSet → Prop) {α : Type} : Talk α → (R α → List Printed → Prop) → Prop
  | .pure a, Q => Q (.ok a) []
  | .say e k, Q => k.wp env S (fun r o => Q r (e :: o))
  | .call p k, Q => p.wp env S (afterCall (fun b => (k b).wp env S Q) Q)

theorem talk_sound (he : EnvOk env) {α : Type} {t : Talk α} {w w' : World} {r : R α} {o : List Printed}
    (hr : RunT env t w r w' o) : ∀ {Q : R α → List Printed → Prop}, t.wp env S Q → WorldOk env w →
      Q r o ∧ WorldOk env w' ∧ Wrote S w w' := by
  induction hr with
  | pure => exact fun h hw => ⟨h, hw, .refl _ _⟩
  | say _ ih => exact fun h hw => ih h hw
  | call h _ ih =>
    intro Q hq hw
    obtain ⟨a, b, c⟩ := wp_sound he h hq hw
    obtain ⟨a', b', c'⟩ := ih a b
    exact ⟨a', b', c.trans c'⟩
  | callFail h => exact fun hq hw => wp_sound he h hq hw

theorem talk_mono {α : Type} (t : Talk α) : ∀ {Q Q' : R α → List Printed → Prop}, (∀ r o, Q r o → Q' r o) →
    t.wp env S Q → t.wp env S Q' := by
  induction t with
  | pure a => exact fun h => h _ _
  | say e k ih => exact fun h => ih (fun r o => h r _)
  | call p k ih =>
    intro Q Q' h hp
    refine wp_mono p ?_ hp
    intro r hr
    cases r with
    | ok b => exact ih b h hr
    | error e => exact h _ _ hr

theorem talk_bind {α β : Type} (t : Talk α) {f : α → Talk β} : ∀ {Q : R β → List Printed → Prop},
    t.wp env S (fun r o => match r with
      | .ok a => (f a).wp env S (fun r o' => Q r (o ++ o'))
      | .error e => Q (.error e) o) → (t >>= f).wp env S Q := by
  show ∀ {Q : R β → List Printed → Prop}, _ → (t.bind f).wp env S Q
  induction t with
  | pure a => exact fun h => h
  | say e k ih => exact fun h => ih h
  | call p k ih =>
    intro Q h
    refine wp_mono p ?_ h
    intro r hr
    cases r with
    | ok b => exact ih b hr
    | error e => exact hr

theorem talk_call {α β : Type} {p : Prog α} {f : α → Talk β} {Q : R β → List Printed → Prop}
    {P : R α → Prop} (h : p.wp env S P) (hf : ∀ r, P r → ∃ a, r = .ok a ∧ (f a).wp env S Q) :
    (silent p >>= f).wp env S Q := by
  refine wp_mono p ?_ h
  intro r hr
  obtain ⟨a, rfl, h⟩ := hf r hr
  exact h

theorem talk_lift {α β : Type} {x : R α} {a : α} (hx : x = .ok a) {f : α → Talk β}
    {Q : R β → List Printed → Prop} (h : (f a).wp env S Q) : (silent (Prog.lift x) >>= f).wp env S Q := by
  subst hx
  exact h

theorem talk_stats {β : Type} {ts : TokenSet} {f : TokenStats → Talk β} {Q : R β → List Printed → Prop}
    (hf : Family ts) (h : ∀ st, Fresh env ts st → (f st.cloneWithoutPairs).wp env S Q) :
    (silent (getStats ts) >>= f).wp env S Q := ⟨hf, h⟩

theorem talk_pairs {β : Type} {ts : TokenSet} {f : TokenStats → Talk β} {Q : R β → List Printed → Prop}
    (hf : Family ts) (h : ∀ st, Fresh env ts st → (f st).wp env S Q) :
    (silent (getStatsWithPairs ts) >>= f).wp env S Q := ⟨hf, h⟩

theorem talk_say {β : Type} {e : Printed} {f : Unit → Talk β} {Q : R β → List Printed → Prop}
    (h : (f ()).wp env S (fun r o => Q r (e :: o))) : (say e >>= f).wp env S Q := h

/-! ### The output of a round -/

/-- A change that was made: to the set `a`, which was printed, with the statistics `st`. -/
structure Changed (env : Env) (bo : BytesOptimizer) (Fam : TokenSet → Prop) (hi ntokens : Nat) (ts a : TokenSet)
    (st : TokenStats) : Prop where
  better : Better env bo Fam hi ntokens ts a
  fresh : ∃ full, Fresh env a full ∧ st = full.cloneWithoutPairs

/-- Bumping several counts. -/
def Removals.bumps (rc : Removals) (l : List Bytes) : Removals := fun x => rc x + l.count x

theorem bumps_nil (rc : Removals) : rc.bumps [] = rc := by funext x; simp [Removals.bumps]

theorem bumps_cons (rc : Removals) (s : Bytes) (l : List Bytes) : (rc.bump s).bumps l = rc.bumps (s :: l) := by
  funext x
  unfold Removals.bumps Removals.bump
  by_cases h : x = s
  · subst h
    rw [if_pos rfl, List.count_cons_self]; omega
  · rw [if_neg h, List.count_cons_of_ne (Ne.symm h)]

theorem talk_removeLoop (B : Behaves bo Fam lo hi ntokens) {ts : TokenSet} (hf : Fam ts)
    (hsize : ts.tokens.length = ntokens) (l : List Bytes) :
    ∀ rc, (∀ s ∈ l, s ∈ longTokens ts) →
    (removeLoopT bo ts ntokens (tot env ts) l rc).wp env S (fun r out => ∃ o rc', r = .ok (o, rc') ∧
      ((o = none ∧ rc' = rc.bumps l ∧ out = l.map .tried ++ [.newline]) ∨
      ∃ st a tr rest, o = some st ∧ l = tr ++ rest ∧ tr ≠ [] ∧ rc' = rc.bumps tr ∧
        out = tr.map .tried ++ [.newline, .change ts a, .rate st] ∧
        Fam a ∧ a.tokens.length = ntokens ∧ tot env a < tot env ts ∧
        ∃ full, Fresh env a full ∧ st = full.cloneWithoutPairs)) := by
  induction l with
  | nil => intro rc _; exact ⟨none, rc, rfl, .inl ⟨rfl, (bumps_nil rc).symm, rfl⟩⟩
  | cons s rest ih =>
    intro rc hl
    obtain ⟨idx, ts1, h1, h2, h3, h4, h5⟩ := remove_long B hf (hl s (by simp))
    have ih' := ih (rc.bump s) (fun x hx => hl x (by simp [hx]))
    have next : (removeLoopT bo ts ntokens (tot env ts) rest (rc.bump s)).wp env S (fun r out =>
        ∃ o rc', r = .ok (o, rc') ∧
      ((o = none ∧ rc' = rc.bumps (s :: rest) ∧ Printed.tried s :: out = (s :: rest).map .tried ++ [.newline]) ∨
      ∃ st a tr rest', o = some st ∧ s :: rest = tr ++ rest' ∧ tr ≠ [] ∧ rc' = rc.bumps tr ∧
        Printed.tried s :: out = tr.map .tried ++ [.newline, .change ts a, .rate st] ∧
        Fam a ∧ a.tokens.length = ntokens ∧ tot env a < tot env ts ∧
        ∃ full, Fresh env a full ∧ st = full.cloneWithoutPairs)) := by
      refine talk_mono _ ?_ ih'
      rintro r out ⟨o, rc', rfl, h | ⟨st, a, tr, rest', e1, e2, e3, e4, e5, e6⟩⟩
      · refine ⟨o, rc', rfl, .inl ⟨h.1, ?_, ?_⟩⟩
        · rw [h.2.1, bumps_cons]
        · rw [h.2.2]; rfl
      · refine ⟨o, rc', rfl, .inr ⟨st, a, s :: tr, rest', e1, ?_, by simp, ?_, ?_, e6⟩⟩
        · rw [e2]; rfl
        · rw [e4, bumps_cons]
        · rw [e5]; rfl
    unfold removeLoopT
    refine talk_say ?_
    refine talk_lift (a := idx) (by rw [h1]; rfl) ?_
    refine talk_lift h2 ?_
    refine talk_lift (a := ntokens - 1) (subR_of (by omega)) ?_
    refine talk_lift (a := ()) (rassert_true (by
      show (ts1.tokens.length == ntokens - 1) = true
      simp; omega)) ?_
    refine talk_call (wp_addToken B h3 (by omega)) ?_
    rintro r ⟨o, rfl, ho⟩
    refine ⟨o, rfl, ?_⟩
    cases o with
    | none => exact next
    | some ts2 =>
      have ha := ho ts2 rfl
      dsimp only
      refine talk_stats (B.family ha.fam) ?_
      intro st2 hst2
      have htot := fresh_tot hst2
      by_cases hcmp : st2.cloneWithoutPairs.totalTokens < tot env ts
      · rw [if_pos hcmp]
        refine ⟨_, _, rfl, .inr ⟨st2.cloneWithoutPairs, ts2, [s], rest, rfl, rfl, by simp, ?_, rfl, ha.fam,
          by rw [ha.size]; omega, by rw [htot]; exact hcmp, st2, hst2, rfl⟩⟩
        rw [← bumps_cons, bumps_nil]
      · rw [if_neg hcmp]
        exact next

theorem talk_tradeByte (B : Behaves bo Fam lo hi ntokens) {ts : TokenSet} (hf : Fam ts)
    (hsize : ts.tokens.length = ntokens) {st : TokenStats} (hst : Fresh env ts st) :
    (tradeByteT bo ts ntokens st.cloneWithoutPairs).wp env S (fun r out => ∃ o, r = .ok o ∧
      ((o = none ∧ out = []) ∨ ∃ st' a, o = some st' ∧ out = [.change ts a, .rate st'] ∧
        Fam a ∧ a.tokens.length = ntokens ∧ tot env a < tot env ts ∧
        ∃ full, Fresh env a full ∧ st' = full.cloneWithoutPairs)) := by
  obtain ⟨f1, f2, f3, f4, f5, f6⟩ := fresh_facts B hf hst
  obtain ⟨s1, s2, s3, s4⟩ := fresh_sorted B hf hst
  obtain ⟨e1, e2, e3⟩ := size_of B hf
  have hb := B.bounds hf
  have hm := B.min_lo hf
  unfold tradeByteT
  refine talk_lift (a := shortCount ts) (by rw [e1, e2, subR_of (by omega)]; congr 1; omega) ?_
  by_cases hgt : shortCount ts > ts.minBytesExtTokens
  · rw [if_pos hgt]
    refine talk_lift (a := shortCount ts - 1) (subR_of (by omega)) ?_
    have f5' : CountsFit st.cloneWithoutPairs := ⟨f5.tokens, f5.seqs⟩
    obtain ⟨ts1, h1, h2, h3, h4⟩ := B.opt (st := st.cloneWithoutPairs) (n := shortCount ts - 1) f1 f5'
      (by omega) (by omega)
    have g := size_of B h2
    have hlen : ts1.tokens.length = ntokens - 1 := by
      rw [← g.2.2, g.1, h3, h4]
      have := (sameSet_long f2).length_eq
      show min (shortCount ts - 1) hi + (longTokens st.tokenSet).length = ntokens - 1
      omega
    refine talk_lift h1 ?_
    refine talk_lift (a := ntokens - 1) (subR_of (by omega)) ?_
    refine talk_lift (a := ()) (rassert_true (by
      show (ts1.tokens.length == ntokens - 1) = true
      simp; omega)) ?_
    refine talk_pairs (B.family h2) ?_
    intro st1 hst1
    obtain ⟨k1, k2, k3, k4, k5, k6⟩ := fresh_facts B h2 hst1
    obtain ⟨m1, m2, m3, m4⟩ := fresh_sorted B h2 hst1
    rcases bpe_ok B k1 k4 with c1 | ⟨tc, dc, sc, c1, c2, c3, c4, c5, c6, c7⟩
    · refine talk_lift c1 ?_
      exact ⟨none, rfl, .inl ⟨rfl, rfl⟩⟩
    · refine talk_lift c1 ?_
      refine talk_stats (B.family c2) ?_
      intro st2 hst2
      have htot := fresh_tot hst2
      by_cases hcmp : st2.cloneWithoutPairs.totalTokens < st.cloneWithoutPairs.totalTokens
      · rw [if_pos hcmp]
        refine ⟨_, rfl, .inr ⟨st2.cloneWithoutPairs, tc, rfl, rfl, c2, by omega, ?_, st2, hst2, rfl⟩⟩
        rw [htot, fresh_tot hst]; exact hcmp
      · rw [if_neg hcmp]
        exact ⟨none, rfl, .inl ⟨rfl, rfl⟩⟩
  · rw [if_neg hgt]
    exact ⟨none, rfl, .inl ⟨rfl, rfl⟩⟩

/-- The attempts of a round: their order, and what was tried. -/
structure Attempts (ts : TokenSet) (ntokens : Nat) (rc : Removals) (order : List Bytes) : Prop where
  full : ts.tokens.length = ntokens
  perm : order.Perm (longTokens ts)
  sorted : order.Pairwise (fun a b => rc a ≤ rc b)

/-- The output of a round. -/
inductive RoundOut (env : Env) (bo : BytesOptimizer) (Fam : TokenSet → Prop) (hi ntokens : Nat) (ts : TokenSet)
    (rc : Removals) : Option TokenStats → Removals → List Printed → Prop where
  | quiet (h : ts.tokens.length < ntokens) : RoundOut env bo Fam hi ntokens ts rc none rc []
  | change {a st} (h : Changed env bo Fam hi ntokens ts a st)
      (hs : ts.tokens.length = ntokens → tot env a < tot env ts) :
      RoundOut env bo Fam hi ntokens ts rc (some st) rc [.change ts a, .rate st]
  | gaveUp {order} (h : Attempts ts ntokens rc order) : RoundOut env bo Fam hi ntokens ts rc none (rc.bumps order)
      (.removing :: (order.map .tried ++ [.newline]))
  | exchange {tr rest a st} (h : Attempts ts ntokens rc (tr ++ rest)) (hne : tr ≠ [])
      (hc : Changed env bo Fam hi ntokens ts a st) (hs : tot env a < tot env ts) :
      RoundOut env bo Fam hi ntokens ts rc (some st) (rc.bumps tr)
        (.removing :: (tr.map .tried ++ [.newline, .change ts a, .rate st]))

theorem talk_removeAdd (B : Behaves bo Fam lo hi ntokens) {ts : TokenSet} (hf : Fam ts)
    (hsize : ts.tokens.length ≤ ntokens) (rc : Removals) :
    (removeAddTokenT bo ts ntokens rc).wp env S (fun r out => ∃ o rc', r = .ok (o, rc') ∧
      RoundOut env bo Fam hi ntokens ts rc o rc' out) := by
  unfold removeAddTokenT
  by_cases hlt : ts.tokens.length < ntokens
  · rw [if_pos (show ts.ntokens < ntokens from hlt)]
    refine talk_call (wp_addToken B hf hlt) ?_
    rintro r ⟨o, rfl, ho⟩
    refine ⟨o, rfl, ?_⟩
    cases o with
    | none => exact ⟨none, rc, rfl, .quiet hlt⟩
    | some ts' =>
      have ha := ho ts' rfl
      dsimp only
      refine talk_stats (B.family ha.fam) ?_
      intro st hst
      refine ⟨_, _, rfl, .change ⟨⟨ha.fam, by rw [ha.size]; omega, .inr ha.size, ?_, ?_⟩, st, hst, rfl⟩
        (fun h => by omega)⟩
      · rintro (h | h | h)
        · exact ha.less (.inl h)
        · exact ha.less (.inr h)
        · omega
      · rintro (h | h | h)
        · exact .inl h
        · exact .inr (.inl (ha.short h))
        · omega
  · have heq : ts.tokens.length = ntokens := by omega
    rw [if_neg (show ¬ ts.ntokens < ntokens from hlt)]
    refine talk_lift (a := ()) (rassert_true (by
      show (ts.tokens.length == ntokens) = true
      simp; omega)) ?_
    refine talk_stats (B.family hf) ?_
    intro st hst
    have better : ∀ ts', Fam ts' → ts'.tokens.length = ntokens → tot env ts' < tot env ts →
        Better env bo Fam hi ntokens ts ts' := by
      intro ts' h1 h2 h3
      exact ⟨h1, by omega, .inl ⟨h3, by omega⟩, fun _ => by omega, fun _ => .inr (.inr h2)⟩
    refine talk_bind _ ?_
    refine talk_mono _ ?_ (talk_tradeByte B hf heq hst)
    rintro r out ⟨o, rfl, ⟨rfl, rfl⟩ | ⟨st', a, rfl, rfl, h1, h2, h3, hfull⟩⟩
    · dsimp only
      intro l hp hs
      have : tot env ts = st.cloneWithoutPairs.totalTokens := (fresh_tot hst).trans rfl
      show (removeLoopT bo ts ntokens st.cloneWithoutPairs.totalTokens l rc).wp env S _
      rw [← this]
      have hperm : l.Perm (longTokens ts) := by rw [← longStrings_eq]; exact hp
      refine talk_mono _ ?_ (talk_removeLoop B hf heq l rc (by
        intro s hs
        exact hperm.mem_iff.1 hs))
      rintro r out ⟨o, rc', rfl, ⟨rfl, rfl, rfl⟩ | ⟨st', a, tr, rest, rfl, rfl, hne, rfl, rfl, h1, h2, h3, hfull⟩⟩
      · exact ⟨_, _, rfl, .gaveUp ⟨heq, hperm, hs⟩⟩
      · exact ⟨_, _, rfl, .exchange ⟨heq, hperm, hs⟩ hne ⟨better a h1 h2 h3, hfull⟩ h3⟩
    · exact ⟨_, _, rfl, .change ⟨better a h1 h2 h3, hfull⟩ (fun _ => h3)⟩

theorem talk_step (B : Behaves bo Fam lo hi ntokens) {ts : TokenSet} (hf : Fam ts)
    (hsize : ts.tokens.length ≤ ntokens) (rc : Removals) :
    (optimizationStepT bo ts ntokens rc).wp env S (fun r out => ∃ o rc', r = .ok (o, rc') ∧
      ∃ st, RoundOut env bo Fam hi ntokens ts rc st rc' out ∧ o = st.map TokenStats.tokenSet) := by
  unfold optimizationStepT
  refine talk_stats (B.family hf) ?_
  intro st hst
  obtain ⟨f1, f2, f3, f4, f5, f6⟩ := fresh_facts B hf hst
  obtain ⟨s1, s2, s3, s4⟩ := fresh_sorted B hf hst
  obtain ⟨e1, e2, e3⟩ := size_of B hf
  have hb := B.bounds hf
  have htot := fresh_tot hst
  refine talk_lift (a := ntokens - (longTokens ts).length) (by rw [e2, subR_of (by omega)]) ?_
  have f5' : CountsFit st.cloneWithoutPairs := ⟨f5.tokens, f5.seqs⟩
  obtain ⟨ts1, h1, h2, h3, h4⟩ := B.opt (st := st.cloneWithoutPairs) (n := ntokens - (longTokens ts).length)
    f1 f5' (by omega) (by omega)
  have g := size_of B h2
  have hl := (sameSet_long f2).length_eq
  have hlen : ts1.tokens.length = min (ntokens - (longTokens ts).length) hi + (longTokens ts).length := by
    rw [← g.2.2, g.1, h3, h4]
    show min _ hi + (longTokens st.tokenSet).length = _
    omega
  refine talk_lift h1 ?_
  refine talk_stats (B.family h2) ?_
  intro st1 hst1
  have htot1 := fresh_tot hst1
  by_cases hcmp : st1.cloneWithoutPairs.totalTokens < st.cloneWithoutPairs.totalTokens
  · rw [if_pos hcmp]
    have hlt : tot env ts1 < tot env ts := by rw [htot, htot1]; exact hcmp
    refine ⟨_, _, rfl, _, .change ⟨⟨h2, by omega, .inl ⟨hlt, by omega⟩, fun _ => by omega, ?_⟩, st1, hst1, rfl⟩
      (fun _ => hlt), rfl⟩
    rintro (h | h | h)
    · exact .inl h
    · right
      rcases Nat.lt_or_ge ts.tokens.length ntokens with hl' | hl'
      · left; omega
      · right; omega
    · right; right; omega
  · rw [if_neg hcmp]
    refine talk_bind _ ?_
    refine talk_mono _ ?_ (talk_removeAdd B hf hsize rc)
    rintro r out ⟨o, rc', rfl, hout⟩
    cases o with
    | none =>
      refine ⟨_, _, rfl, none, ?_, rfl⟩
      rw [List.append_nil]
      exact hout
    | some st2 =>
      dsimp only
      have hch : ∃ a, Changed env bo Fam hi ntokens ts a st2 := by
        cases hout with
        | change h _ => exact ⟨_, h⟩
        | exchange _ _ h _ => exact ⟨_, h⟩
      obtain ⟨a, hch⟩ := hch
      obtain ⟨full, hfr, rfl⟩ := hch.fresh
      have hs := better_sorted B hch.better hfr
      refine talk_lift (a := ()) (rassert_true ?_) ?_
      · have := hs.size
        show decide (full.tokenSet.tokens.length ≤ ntokens) = true
        simpa using this
      · refine ⟨_, _, rfl, some full.cloneWithoutPairs, ?_, rfl⟩
        rw [List.append_nil]
        exact hout

theorem talk_maybeSave {ts : TokenSet} (h1 : S ts) (h2 : SeqsInRange ts) :
    (maybeSaveT ts).wp env S (fun r out => r = .ok () ∧ (out = [] ∨ out = [.writing ts])) := by
  unfold maybeSaveT
  intro b
  cases b with
  | true => exact ⟨h1, h2, rfl, .inr rfl⟩
  | false => exact ⟨rfl, .inl rfl⟩

end Optimize
end Tokens
