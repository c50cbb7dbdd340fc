import Verif.Props.Progress
import Verif.Props.Disk

/-!
The sizes of the sets that the optimizer writes on the way: from the size it starts with to the size it ends
with, and, if the clock says so, all of them.
-/

set_option linter.unusedVariables false

namespace Tokens
open Spec TokenSet Batch OptimizeBytes

namespace Optimize

variable {env : Env} {S : TokenSet → Prop} {bo : BytesOptimizer} {Fam : TokenSet → Prop} {lo hi ntokens : Nat}

/-- All short tokens are there, or the set is full. -/
def Full (hi ntokens : Nat) (ts : TokenSet) : Prop := shortCount ts = hi ∨ ts.tokens.length = ntokens

/-- From such a set a step adds at most one token. -/
theorem wp_step_next (B : Behaves bo Fam lo hi ntokens) {ts : TokenSet} (hf : Fam ts)
    (hsize : ts.tokens.length ≤ ntokens) (hfull : Full hi ntokens ts) (rc : Removals) :
    (optimizationStep bo ts ntokens rc).wp env S (fun r => ∃ o rc', r = .ok (o, rc') ∧
      ∀ ts', o = some ts' → ts'.tokens.length ≤ ts.tokens.length + 1 ∧ Full hi ntokens ts') := by
  unfold optimizationStep
  refine wp_getStats (B.family hf) ?_
  intro st hst
  obtain ⟨f1, f2, f3, f4, f5, f6⟩ := fresh_facts B hf hst
  obtain ⟨e1, e2, e3⟩ := size_of B hf
  have hb := B.bounds hf
  refine wp_lift (a := ntokens - (longTokens ts).length) (by rw [e2, subR_of (by omega)]) ?_
  have f5' : CountsFit st.cloneWithoutPairs := ⟨f5.tokens, f5.seqs⟩
  obtain ⟨ts1, h1, h2, h3, h4⟩ := B.opt (st := st.cloneWithoutPairs) (n := ntokens - (longTokens ts).length)
    f1 f5' (by omega) (by omega)
  have g := size_of B h2
  have hl := (sameSet_long f2).length_eq
  have hlen : ts1.tokens.length = min (ntokens - (longTokens ts).length) hi + (longTokens ts).length := by
    rw [← g.2.2, g.1, h3, h4]
    show min _ hi + (longTokens st.tokenSet).length = _
    omega
  refine wp_lift h1 ?_
  refine wp_getStats (B.family h2) ?_
  intro st1 hst1
  by_cases hcmp : st1.cloneWithoutPairs.totalTokens < st.cloneWithoutPairs.totalTokens
  · rw [if_pos hcmp]
    refine ⟨_, _, rfl, ?_⟩
    intro ts' h
    cases h
    obtain ⟨_, _, s3, s4⟩ := fresh_sorted B h2 hst1
    show st1.tokenSet.tokens.length ≤ _ ∧ Full hi ntokens st1.tokenSet
    unfold Full at hfull ⊢
    rw [s3, s4]
    rcases hfull with h | h
    · exact ⟨by omega, .inl (by omega)⟩
    · exact ⟨by omega, .inr (by omega)⟩
  · rw [if_neg hcmp]
    apply wp_bind'
    have main : (removeAddToken bo ts ntokens rc).wp env S (fun r => ∃ o rc', r = .ok (o, rc') ∧
        ∀ st, o = some st → ∃ ts', Fam ts' ∧ ts'.tokens.length ≤ ntokens ∧
          ts'.tokens.length ≤ ts.tokens.length + 1 ∧ Full hi ntokens ts' ∧
          ∃ full, Fresh env ts' full ∧ st = full.cloneWithoutPairs) := by
      by_cases hlt : ts.tokens.length < ntokens
      · have hshort : shortCount ts = hi := by
          rcases hfull with h | h
          · exact h
          · omega
        unfold removeAddToken
        rw [if_pos (show ts.ntokens < ntokens from hlt)]
        apply wp_bind'
        refine wp_mono _ ?_ (wp_addToken B hf hlt)
        rintro r ⟨o, rfl, ho⟩
        cases o with
        | none => exact ⟨none, rc, rfl, by intro st h; cases h⟩
        | some ts' =>
          have ha := ho ts' rfl
          refine wp_getStats (B.family ha.fam) ?_
          intro st hst
          refine ⟨_, _, rfl, ?_⟩
          intro st' h
          cases h
          have := ha.size
          exact ⟨ts', ha.fam, by omega, by omega, .inl (ha.short hshort), st, hst, rfl⟩
      · refine wp_mono _ ?_ (wp_removeAddToken B hf hsize rc)
        rintro r ⟨o, rc', rfl, ho⟩
        refine ⟨o, rc', rfl, ?_⟩
        intro st h
        obtain ⟨ts', hbet, full, hfr, e⟩ := ho st h
        have hs := hbet.size
        refine ⟨ts', hbet.fam, hs, by omega, .inr ?_, full, hfr, e⟩
        rcases hbet.progress with ⟨_, g⟩ | g <;> omega
    refine wp_mono _ ?_ main
    rintro r ⟨o, rc', rfl, ho⟩
    cases o with
    | none => exact ⟨none, rc', rfl, by intro ts' h; cases h⟩
    | some st2 =>
      obtain ⟨ts', k1, k2, k3, k4, full, hfr, rfl⟩ := ho st2 rfl
      obtain ⟨_, _, s3, s4⟩ := fresh_sorted B k1 hfr
      refine wp_lift (a := ()) (rassert_true ?_) ?_
      · show decide (full.tokenSet.tokens.length ≤ ntokens) = true
        rw [s3]
        simpa using k2
      · refine ⟨_, _, rfl, ?_⟩
        intro ts'' h
        cases h
        show full.tokenSet.tokens.length ≤ _ ∧ Full hi ntokens full.tokenSet
        unfold Full at k4 ⊢
        rw [s3, s4]
        exact ⟨k3, k4⟩

/-- With a clock that always says yes a set of each size is written. -/
theorem loop_every (B : Behaves bo Fam lo hi ntokens) (he : EnvOk env) (m : Nat × Nat) :
    ∀ (ts : TokenSet) (rc : Removals) (w : World), (ntokens - ts.tokens.length, tot env ts) = m →
      LoopSet Fam ntokens ts → Full hi ntokens ts → WorldOk env w →
      ∃ ts' w', Loop env bo ntokens ts rc w (.ok ts') w' ∧ w.saved <+: w'.saved ∧
        ∀ n, ts.tokens.length < n → n ≤ ts'.tokens.length →
          ∃ x, Fam x ∧ x.tokens.length = n ∧ ∃ f ∈ w'.saved, savedFile x = .ok f := by
  induction m using lex_wf.induction with
  | _ m ih =>
    intro ts rc w e hl hfl hw
    obtain ⟨r, w1, hrun⟩ := wp_total he _ (wp_step (env := env) (S := fun _ => False) B hl.fam hl.size rc) hw
    obtain ⟨h1, h2, o, rc', h3, h4⟩ := step_run B he hl hw hrun
    obtain ⟨⟨o', rc'', h3', h4'⟩, _⟩ := wp_sound he hrun
      (wp_step_next (env := env) (S := fun _ => False) B hl.fam hl.size hfl rc) hw
    have e3 := Except.ok.inj (h3.symm.trans h3')
    rw [Prod.mk.injEq] at e3
    obtain ⟨e4, e5⟩ := e3
    subst e4
    subst h3
    have hq : w1.saved = w.saved := by
      obtain ⟨l, e, hl⟩ := h2
      cases l with
      | nil => simpa using e
      | cons f l => obtain ⟨_, hf, _⟩ := hl f (by simp); exact hf.elim
    cases o with
    | none => exact ⟨_, _, .stop hrun, by rw [hq], fun n a b => by omega⟩
    | some ts' =>
      obtain ⟨hb, hsort⟩ := h4 ts' rfl
      obtain ⟨hn1, hn2⟩ := h4' ts' rfl
      have hl' : LoopSet Fam ntokens ts' := ⟨hb.fam, hb.size⟩
      obtain ⟨v, hv⟩ : ∃ v, ts'.toJson = .ok v := ⟨_, toJson_eq _ (Tokens.Family.usable (B.family hl'.fam)).inRange⟩
      have hf : savedFile ts' = .ok (ts'.name ++ ".json".toList, v.render) := by
        unfold savedFile
        rw [hv]
        rfl
      have hrun2 : Run env (maybeSave ts') w1 (.ok ()) ⟨w1.cache, w1.saved ++ [(ts'.name ++ ".json".toList, v.render)]⟩ := by
        unfold maybeSave
        exact .clock true (.save hf .pure)
      obtain ⟨g1, g2, g3⟩ := save_run B he ⟨hl', hsort⟩ h1 hrun2
      have hm := better_measure hb
      rw [e] at hm
      obtain ⟨ts3, w3, h5, h6, h7⟩ := ih _ hm ts' rc' _ rfl hl' hn2 g1
      refine ⟨ts3, w3, .again hrun hrun2 h5, ?_, ?_⟩
      · rw [← hq]
        exact (List.prefix_append _ _).trans h6
      · intro n a b
        by_cases hn : ts'.tokens.length < n
        · exact h7 n hn b
        · have : ts'.tokens.length = n := by omega
          exact ⟨ts', hb.fam, this, _, h6.subset (by simp), hf⟩

/-- All sets written so far have at least the size of the one to start with. -/
theorem saved_not_smaller (he : EnvOk env) {ty : TokenType} {p : Processing} {ts : TokenSet}
    (hi : GoodInput ty p ntokens (some ts)) {w : World} (h : PartTokenset env ntokens p ty (some ts) w) :
    ∀ f ∈ w.saved, ∃ x, Workable ty p ntokens x ∧ savedFile x = .ok f ∧ ts.tokens.length ≤ x.tokens.length := by
  obtain ⟨st, w', h1, h2⟩ := Props.C37_no_dead_end env he ty p ntokens (some ts) hi w h
  intro f hf
  have hf := h2.subset hf
  cases h1 with
  | run a1 a2 =>
    cases a1
    obtain ⟨Fam, lo, hh, B, hl, hall, _⟩ := workable_behaves hi
    obtain ⟨sets, ts', ⟨⟨fs, f1, f2⟩, f3, f4, f5⟩, _⟩ := impl_ahead B he hl (reached_ok (reached_new env [])) a2
    rw [f1, List.nil_append] at hf
    have : (.ok f : R (Text × Text)) ∈ sets.map savedFile := by rw [f2]; exact List.mem_map.2 ⟨f, hf, rfl⟩
    obtain ⟨x, hx, e⟩ := List.mem_map.1 this
    exact ⟨x, hall x (f3 x hx), e, (f5 x hx).size⟩

/-- The result has at least the size of the set to start with. -/
theorem result_not_smaller (he : EnvOk env) {ty : TokenType} {p : Processing} {ts : TokenSet}
    (hi : GoodInput ty p ntokens (some ts)) {w : World} {st : TokenStats}
    (h : OptimizeTokenset env ntokens p ty (some ts) (.ok st) w) :
    ts.tokens.length ≤ st.tokenSet.tokens.length := by
  cases h with
  | run a1 a2 =>
    cases a1
    obtain ⟨Fam, lo, hh, B, hl, hall, _⟩ := workable_behaves hi
    obtain ⟨full, e, _, _, _, h5, _⟩ := impl_ok B he hl (reached_ok (reached_new env [])) a2
    cases e
    exact h5

/-- From a set on there is a run that writes a set of each size that it comes by. -/
theorem every_impl (he : EnvOk env) {ty : TokenType} {p : Processing} {ts : TokenSet} {w : World}
    (hi : Workable ty p ntokens ts) (hr : Reached env w)
    (hfull : Full (fullShort ty) ntokens ts) :
    ∃ st w', Impl env (optimizerFor ty) ntokens ts w (.ok st) w' ∧
      ∀ n, ts.tokens.length < n → n ≤ st.tokenSet.tokens.length →
        ∃ x, Workable ty p ntokens x ∧ x.tokens.length = n ∧ ∃ f ∈ w'.saved, savedFile x = .ok f := by
  obtain ⟨Fam, lo, hi, B, hl, hall, hmono, rfl⟩ := workable_behaves' hi
  have hw0 := reached_ok hr
  have hwp : (getStats ts).wp env (Savable Fam ntokens) (fun r => ∃ st, r = .ok st) :=
    ⟨B.family hl.fam, fun st _ => ⟨_, rfl⟩⟩
  obtain ⟨r1, w1, h1⟩ := wp_total he _ hwp hw0
  obtain ⟨⟨st, rfl⟩, a1, _⟩ := wp_sound he h1 hwp hw0
  obtain ⟨ts'', w2, h2, h2', hev⟩ := loop_every B he _ ts (fun _ => 0) w1 rfl hl hfull a1
  obtain ⟨ts3, e, b1, b2, b3, b4, b5, _⟩ := loop_ok B he h2 hl a1
  have e := Except.ok.inj e
  subst e
  obtain ⟨ts3, hs⟩ := (sort_ok_iff ts'').2 (Tokens.Family.usable (B.family b1.fam)).inRange
  have hF3 : Family ts3 := sort_family (B.family b1.fam) hs
  have hwp3 : (finish ts'').wp env (Savable Fam ntokens)
      (fun r => ∃ full, r = .ok full.cloneWithoutPairs ∧ Fresh env ts3 full) := by
    unfold finish
    refine wp_lift hs ?_
    exact ⟨hF3, fun st hst => ⟨st, rfl, hst⟩⟩
  obtain ⟨r3, w3, h3⟩ := wp_total he _ hwp3 b4
  obtain ⟨⟨full, e3, t, q1, q2⟩, _, k4⟩ := wp_sound he h3 hwp3 b4
  subst e3
  refine ⟨full.cloneWithoutPairs, w3, .done h1 h2 h3, ?_⟩
  have hset : full.tokenSet = t := by
    obtain ⟨_, _, _, _, _, hsh, _, _⟩ := sync_inv (sort_inRange q1) q2
    exact hsh.tokenSet
  have hlen : full.cloneWithoutPairs.tokenSet.tokens.length = ts''.tokens.length := by
    show full.tokenSet.tokens.length = _
    rw [hset, (sort_sameSet q1).1.tokens.length_eq, (sort_sameSet hs).1.tokens.length_eq]
  intro n n1 n2
  obtain ⟨x, x1, x2, f, x3, x4⟩ := hev n n1 (by omega)
  exact ⟨x, hall x ⟨x1, by have := b1.size; omega⟩, x2, f, k4.prefix.subset x3, x4⟩

end Optimize

namespace Disk
open Main Input Props Optimize

/-- The saved files are named like files of sets with at least `lo` and at most `hi` tokens. -/
def Sized (ty : TokenType) (p : Processing) (lo hi : Nat) (saved : List (Text × Text)) : Prop :=
  ∀ f ∈ saved, ∃ n, lo ≤ n ∧ n ≤ hi ∧ f.1 = tokenFile n p ty

theorem Sized.mono {ty : TokenType} {p : Processing} {lo lo' hi : Nat} {saved : List (Text × Text)}
    (h : Sized ty p lo hi saved) (hl : lo' ≤ lo) : Sized ty p lo' hi saved := by
  intro f hf
  obtain ⟨n, h1, h2, h3⟩ := h f hf
  exact ⟨n, by omega, h2, h3⟩

theorem workable_file {ty : TokenType} {p : Processing} {ntokens : Nat} {x : TokenSet}
    (hw : Workable ty p ntokens x) {f : Text × Text} (h : savedFile x = .ok f) :
    f.1 = tokenFile x.tokens.length p ty := by
  obtain ⟨h1, _⟩ := written_saved (Tokens.Family.usable hw.family).inRange h
  rw [h1, tokenFile_name, hw.type, hw.processing]

theorem partTokenset_sized {env : Env} (he : EnvOk env) {ty : TokenType} {p : Processing} {ntokens : Nat}
    {ts : TokenSet} (hi : GoodInput ty p ntokens (some ts)) {w : World}
    (h : PartTokenset env ntokens p ty (some ts) w) : Sized ty p ts.tokens.length ntokens w.saved := by
  intro f hf
  obtain ⟨x, h1, h2, h3⟩ := saved_not_smaller he hi h f hf
  exact ⟨_, h3, h1.size, workable_file h1 h2⟩

theorem tokenset_sized {env : Env} (he : EnvOk env) {ty : TokenType} {p : Processing} {ntokens : Nat}
    {ts : TokenSet} (hi : GoodInput ty p ntokens (some ts)) {r : R TokenStats} {w : World}
    (h : OptimizeTokenset env ntokens p ty (some ts) r w) : Sized ty p ts.tokens.length ntokens w.saved := by
  obtain ⟨st, e, hres, hw⟩ := optimize_good he hi h
  subst e
  cases h with
  | run a1 a2 =>
    cases a1
    obtain ⟨Fam, lo, hh, B, hl, hall, _⟩ := workable_behaves hi
    obtain ⟨sets, ts', ⟨⟨fs, f1, f2⟩, f3, f4, f5⟩, _⟩ := impl_ahead B he hl (reached_ok (reached_new env [])) a2
    intro f hf
    rw [f1, List.nil_append] at hf
    have : (.ok f : R (Text × Text)) ∈ sets.map savedFile := by rw [f2]; exact List.mem_map.2 ⟨f, hf, rfl⟩
    obtain ⟨x, hx, e⟩ := List.mem_map.1 this
    have h1 := hall x (f3 x hx)
    exact ⟨_, (f5 x hx).size, h1.size, workable_file h1 e⟩

theorem partIncreasing_sized {m : Machine} (hm : MachineOk m) {file : Bytes} {ntokens : Nat} {p : Processing}
    {ty : TokenType} {n : Option Nat} {size : Nat} {o : Option TokenSet}
    {saved : List (Text × Text)} (h : PartIncreasing m file ntokens p ty n size o saved) :
    ∀ ts, o = some ts → GoodInput ty p ntokens o → Sized ty p ts.tokens.length ntokens saved := by
  induction h with
  | head => exact fun _ _ _ f hf => by simp at hf
  | @optimize size ts env w h hs hb ho =>
    rintro ts rfl hi
    obtain ⟨env', h1, h2, _⟩ := sampleEnv_ok hm file size n
    have := Except.ok.inj (h1.symm.trans hs)
    subst this
    exact partTokenset_sized h2 hi ho
  | @after size ts env st w h hs hb ho =>
    rintro ts rfl hi
    obtain ⟨env', h1, h2, _⟩ := sampleEnv_ok hm file size n
    have := Except.ok.inj (h1.symm.trans hs)
    subst this
    exact tokenset_sized h2 hi ho
  | @again size ts env st w st' saved h hs hb ho hf hstop hr ih =>
    rintro ts rfl hi
    obtain ⟨env', h1, h2, _⟩ := sampleEnv_ok hm file size n
    have := Except.ok.inj (h1.symm.trans hs)
    subst this
    obtain ⟨st1, e1, hres, hw⟩ := optimize_good h2 hi ho
    have := Except.ok.inj e1
    subst this
    intro f hf
    rcases List.mem_append.1 hf with h | h
    · exact tokenset_sized h2 hi ho f h
    · exact (ih _ rfl hw).mono (result_not_smaller h2 hi ho) f h

theorem partOptimized_sized {m : Machine} (hm : MachineOk m) {data : Bytes} {ntokens : Nat} {p : Processing}
    {ty : TokenType} {rawSize : Nat} {ts : TokenSet} (hi : GoodInput ty p ntokens (some ts))
    {minSize : Option Nat} {saved : List (Text × Text)}
    (h : PartOptimized m data ntokens p ty rawSize (some ts) minSize saved) :
    Sized ty p ts.tokens.length ntokens saved := by
  cases h with
  | increasing h => exact partIncreasing_sized hm h ts rfl hi
  | memory _ he h =>
    obtain ⟨env, h1, h2, _⟩ := memoryEnv_ok hm data (some rawSize)
    have := Except.ok.inj (h1.symm.trans he)
    subst this
    exact partTokenset_sized h2 hi h
  | file _ he h =>
    exact partTokenset_sized ⟨hm.threads, .inr (fileSampler_facts he).2.1⟩ hi h

/-- The same for an optimization that has ended, with its result. -/
structure SizedEnd (ty : TokenType) (p : Processing) (lo hi : Nat) (r : R TokenStats) (saved : List (Text × Text)) :
    Prop where
  saved : Sized ty p lo hi saved
  result : ∀ st, r = .ok st → lo ≤ st.tokenSet.tokens.length

theorem increasing_sized {m : Machine} (hm : MachineOk m) {file : Bytes} {ntokens : Nat} {p : Processing}
    {ty : TokenType} {n : Option Nat} {size : Nat} {o : Option TokenSet} {r : R TokenStats}
    {saved : List (Text × Text)} (h : Increasing m file ntokens p ty n size o r saved) :
    ∀ ts, o = some ts → GoodInput ty p ntokens o → SizedEnd ty p ts.tokens.length ntokens r saved := by
  induction h with
  | exhausted => exact fun _ _ _ => ⟨by intro f hf; simp at hf, fun st e => by cases e⟩
  | sample => exact fun _ _ _ => ⟨by intro f hf; simp at hf, fun st e => by cases e⟩
  | before => exact fun _ _ _ => ⟨by intro f hf; simp at hf, fun st e => by cases e⟩
  | @optimize size ts env e w h hs hb ho =>
    rintro ts rfl hi
    obtain ⟨env', h1, h2, _⟩ := sampleEnv_ok hm file size n
    have := Except.ok.inj (h1.symm.trans hs)
    subst this
    exact ⟨tokenset_sized h2 hi ho, fun st e => by cases e⟩
  | @full size ts env st w e h hs hb ho hf =>
    rintro ts rfl hi
    obtain ⟨env', h1, h2, _⟩ := sampleEnv_ok hm file size n
    have := Except.ok.inj (h1.symm.trans hs)
    subst this
    exact ⟨tokenset_sized h2 hi ho, fun st e => by cases e⟩
  | @stop size ts env st w st' h hs hb ho hf hstop =>
    rintro ts rfl hi
    obtain ⟨env', h1, h2, _⟩ := sampleEnv_ok hm file size n
    have := Except.ok.inj (h1.symm.trans hs)
    subst this
    obtain ⟨st1, e1, hres, hw⟩ := optimize_good h2 hi ho
    have := Except.ok.inj e1
    subst this
    refine ⟨tokenset_sized h2 hi ho, fun st2 e => ?_⟩
    have := Except.ok.inj e
    subst this
    have hu := Tokens.Family.usable hw.family
    rcases tokenized_good hm hu.accepted hu.inRange hf with ⟨st', e, h3, h4⟩ | ⟨short, e, h3, h4⟩
    · have := Except.ok.inj e
      subst this
      rw [h3]
      exact result_not_smaller h2 hi ho
    · cases h4
  | @again size ts env st w st' r saved h hs hb ho hf hstop hr ih =>
    rintro ts rfl hi
    obtain ⟨env', h1, h2, _⟩ := sampleEnv_ok hm file size n
    have := Except.ok.inj (h1.symm.trans hs)
    subst this
    obtain ⟨st1, e1, hres, hw⟩ := optimize_good h2 hi ho
    have := Except.ok.inj e1
    subst this
    have hle := result_not_smaller h2 hi ho
    obtain ⟨g1, g2⟩ := ih _ rfl hw
    refine ⟨?_, fun st e => hle.trans (g2 st e)⟩
    intro f hf
    rcases List.mem_append.1 hf with h | h
    · exact tokenset_sized h2 hi ho f h
    · exact g1.mono hle f h

theorem optimized_sized {m : Machine} (hm : MachineOk m) {data : Bytes} {ntokens : Nat} {p : Processing}
    {ty : TokenType} {rawSize : Nat} {ts : TokenSet} (hi : GoodInput ty p ntokens (some ts))
    {minSize : Option Nat} {r : R TokenStats} {saved : List (Text × Text)}
    (h : Optimized m data ntokens p ty rawSize (some ts) minSize r saved) :
    SizedEnd ty p ts.tokens.length ntokens r saved := by
  have tok : ∀ {env : Env} (he : EnvOk env) {r : R TokenStats} {w : World},
      OptimizeTokenset env ntokens p ty (some ts) r w → SizedEnd ty p ts.tokens.length ntokens r w.saved := by
    intro env he r w h
    exact ⟨tokenset_sized he hi h, fun st e => by subst e; exact result_not_smaller he hi h⟩
  cases h with
  | increasing h => exact increasing_sized hm h ts rfl hi
  | memory _ he h =>
    obtain ⟨env, h1, h2, _⟩ := memoryEnv_ok hm data (some rawSize)
    have := Except.ok.inj (h1.symm.trans he)
    subst this
    exact tok h2 h
  | memoryFail => exact ⟨by intro f hf; simp at hf, fun st e => by cases e⟩
  | file _ he h =>
    exact tok ⟨hm.threads, .inr (fileSampler_facts he).2.1⟩ h
  | fileFail => exact ⟨by intro f hf; simp at hf, fun st e => by cases e⟩

end Disk
end Tokens
