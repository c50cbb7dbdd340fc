import Verif.Props.JsonText
import Verif.Spec.Disk
import Verif.Proofs.Load

/-! Commands and files. -/

set_option linter.unusedSimpArgs false
set_option linter.unusedVariables false

namespace Tokens
open Spec TokenSet Optimize Batch Main Input Props

namespace Disk

/-! ### Reading -/

theorem joinPath_eq (dir name : Text) : joinPath dir name = fileIn dir name := by
  unfold joinPath fileIn
  cases h : dir.getLast? with
  | none =>
    have : dir = [] := List.getLast?_eq_none_iff.1 h
    simp [this]
  | some c =>
    have : dir ≠ [] := by rintro rfl; cases h
    by_cases hc : c = '/'
    · simp [hc]
    · simp [hc, this]

theorem openFile_iff {d : Files} {path : Text} {b : Bytes} :
    openFile d path = .ok b ↔ d.read path = some b := by
  unfold openFile
  constructor
  · exact unwrapR_inv
  · intro h; rw [h]; rfl

theorem openInput_none {d : Files} {v : Option Json} (h : openInput d none = .ok v) : v = none :=
  (Except.ok.inj h).symm

/-- What is read of the data, in the terms of the model. -/
theorem dataRead_iff {m : Machine} {d : Files} {data : Text} {processed : Option Text} {p : Processing}
    {raw bytes : Bytes} : DataRead m d data processed p raw bytes ↔
      ∃ file, openFile d data = .ok raw ∧ openProcessed d processed p = .ok file ∧
        maybeProcessFile m raw file p = .ok bytes := by
  constructor
  · intro h
    cases h with
    | raw h => exact ⟨none, openFile_iff.2 h, by cases processed <;> rfl, rfl⟩
    | given h hp hf =>
      subst hp
      refine ⟨some bytes, openFile_iff.2 h, ?_, rfl⟩
      simp only [openProcessed, openFile_iff.2 hf, R.ok_bind]
    | made h hp ho =>
      subst hp
      refine ⟨none, openFile_iff.2 h, rfl, ?_⟩
      unfold maybeProcessFile
      simp only [processBytes_text m.db _ _ ho, R.ok_bind, if_true]
  · rintro ⟨file, h1, h2, h3⟩
    have h1 := openFile_iff.1 h1
    cases p with
    | raw =>
      have : raw = bytes := by cases file <;> exact Except.ok.inj h3
      subst this
      exact .raw h1
    | capsWords =>
      cases processed with
      | some f =>
        obtain ⟨b, g1, g2⟩ := ok_bind_inv h2
        have := Except.ok.inj g2
        subst this
        have := Except.ok.inj h3
        subst this
        exact .given h1 rfl (openFile_iff.1 g1)
      | none =>
        have := Except.ok.inj h2
        subst this
        cases hd : validUtf8 raw with
        | false =>
          obtain ⟨ls, _, _, _, _, _, h⟩ := processBytes_bad m.db raw hd
          obtain ⟨out, h'⟩ := processFile_ok m.db (ls.flatMap (· ++ ['\n']))
          unfold maybeProcessFile at h3
          simp [h out h', bind, Except.bind] at h3
        | true =>
          obtain ⟨text, rfl⟩ := validUtf8_iff.1 hd
          obtain ⟨out, h⟩ := processFile_ok m.db text
          unfold maybeProcessFile at h3
          simp only [processBytes_text m.db _ _ h, R.ok_bind, if_true] at h3
          have := Except.ok.inj h3
          subst this
          exact .made h1 rfl h

theorem readJson_set {d : Files} {path : Text} {v : Json} {ts : TokenSet} (h : readJson d path = .ok v)
    (ht : fromJson v = .ok ts) : ∃ b, d.read path = some b ∧ readTokenSet b = .ok ts := by
  obtain ⟨b, g1, g2⟩ := ok_bind_inv h
  refine ⟨b, openFile_iff.1 g1, ?_⟩
  unfold readTokenSet
  rw [g2]; exact ht

theorem readJson_of {d : Files} {path : Text} {b : Bytes} {ts : TokenSet} (h : d.read path = some b)
    (ht : readTokenSet b = .ok ts) : ∃ v, readJson d path = .ok v ∧ fromJson v = .ok ts := by
  obtain ⟨v, g1, g2⟩ := ok_bind_inv ht
  refine ⟨v, ?_, g2⟩
  unfold readJson
  rw [openFile_iff.2 h]; exact g1

/-- A good start, in the terms of the model. -/
theorem starts_input {d : Files} {p : Processing} {ty : TokenType} {ntokens : Nat} {inputTokens : Option Text}
    (h : StartsGood d p ty ntokens inputTokens) {v : Option Json} {ts : Option TokenSet}
    (hi : openInput d inputTokens = .ok v) (ht : readInput v = .ok ts) : GoodInput ty p ntokens ts := by
  cases inputTokens with
  | none =>
    have := openInput_none hi
    subst this
    have := Except.ok.inj ht
    subst this
    exact h
  | some f =>
    obtain ⟨w, g1, g2⟩ := ok_bind_inv hi
    have := Except.ok.inj g2
    subst this
    obtain ⟨t, g3, g4⟩ := ok_bind_inv ht
    have := Except.ok.inj g4
    subst this
    obtain ⟨b, g5, g6⟩ := readJson_set g1 g3
    exact h b t g5 g6

/-! ### Writing -/

theorem stopped_read {ws : List (Text × Bytes)} {d d' : Files} (h : Stopped ws d d') (path : Text) :
    d'.read path = d.read path ∨
      ∃ b part rest, (path, b) ∈ ws ∧ part ++ rest = b ∧ d'.read path = some part := by
  induction h with
  | before => exact .inl rfl
  | @during path' b ws d part rest h =>
    by_cases e : path = path'
    · subst e
      exact .inr ⟨b, part, rest, by simp, h, by simp [Files.write]⟩
    · exact .inl (by simp [Files.write, e])
  | @after path' b ws d d' h ih =>
    rcases ih with h1 | ⟨b', part, rest, h1, h2, h3⟩
    · by_cases e : path = path'
      · subst e
        refine .inr ⟨b, b, [], by simp, by simp, ?_⟩
        rw [h1]; simp [Files.write]
      · left
        rw [h1]; simp [Files.write, e]
    · exact .inr ⟨b', part, rest, by simp [h1], h2, h3⟩

theorem writeAll_stopped (ws : List (Text × Bytes)) (d : Files) : Stopped ws d (writeAll d ws) := by
  induction ws generalizing d with
  | nil => exact .before
  | cons w ws ih =>
    obtain ⟨path, b⟩ := w
    exact .after (ih _)

theorem writeAll_append (ws ws' : List (Text × Bytes)) (d : Files) :
    writeAll d (ws ++ ws') = writeAll (writeAll d ws) ws' := by
  induction ws generalizing d with
  | nil => rfl
  | cons w ws ih => exact ih _

theorem writeAll_last (ws : List (Text × Bytes)) (d : Files) (path : Text) (b : Bytes) :
    (writeAll d (ws ++ [(path, b)])).read path = some b := by
  rw [writeAll_append]
  simp [writeAll, Files.write]

theorem writeAll_creatable (ws : List (Text × Bytes)) (d : Files) : (writeAll d ws).creatable = d.creatable := by
  induction ws generalizing d with
  | nil => rfl
  | cons w ws ih => exact ih _

theorem writeAll_other (ws : List (Text × Bytes)) (d : Files) (path : Text) (h : ∀ w ∈ ws, w.1 ≠ path) :
    (writeAll d ws).read path = d.read path := by
  rcases stopped_read (writeAll_stopped ws d) path with h1 | ⟨b, _, _, h1, _⟩
  · exact h1
  · exact absurd rfl (h _ h1)

theorem attempt_sub {d : Files} {ws ws' : List (Text × Bytes)} {r r' : R Unit}
    (h : attempt d ws r = (r', ws')) : ∀ w ∈ ws', w ∈ ws := by
  unfold attempt at h
  split at h
  · rw [Prod.mk.injEq] at h
    rw [h.2]; exact fun _ h => h
  · rw [Prod.mk.injEq] at h
    rw [← h.2]
    intro w hw
    exact (List.takeWhile_prefix _).subset hw

theorem attempt_ok {d : Files} {ws ws' : List (Text × Bytes)} {r : R Unit}
    (h : attempt d ws r = (.ok (), ws')) : ws' = ws ∧ r = .ok () ∧ ∀ w ∈ ws, d.creatable w.1 = true := by
  unfold attempt at h
  split at h
  · rename_i hc
    rw [Prod.mk.injEq] at h
    exact ⟨h.2.symm, h.1, List.all_eq_true.1 hc⟩
  · rw [Prod.mk.injEq] at h
    cases h.1

/-! ### The files the optimizer writes, whatever it is given -/

theorem tokenFile_name (ts : TokenSet) :
    ts.name ++ ".json".toList = tokenFile ts.tokens.length ts.processing ts.tokenType := by
  unfold TokenSet.name tokenFile
  cases ts.processing <;> cases ts.tokenType <;> rfl

/-- Named like the file of a set. -/
def Named (f : Text × Text) : Prop := ∃ n p ty, f.1 = tokenFile n p ty

theorem savedFile_named {ts : TokenSet} {f : Text × Text} (h : savedFile ts = .ok f) : Named f := by
  unfold savedFile at h
  cases hv : ts.toJson with
  | error e => rw [hv] at h; cases h
  | ok v =>
    rw [hv] at h
    have := Except.ok.inj h
    subst this
    exact ⟨_, _, _, tokenFile_name ts⟩

theorem statsFile_named {m : Machine} {st : TokenStats} {f : Text × Text} (h : statsFile m st = .ok f) :
    Named f := by
  unfold statsFile at h
  cases hv : st.toJson m.ratio with
  | error e => rw [hv] at h; cases h
  | ok v =>
    rw [hv] at h
    have := Except.ok.inj h
    subst this
    exact ⟨_, _, _, tokenFile_name st.tokenSet⟩

/-- All files written are named like files of sets. -/
def AllNamed (w : World) : Prop := ∀ f ∈ w.saved, Named f

theorem run_named {env : Env} {α : Type} {p : Prog α} {w : World} {r : R α} {w' : World}
    (h : Run env p w r w') : AllNamed w → AllNamed w' := by
  induction h with
  | pure => exact id
  | fail => exact id
  | stats _ _ ih => exact fun h => ih h
  | statsFail => exact id
  | pairs _ _ ih => exact fun h => ih h
  | pairsFail => exact id
  | sortUnstable _ _ _ ih => exact ih
  | clock _ _ ih => exact ih
  | save hf _ ih =>
    intro h
    refine ih ?_
    intro f hfm
    rcases List.mem_append.1 hfm with h1 | h1
    · exact h f h1
    · rw [List.mem_singleton] at h1
      subst h1
      exact savedFile_named hf
  | saveFail => exact id

theorem loop_named {env : Env} {bo : OptimizeBytes.BytesOptimizer} {n : Nat} {ts : TokenSet} {rc : Removals}
    {w w' : World} {r : R TokenSet} (h : Loop env bo n ts rc w r w') : AllNamed w → AllNamed w' := by
  induction h with
  | stop hs => exact run_named hs
  | fail hs => exact run_named hs
  | again hs hsave _ ih => exact fun h => ih (run_named hsave (run_named hs h))
  | saveFail hs hsave => exact fun h => run_named hsave (run_named hs h)

theorem impl_named {env : Env} {bo : OptimizeBytes.BytesOptimizer} {n : Nat} {ts : TokenSet}
    {w w' : World} {r : R TokenStats} (h : Impl env bo n ts w r w') : AllNamed w → AllNamed w' := by
  cases h with
  | done h1 h2 h3 => exact fun h => run_named h3 (loop_named h2 (run_named h1 h))
  | firstFail h1 => exact run_named h1
  | loopFail h1 h2 => exact fun h => loop_named h2 (run_named h1 h)

theorem tokenset_named {env : Env} {n : Nat} {p : Processing} {ty : TokenType} {i : Option TokenSet}
    {w : World} {r : R TokenStats} (h : OptimizeTokenset env n p ty i r w) : AllNamed w := by
  have h0 : AllNamed ⟨fun _ => none, []⟩ := fun f hf => by simp at hf
  cases h with
  | run h1 h2 => exact impl_named h2 (run_named h1 h0)
  | startFail h1 => exact run_named h1 h0

theorem increasing_named {m : Machine} {file : Bytes} {ntokens : Nat} {p : Processing} {ty : TokenType}
    {n : Option Nat} {size : Nat} {ts : Option TokenSet} {r : R TokenStats} {saved : List (Text × Text)}
    (h : Increasing m file ntokens p ty n size ts r saved) : ∀ f ∈ saved, Named f := by
  induction h with
  | exhausted => simp
  | sample => simp
  | before => simp
  | optimize _ _ _ ho => exact tokenset_named ho
  | full _ _ _ ho => exact tokenset_named ho
  | stop _ _ _ ho => exact tokenset_named ho
  | again _ _ _ ho _ _ _ ih =>
    intro f hf
    rcases List.mem_append.1 hf with h1 | h1
    · exact tokenset_named ho f h1
    · exact ih f h1

theorem optimized_named {m : Machine} {data : Bytes} {ntokens : Nat} {p : Processing} {ty : TokenType}
    {rawSize : Nat} {input : Option TokenSet} {minSize : Option Nat} {r : R TokenStats}
    {saved : List (Text × Text)} (h : Optimized m data ntokens p ty rawSize input minSize r saved) :
    ∀ f ∈ saved, Named f := by
  cases h with
  | increasing h => exact increasing_named h
  | memory _ _ h => exact tokenset_named h
  | memoryFail => simp
  | file _ _ h => exact tokenset_named h
  | fileFail => simp

theorem inDir_named {dir : Text} {fs : List (Text × Text)} (h : ∀ f ∈ fs, Named f) :
    ∀ w ∈ inDir dir fs, ∃ n p ty, w.1 = fileIn dir (tokenFile n p ty) := by
  intro w hw
  obtain ⟨f, hf, rfl⟩ := List.mem_map.1 hw
  obtain ⟨n, p, ty, e⟩ := h f hf
  exact ⟨n, p, ty, by simp only; rw [e, joinPath_eq]⟩

/-- All writes of a command are where it may write. -/
theorem exec_where {m : Machine} {d : Files} {cmd : Command} {o : R Unit × List (Text × Bytes)}
    (h : Exec m d cmd o) : ∀ w ∈ o.2, MayWrite cmd w.1 := by
  have sub : ∀ {ws : List (Text × Bytes)} {r : R Unit}, ∀ w ∈ (attempt d ws r).2, w ∈ ws :=
    fun w hw => attempt_sub rfl w hw
  cases h with
  | processOpen => simp
  | process h hf hp =>
    intro w hw
    have := sub w hw
    rw [List.mem_singleton] at this
    subst this; rfl
  | processPanic h hf hp =>
    intro w hw
    have := sub w hw
    rw [List.mem_singleton] at this
    subst this; rfl
  | countChars => simp
  | convertOpen => simp
  | convertFail => simp
  | convert hv hr hp h =>
    intro w hw
    refine inDir_named ?_ w (sub w hw)
    intro f hf
    rw [List.mem_singleton] at hf
    subst hf
    generalize hg : (Except.ok f : R (Text × Text)) = g at h
    cases h with
    | load => cases hg
    | process => cases hg
    | tokenize => cases hg
    | write _ _ _ => exact statsFile_named hg.symm
  | optimizeOpen => simp
  | optimizePrepare => simp
  | optimizeFail hr hp hi hd ht ho h =>
    intro w hw
    exact inDir_named (optimized_named ho) w (sub w hw)
  | optimize hr hp hi hd ht ho h =>
    intro w hw
    refine inDir_named ?_ w (sub w hw)
    intro f hf
    rcases List.mem_append.1 hf with h1 | h1
    · exact optimized_named ho f h1
    · rw [List.mem_singleton] at h1
      subst h1
      exact statsFile_named h

/-! ### The files the optimizer writes for a good input -/

theorem valid_of_result {env : Env} {ty : TokenType} {p : Processing} {ntokens : Nat} {st : TokenStats}
    {w : World} (h : Result env ty p ntokens st w) (hw : Workable ty p ntokens st.tokenSet) :
    ValidSet ty p ntokens st.tokenSet :=
  ⟨h.accepted, h.sorted, h.lossless, h.type, h.processing, h.budget, regular_of_sorted hw.family h.sorted⟩

theorem saved_of_result {env : Env} {ty : TokenType} {p : Processing} {ntokens : Nat} {st : TokenStats}
    {w : World} (h : Result env ty p ntokens st w) :
    ∀ f ∈ w.saved, ∃ ts, ValidSet ty p ntokens ts ∧ savedFile ts = .ok f := by
  intro f hf
  obtain ⟨ts, tk, h1, h2, h3, h4, h5, h6, h7, h8⟩ := h.saved f hf
  exact ⟨ts, ⟨⟨tk, h1⟩, h2, h3, h4, h5, h6, h7⟩, h8⟩

/-- The result of an optimization, in any of the three ways. -/
structure Outcome (ty : TokenType) (p : Processing) (ntokens : Nat) (r : R TokenStats)
    (saved : List (Text × Text)) : Prop where
  saved : ∀ f ∈ saved, ∃ ts, ValidSet ty p ntokens ts ∧ savedFile ts = .ok f
  result : ∀ st, r = .ok st → ValidSet ty p ntokens st.tokenSet ∧ Workable ty p ntokens st.tokenSet

theorem increasing_good {m : Machine} (hm : MachineOk m) {file : Bytes} {ntokens : Nat} {p : Processing}
    {ty : TokenType} {n : Option Nat} {size : Nat} {ts : Option TokenSet} {r : R TokenStats}
    {saved : List (Text × Text)} (h : Increasing m file ntokens p ty n size ts r saved) :
    GoodInput ty p ntokens ts → Outcome ty p ntokens r saved := by
  induction h with
  | exhausted => exact fun _ => ⟨by simp, fun st e => by cases e⟩
  | sample => exact fun _ => ⟨by simp, fun st e => by cases e⟩
  | before => exact fun _ => ⟨by simp, fun st e => by cases e⟩
  | @optimize size ts env e w h hs hb ho =>
    intro hi
    obtain ⟨env', h1, h2, _⟩ := sampleEnv_ok hm file size n
    have := Except.ok.inj (h1.symm.trans hs)
    subst this
    obtain ⟨st, e, _⟩ := optimize_good h2 hi ho
    cases e
  | @full size ts env st w e h hs hb ho hf =>
    intro hi
    obtain ⟨env', h1, h2, _⟩ := sampleEnv_ok hm file size n
    have := Except.ok.inj (h1.symm.trans hs)
    subst this
    obtain ⟨st', e', hres, hw⟩ := optimize_good h2 hi ho
    exact ⟨saved_of_result hres, fun st e => by cases e⟩
  | @stop size ts env st w st' h hs hb ho hf hstop =>
    intro hi
    obtain ⟨env', h1, h2, _⟩ := sampleEnv_ok hm file size n
    have := Except.ok.inj (h1.symm.trans hs)
    subst this
    obtain ⟨st1, e1, hres, hw⟩ := optimize_good h2 hi ho
    have := Except.ok.inj e1
    subst this
    refine ⟨saved_of_result hres, fun st2 e => ?_⟩
    have := Except.ok.inj e
    subst this
    have hu := Tokens.Family.usable hw.family
    rcases tokenized_good hm hu.accepted hu.inRange hf with ⟨st', e, h3, h4⟩ | ⟨short, e, h3, h4⟩
    · have := Except.ok.inj e
      subst this
      rw [h3]
      exact ⟨valid_of_result hres hw, hw⟩
    · cases h4
  | @again size ts env st w st' r saved h hs hb ho hf hstop hr ih =>
    intro hi
    obtain ⟨env', h1, h2, _⟩ := sampleEnv_ok hm file size n
    have := Except.ok.inj (h1.symm.trans hs)
    subst this
    obtain ⟨st1, e1, hres, hw⟩ := optimize_good h2 hi ho
    have := Except.ok.inj e1
    subst this
    obtain ⟨g1, g2⟩ := ih hw
    refine ⟨?_, g2⟩
    intro f hf
    rcases List.mem_append.1 hf with h | h
    · exact saved_of_result hres f h
    · exact g1 f h

theorem tokenset_good {env : Env} (he : EnvOk env) {ty : TokenType} {p : Processing} {ntokens : Nat}
    {input : Option TokenSet} (hi : GoodInput ty p ntokens input) {r : R TokenStats} {w : World}
    (h : OptimizeTokenset env ntokens p ty input r w) : Outcome ty p ntokens r w.saved := by
  obtain ⟨st, e, hres, hw⟩ := optimize_good he hi h
  refine ⟨saved_of_result hres, ?_⟩
  intro st' e'
  have := Except.ok.inj (e.symm.trans e')
  subst this
  exact ⟨valid_of_result hres hw, hw⟩

theorem optimized_good {m : Machine} (hm : MachineOk m) {data : Bytes} {ntokens : Nat} {p : Processing}
    {ty : TokenType} {rawSize : Nat} {input : Option TokenSet} (hi : GoodInput ty p ntokens input)
    {minSize : Option Nat} {r : R TokenStats} {saved : List (Text × Text)}
    (h : Optimized m data ntokens p ty rawSize input minSize r saved) : Outcome ty p ntokens r saved := by
  cases h with
  | increasing h => exact increasing_good hm h hi
  | memory _ he h =>
    obtain ⟨env, h1, h2, _⟩ := memoryEnv_ok hm data (some rawSize)
    have := Except.ok.inj (h1.symm.trans he)
    subst this
    exact tokenset_good h2 hi h
  | memoryFail => exact ⟨by simp, fun st e => by cases e⟩
  | file _ he h =>
    exact tokenset_good ⟨hm.threads, .inr (fileSampler_facts he).2.1⟩ hi h
  | fileFail => exact ⟨by simp, fun st e => by cases e⟩

/-! ### Whole and torn files -/

/-- A file that is complete or rejected. -/
structure Written (ts : TokenSet) (b : Bytes) : Prop where
  whole : FileOf ts b
  torn : ∀ part rest, part ++ rest = b → rest ≠ [] → readTokenSet part = .error .unwrapNone

theorem written_saved {ts : TokenSet} (hs : SeqsInRange ts) {f : Text × Text} (h : savedFile ts = .ok f) :
    f.1 = ts.name ++ ".json".toList ∧ Written ts (utf8Encode f.2) := by
  unfold savedFile at h
  rw [toJson_eq ts hs] at h
  have := Except.ok.inj h
  subst this
  have hst := JsonWrite.storable_jsonOf ts
  refine ⟨rfl, ⟨jsonOf ts, toJson_eq ts hs, ?_⟩, ?_⟩
  · rw [readTokenSet, JsonWrite.parseBytes_of (JsonWrite.render_jsonText hst) hst (by decide)]
    rfl
  · intro part rest hp hrest
    obtain ⟨l, hl⟩ : ∃ l, jsonOf ts = .obj l := ⟨_, rfl⟩
    rw [hl] at hst hp
    have := JsonRead.parseBytes_prefix (JsonWrite.denotes_render _ hst) hst (by decide) part rest hp hrest
    rw [readTokenSet, this]
    rfl

theorem written_stats {m : Machine} (hr : RatioText m.ratio) {st : TokenStats} (hf : Fits64 st)
    (hs : SeqsInRange st.tokenSet) {f : Text × Text} (h : statsFile m st = .ok f) :
    f.1 = st.tokenSet.name ++ ".json".toList ∧ Written st.tokenSet (utf8Encode f.2) := by
  obtain ⟨v, text, h1, h2, h3⟩ := C52_file_is_json m hr st hf hs
  have := Except.ok.inj (h2.symm.trans h)
  subst this
  refine ⟨rfl, ?_, ?_⟩
  · obtain ⟨v', w, k1, k2, k3⟩ := C17_stats_file m.ratio st hs
    have := Except.ok.inj (k1.symm.trans h1)
    subst this
    refine ⟨w, k2, ?_⟩
    rw [C52_any_layout m hr st hf hs _ h1 text h3, k3]
  · exact fun part rest hp hrest => C53_no_torn_file m hr st hf hs _ _ h2 part rest hp hrest

theorem crash_of_written {ws : List (Text × Bytes)} {d d' : Files} (h : Stopped ws d d') {Good : TokenSet → Prop}
    (hw : ∀ w ∈ ws, ∃ ts, Good ts ∧ Written ts w.2) (path : Text) : AfterCrash d d' path Good := by
  rcases stopped_read h path with h1 | ⟨b, part, rest, h1, h2, h3⟩
  · exact .same h1
  · obtain ⟨ts, hg, hwr⟩ := hw _ h1
    by_cases hrest : rest = []
    · subst hrest
      rw [List.append_nil] at h2
      subst h2
      exact .saved h3 hwr.whole hg
    · exact .torn h3 (hwr.torn part rest h2 hrest)

end Disk
end Tokens
