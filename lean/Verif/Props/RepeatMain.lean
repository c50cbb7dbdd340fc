import Verif.Proofs.RepeatMain
import Verif.Proofs.Examples

/-!
# Property C125: the commands are reproducible

Theorem C66 at the level of the commands and of the files they write.  `ExecBy f` are the runs of convert and
optimize in which the unstable sort is the function `f` and every read of the file fills its buffer unless the
file ends; threads, their schedule and the clock are free.
-/

namespace Tokens.Props
open Tokens Spec TokenSet Optimize Batch Main Input Disk

/-- **C125** (convert).  Two runs of convert on the same files write the same bytes to the same file, or both
fail and write nothing, whatever the number of threads and however they are scheduled. -/
theorem C125_convert (sort : SortFn) (m1 m2 : Machine) (hm1 : MachineOk m1) (hm2 : MachineOk m2)
    (hdb : m1.db = m2.db) (hratio : m1.ratio = m2.ratio) (d : Files) (data : Text) (processed : Option Text)
    (inputTokens dir : Text) (r1 r2 : R Unit) (ws1 ws2 : List (Text × Bytes))
    (h1 : ExecBy sort m1 d (.convert data processed inputTokens dir) (r1, ws1))
    (h2 : ExecBy sort m2 d (.convert data processed inputTokens dir) (r2, ws2)) :
    ws1 = ws2 ∧ (r1 = .ok () ↔ r2 = .ok ()) ∧ (r1 ≠ .ok () → ws1 = []) := by
  -- the commands: files that cannot be read, or a conversion
  have inv : ∀ {m : Machine} {r : R Unit} {ws : List (Text × Bytes)},
      ExecBy sort m d (.convert data processed inputTokens dir) (r, ws) →
      (∃ e, r = .error e ∧ ws = [] ∧ (readJson d inputTokens = .error e ∨ openFile d data = .error e ∨
        ∃ v ts, readJson d inputTokens = .ok v ∧ TokenSet.fromJson v = .ok ts ∧
          openProcessed d processed ts.processing = .error e)) ∨
      ∃ v raw file rc, readJson d inputTokens = .ok v ∧ openFile d data = .ok raw ∧
        (∀ ts, TokenSet.fromJson v = .ok ts → openProcessed d processed ts.processing = .ok file) ∧
        ConvertFull m raw file v rc ∧
        ((∃ e, rc = .error e ∧ r = .error e ∧ ws = []) ∨
          ∃ g, rc = .ok g ∧ (r, ws) = attempt d (inDir dir [g]) (.ok ())) := by
    intro m r ws h
    generalize ho : (r, ws) = o at h
    cases h with
    | convertOpen h =>
      rw [Prod.mk.injEq] at ho
      exact .inl ⟨_, ho.1, ho.2, h⟩
    | convertFail hv hr hp h =>
      rw [Prod.mk.injEq] at ho
      exact .inr ⟨_, _, _, _, hv, hr, hp, h, .inl ⟨_, rfl, ho.1, ho.2⟩⟩
    | convert hv hr hp h => exact .inr ⟨_, _, _, _, hv, hr, hp, h, .inr ⟨_, rfl, rfl⟩⟩
  -- a run that opens its files, and one that does not
  have clash : ∀ {e : Err} {v : Json} {raw : Bytes} {file : Option Bytes},
      (readJson d inputTokens = .error e ∨ openFile d data = .error e ∨
        ∃ v ts, readJson d inputTokens = .ok v ∧ TokenSet.fromJson v = .ok ts ∧
          openProcessed d processed ts.processing = .error e) →
      readJson d inputTokens = .ok v → openFile d data = .ok raw →
      (∀ ts, TokenSet.fromJson v = .ok ts → openProcessed d processed ts.processing = .ok file) → False := by
    intro e v raw file h hv hr hp
    rcases h with h | h | ⟨v', ts, a, b, c⟩
    · rw [hv] at h; cases h
    · rw [hr] at h; cases h
    · have := Except.ok.inj (hv.symm.trans a)
      subst this
      rw [hp ts b] at c; cases c
  have att : ∀ {g : Text × Text} {r : R Unit} {ws : List (Text × Bytes)},
      (r, ws) = attempt d (inDir dir [g]) (.ok ()) → r ≠ .ok () → ws = [] := by
    intro g r ws h hne
    unfold attempt at h
    split at h
    · rw [Prod.mk.injEq] at h; exact absurd h.1 hne
    · rename_i hc
      rw [Prod.mk.injEq] at h
      rw [h.2]
      simp only [inDir, List.map_cons, List.map_nil, List.all_cons, List.all_nil, Bool.and_true,
        Bool.not_eq_true] at hc
      simp [inDir, hc]
  rcases inv h1 with ⟨e, rfl, rfl, a⟩ | ⟨v, raw, file, rc, hv, hr, hp, hc, k⟩
  · rcases inv h2 with ⟨e', rfl, rfl, _⟩ | ⟨v, raw, file, rc, hv, hr, hp, _⟩
    · exact ⟨rfl, by simp, fun _ => rfl⟩
    · exact (clash a hv hr hp).elim
  · rcases inv h2 with ⟨e', rfl, rfl, a⟩ | ⟨v', raw', file', rc', hv', hr', hp', hc', k'⟩
    · exact (clash a hv hr hp).elim
    · have := Except.ok.inj (hv.symm.trans hv')
      subst this
      have := Except.ok.inj (hr.symm.trans hr')
      subst this
      have hrc : rc = rc' := by
        cases hts : TokenSet.fromJson v with
        | error e =>
          -- the set cannot be loaded, and nothing else is looked at
          have one : ∀ {m : Machine} {file : Option Bytes} {rc : R (Text × Text)},
              ConvertFull m raw file v rc → rc = .error e := by
            intro m file rc h
            cases h with
            | load h => rw [hts] at h; rw [Except.error.inj h]
            | process h => rw [hts] at h; cases h
            | tokenize h => rw [hts] at h; cases h
            | write h => rw [hts] at h; cases h
          rw [one hc, one hc']
        | ok ts =>
          have := Except.ok.inj ((hp ts hts).symm.trans (hp' ts hts))
          subst this
          exact convertFull_one hm1 hm2 hdb hratio hc hc'
      subst hrc
      rcases k with ⟨e, rfl, rfl, rfl⟩ | ⟨g, rfl, k⟩
      · rcases k' with ⟨e', _, rfl, rfl⟩ | ⟨g, h, _⟩
        · exact ⟨rfl, by simp, fun _ => rfl⟩
        · cases h
      · rcases k' with ⟨e', h, _⟩ | ⟨g', h, k'⟩
        · cases h
        · rw [← Except.ok.inj h] at k'
          have := k.trans k'.symm
          rw [Prod.mk.injEq] at this
          exact ⟨this.2, by rw [this.1], att k⟩

/-- **C125** (optimize).  If two runs of optimize on the same files succeed, the last file they write has the
same name and the same bytes: it is only the sets saved on the way that depend on the clock. -/
theorem C125_optimize (sort : SortFn) (hsort : sort.Sorts) (m1 m2 : Machine) (hm1 : MachineOk m1)
    (hm2 : MachineOk m2) (hdb : m1.db = m2.db) (hratio : m1.ratio = m2.ratio) (d : Files) (data : Text)
    (processed : Option Text) (dir : Text) (p : Processing) (ty : TokenType) (ntokens : Nat)
    (inputTokens : Option Text) (minSize : Option Nat) (hg : StartsGood d p ty ntokens inputTokens)
    (ws1 ws2 : List (Text × Bytes))
    (h1 : ExecBy sort m1 d (.optimize data processed dir p ty ntokens inputTokens minSize) (.ok (), ws1))
    (h2 : ExecBy sort m2 d (.optimize data processed dir p ty ntokens inputTokens minSize) (.ok (), ws2)) :
    ∃ before1 before2 path b, ws1 = before1 ++ [(path, b)] ∧ ws2 = before2 ++ [(path, b)] ∧
      (writeAll d ws1).read path = some b ∧ (writeAll d ws2).read path = some b := by
  have hst : statsFile m1 = statsFile m2 := by
    funext st; unfold statsFile; rw [hratio]
  have inv : ∀ {m : Machine} {ws : List (Text × Bytes)},
      ExecBy sort m d (.optimize data processed dir p ty ntokens inputTokens minSize) (.ok (), ws) →
      ∃ raw file v bytes ts st saved g, openFile d data = .ok raw ∧ openProcessed d processed p = .ok file ∧
        openInput d inputTokens = .ok v ∧ maybeProcessFile m raw file p = .ok bytes ∧ readInput v = .ok ts ∧
        OptimizedBy sort m bytes ntokens p ty raw.length ts minSize (.ok st) saved ∧ statsFile m st = .ok g ∧
        ws = inDir dir saved ++ [(joinPath dir g.1, utf8Encode g.2)] := by
    intro m ws h
    generalize ho : ((.ok (), ws) : R Unit × List (Text × Bytes)) = o at h
    cases h with
    | optimizeOpen h => rw [Prod.mk.injEq] at ho; cases ho.1
    | optimizePrepare hr hp hi h => rw [Prod.mk.injEq] at ho; cases ho.1
    | optimizeFail hr hp hi hd ht ho' h => cases (attempt_ok ho.symm).2.1
    | optimize hr hp hi hd ht ho' h =>
      refine ⟨_, _, _, _, _, _, _, _, hr, hp, hi, hd, ht, ho', h, ?_⟩
      rw [(attempt_ok ho.symm).1]
      simp [inDir]
  obtain ⟨raw, file, v, bytes, ts, st, saved, g, a1, a2, a3, a4, a5, a6, a7, a8⟩ := inv h1
  obtain ⟨raw', file', v', bytes', ts', st', saved', g', b1, b2, b3, b4, b5, b6, b7, b8⟩ := inv h2
  have := Except.ok.inj (a1.symm.trans b1)
  subst this
  have := Except.ok.inj (a2.symm.trans b2)
  subst this
  have := Except.ok.inj (a3.symm.trans b3)
  subst this
  have := Except.ok.inj (a5.symm.trans b5)
  subst this
  have hmp : maybeProcessFile m1 raw file p = maybeProcessFile m2 raw file p := by
    unfold maybeProcessFile; rw [hdb]
  rw [← hmp] at b4
  have := Except.ok.inj (a4.symm.trans b4)
  subst this
  have := Except.ok.inj (optimizedBy_one hsort hm1 hm2 (starts_input hg a3 a5) a6 b6)
  subst this
  rw [← hst] at b7
  have := Except.ok.inj (a7.symm.trans b7)
  subst this
  refine ⟨_, _, _, _, a8, b8, ?_, ?_⟩
  · rw [a8]; exact writeAll_last _ d _ _
  · rw [b8]; exact writeAll_last _ d _ _

/-- **C125** (they are runs).  What is proved about all runs of the commands holds for these. -/
theorem C125_is_a_run (sort : SortFn) (hsort : sort.Sorts) (m : Machine) (d : Files) (cmd : Command)
    (o : R Unit × List (Text × Bytes)) (h : ExecBy sort m d cmd o) : Exec m d cmd o :=
  ExecBy.exec hsort h

/-- **C125** (they exist).  For every sort, on data below 16 GiB that can be read, with a set that can be
started from: optimize has such a run, and if its files can be created it succeeds. -/
theorem C125_optimize_exists (sort : SortFn) (hsort : sort.Sorts) (m : Machine) (hm : MachineOk m) (d : Files)
    (data : Text) (processed : Option Text) (dir : Text) (p : Processing) (ty : TokenType) (ntokens : Nat)
    (inputTokens : Option Text) (hg : StartsGood d p ty ntokens inputTokens)
    (raw bytes : Bytes) (hdata : DataRead m d data processed p raw bytes)
    (hinput : ∀ f, inputTokens = some f → ∃ b ts, d.read f = some b ∧ readTokenSet b = .ok ts)
    (hsize : raw.length < 2 ^ 34)
    (hc : ∀ n ≤ ntokens, d.creatable (fileIn dir (tokenFile n p ty)) = true) :
    ∃ ws, ExecBy sort m d (.optimize data processed dir p ty ntokens inputTokens none) (.ok (), ws) := by
  obtain ⟨file, hr, hp, hd⟩ := dataRead_iff.1 hdata
  obtain ⟨v, ts, hi, ht⟩ : ∃ v ts, openInput d inputTokens = .ok v ∧ readInput v = .ok ts := by
    cases inputTokens with
    | none => exact ⟨none, none, rfl, rfl⟩
    | some f =>
      obtain ⟨b, ts, g1, g2⟩ := hinput f rfl
      obtain ⟨v, g3, g4⟩ := readJson_of g1 g2
      exact ⟨some v, some ts, by simp only [openInput, g3, R.ok_bind], by simp only [readInput, g4, R.ok_bind]⟩
  have hgood := starts_input hg hi ht
  have hsz : raw.length < 1 <<< 34 := by
    have : (1 <<< 34 : Nat) = 2 ^ 34 := by decide
    omega
  obtain ⟨env, h1, h2, _⟩ := memoryEnv_ok hm bytes (some raw.length)
  obtain ⟨st, w, h⟩ : ∃ st w, OptimizeBy sort env ntokens p ty ts (.ok st) w := by
    cases ts with
    | none => exact C66_exists sort hsort env h2 ty p ntokens hgood
    | some t =>
      obtain ⟨Fam, lo, hi, B, hl, _⟩ := workable_behaves hgood
      obtain ⟨r', w', hi⟩ := impl_total_by hsort B h2 hl (reached_ok (reached_new env []))
      obtain ⟨full, e, _⟩ := impl_ok B h2 hl (reached_ok (reached_new env [])) (hi.impl hsort)
      subst e
      exact ⟨_, _, .run .pure hi⟩
  have ho : OptimizedBy sort m bytes ntokens p ty raw.length ts none (.ok st) w.saved := .memory hsz h1 h
  obtain ⟨k1, _⟩ := (optimized_good hm hgood (OptimizedBy.optimized hsort ho)).result st rfl
  obtain ⟨g, _, hf, _⟩ := toJson_stats_ok m k1.regular.inRange
  have hex := ExecBy.optimize (tokensDir := dir) hr hp hi hd ht ho hf
  have hok := (C59_optimize_succeeds m hm d data processed dir p ty ntokens inputTokens hg raw bytes hdata hinput
    hsize hc).2 _ (ExecBy.exec hsort hex)
  revert hex hok
  generalize attempt d (inDir dir _) (.ok ()) = o
  intro hex hok
  obtain ⟨r, ws⟩ := o
  have hok' : r = .ok () := hok
  subst hok'
  exact ⟨ws, hex⟩

/-- **C125** (they exist).  For every loadable set and data file that can be read, convert has such a run. -/
theorem C125_convert_exists (sort : SortFn) (m : Machine) (hm : MachineOk m) (d : Files) (data : Text)
    (processed : Option Text) (inputTokens dir : Text) (b : Bytes) (ts : TokenSet)
    (hb : d.read inputTokens = some b) (hts : readTokenSet b = .ok ts) (hts' : Tokenizable ts)
    (raw bytes : Bytes) (hdata : DataRead m d data processed ts.processing raw bytes) :
    ∃ o, ExecBy sort m d (.convert data processed inputTokens dir) o := by
  obtain ⟨v, g3, g4⟩ := readJson_of hb hts
  obtain ⟨file, hr, hp, hd⟩ := dataRead_iff.1 hdata
  have hp' : ∀ t, TokenSet.fromJson v = .ok t → openProcessed d processed t.processing = .ok file := by
    intro t h
    have := Except.ok.inj (g4.symm.trans h)
    subst this
    exact hp
  have hin := (fromJson_loaded g4).inRange
  cases hs : fileSampler bytes (1 <<< 24) (fun _ => 1 <<< 24) with
  | error e => exact ⟨_, .convertFail g3 hr hp' (.tokenize g4 hd (.sampler hs))⟩
  | ok sd =>
    obtain ⟨st, h⟩ := tokenize_exists (env := ⟨sd, some raw.length, m.nthreads⟩)
      ⟨hm.threads, .inr (fileSampler_facts hs).2.1⟩ hts' hin
    have hw := ConvertFull.write g4 hd (.ok hs h)
    cases hsf : statsFile m st with
    | error e => rw [hsf] at hw; exact ⟨_, .convertFail g3 hr hp' hw⟩
    | ok g => rw [hsf] at hw; exact ⟨_, .convert g3 hr hp' hw⟩

/-- The two-byte file "ab", read in one piece or byte by byte. -/
theorem ab_full (n : Nat) (hn : 3 ≤ n) :
    fileSampler [97, 98] n (fun _ => n) = .ok ⟨[[97, 98]], 2⟩ := by
  have h1 : readAt [97, 98] 0 n n = [97, 98] := by
    unfold readAt
    obtain ⟨k, rfl⟩ := Nat.exists_eq_add_of_le' hn
    simp
  have h2 : readAt [97, 98] 2 n n = [] := by simp [readAt]
  have e1 : fileNext [97, 98] n 0 n = .ok (some ([97, 98], 2)) := by
    unfold fileNext
    rw [h1]
    simp only [List.length_cons, List.length_nil]
    rw [if_neg (by omega), if_pos (by omega)]
  have e2 : fileNext [97, 98] n 2 n = .ok none := by
    unfold fileNext
    rw [h2]
    rfl
  have hs : fileSlices [97, 98] n (fun _ => n) 3 0 0 = .ok [[97, 98]] := by
    rw [fileSlices, e1]
    simp only [R.ok_bind]
    rw [fileSlices, e2]
    rfl
  unfold fileSampler
  rw [show ([97, 98] : Bytes).length + 1 = 3 from rfl, hs]
  rfl

theorem ab_bytewise (n : Nat) (hn : 2 ≤ n) :
    fileSampler [97, 98] n (fun _ => 1) = .ok ⟨[[97], [98]], 2⟩ := by
  have e0 : fileNext [97, 98] n 0 1 = .ok (some ([97], 1)) := by
    unfold fileNext
    have : readAt [97, 98] 0 n 1 = [97] := by
      unfold readAt
      obtain ⟨k, rfl⟩ := Nat.exists_eq_add_of_le' hn
      simp
    rw [this]
    simp only [List.length_cons, List.length_nil]
    rw [if_neg (by omega), if_pos (by omega)]
  have e1 : fileNext [97, 98] n 1 1 = .ok (some ([98], 2)) := by
    unfold fileNext
    have : readAt [97, 98] 1 n 1 = [98] := by
      unfold readAt
      obtain ⟨k, rfl⟩ := Nat.exists_eq_add_of_le' hn
      simp
    rw [this]
    simp only [List.length_cons, List.length_nil]
    rw [if_neg (by omega), if_pos (by omega)]
  have e2 : fileNext [97, 98] n 2 1 = .ok none := by
    unfold fileNext
    have : readAt [97, 98] 2 n 1 = [] := by simp [readAt]
    rw [this]
    rfl
  have hs : fileSlices [97, 98] n (fun _ => 1) 3 0 0 = .ok [[97], [98]] := by
    rw [fileSlices, e0]
    simp only [R.ok_bind]
    rw [fileSlices, e1]
    simp only [R.ok_bind]
    rw [fileSlices, e2]
    rfl
  unfold fileSampler
  rw [show ([97, 98] : Bytes).length + 1 = 3 from rfl, hs]
  rfl

/-- **C125** (a deviation).  Without the assumption on reads this is not so: if `read` is allowed to return
fewer bytes than asked for before the end of the file, as it is, the same file with the same set may be counted
as one token or as more, because each read that is not full ends a sample. -/
theorem C125_short_reads (m : Machine) (hm : MachineOk m) (ts : TokenSet) (ht : Tokenizable ts)
    (hr : SeqsInRange ts) (hq : ∀ q ∈ ts.sequences, q.tokens ≠ []) (hab : Token.str [97, 98] ∈ ts.tokens)
    (n : Option Nat) :
    ∃ st1 st2, TokenizedFull m [97, 98] ts n (.ok st1) ∧ Tokenized m [97, 98] ts n (.ok st2) ∧
      st1.totalTokens ≤ 1 ∧ 2 ≤ st2.totalTokens := by
  have run : ∀ (l : List Bytes), (∀ x ∈ l, x ≠ []) → ∃ st, TokenizeFile ts ⟨l, 2⟩ n m.nthreads st :=
    fun l hl => tokenize_exists (env := ⟨⟨l, 2⟩, n, m.nthreads⟩) ⟨hm.threads, .inr hl⟩ ht hr
  obtain ⟨st1, h1⟩ := run [[97, 98]] (by simp)
  obtain ⟨st2, h2⟩ := run [[97], [98]] (by simp)
  refine ⟨st1, st2, .ok (ab_full _ (by decide)) h1, .ok (ab_bytewise _ (by decide)) h2, ?_, ?_⟩
  · obtain ⟨_, _, _, seg, hseg, htot⟩ := C05_accounting ts hr _ n st1 (C07_tokenize_file ts hr _ n _ hm.threads _ h1)
    obtain ⟨i, hi⟩ := List.mem_iff_getElem?.1 hab
    have hsp : Spells ts [.tok i] [97, 98] := by
      have : (Piece.tok i).string ts = some [97, 98] := by simp [Piece.string, hi]
      simpa using Spells.cons this .nil
    have := (hseg [97, 98] (by simp)).2 _ hsp
    have hl : (output ts [.tok i]).length = 1 := rfl
    simp only [List.map_cons, List.map_nil, List.sum_cons, List.sum_nil] at htot
    omega
  · obtain ⟨_, _, _, seg, hseg, htot⟩ := C05_accounting ts hr _ n st2 (C07_tokenize_file ts hr _ n _ hm.threads _ h2)
    have pos : ∀ x ∈ [([97] : Bytes), [98]], 1 ≤ (output ts (seg x)).length := by
      intro x hx
      have hne : x ≠ [] := by
        rintro rfl
        simp at hx
      have hsp := (hseg x hx).1
      revert hsp
      generalize seg x = ps
      intro hsp
      cases hsp with
      | nil => exact absurd rfl hne
      | @cons p s ps t hp _ =>
        have : 1 ≤ (Piece.output ts p).length := by
          cases p with
          | tok i => exact Nat.le_refl 1
          | seq j =>
            unfold Piece.string at hp
            unfold Piece.output
            cases hj : ts.sequences[j]? with
            | none => simp [hj] at hp
            | some q =>
              have := hq q (List.mem_of_getElem? hj)
              simp only [hj]
              exact List.length_pos_iff.2 this
        unfold output
        rw [List.flatMap_cons, List.length_append]
        omega
    have a := pos [97] (by simp)
    have b := pos [98] (by simp)
    simp only [List.map_cons, List.map_nil, List.sum_cons, List.sum_nil] at htot
    omega

/-! ### Examples -/

-- optimize with four threads and with one, with a sort that is stable: the same result file
example : ∃ before1 before2 path b,
    ExecBy (fun key l => l.mergeSort (fun a b => decide (key a ≤ key b))) aMachine someFiles
      (.optimize "data".toList none "dir".toList .capsWords .bytesHuff 300 none none)
      (.ok (), before1 ++ [(path, b)]) ∧
    ExecBy (fun key l => l.mergeSort (fun a b => decide (key a ≤ key b))) { aMachine with nthreads := 1 } someFiles
      (.optimize "data".toList none "dir".toList .capsWords .bytesHuff 300 none none)
      (.ok (), before2 ++ [(path, b)]) := by
  have hm : MachineOk { aMachine with nthreads := 1 } := ⟨by decide⟩
  have hd : ∃ bytes, ∀ k, DataRead { aMachine with nthreads := k } someFiles "data".toList none .capsWords [97, 98, 10] bytes := by
    obtain ⟨out, ho⟩ := processFile_ok aMachine.db ['a', 'b', '\n']
    exact ⟨utf8Encode out, fun k => .made (m := { aMachine with nthreads := k }) (text := ['a', 'b', '\n']) rfl rfl ho⟩
  obtain ⟨bytes, hd⟩ := hd
  have hg : StartsGood someFiles .capsWords .bytesHuff 300 none := by show 3 ≤ 300; decide
  obtain ⟨ws1, h1⟩ := C125_optimize_exists _ stable_sorts aMachine aMachine_ok someFiles _ none "dir".toList
    .capsWords .bytesHuff 300 none hg [97, 98, 10] bytes (hd 4) (fun _ h => by cases h) (by decide) (fun _ _ => rfl)
  obtain ⟨ws2, h2⟩ := C125_optimize_exists _ stable_sorts _ hm someFiles _ none "dir".toList
    .capsWords .bytesHuff 300 none hg [97, 98, 10] bytes (hd 1) (fun _ h => by cases h) (by decide) (fun _ _ => rfl)
  obtain ⟨b1, b2, path, b, e1, e2, _⟩ := C125_optimize _ stable_sorts _ _ aMachine_ok hm rfl rfl someFiles _ none _ _ _
    _ none none hg ws1 ws2 h1 h2
  subst e1 e2
  exact ⟨b1, b2, path, b, h1, h2⟩

-- a set with the token "ab"
example : Tokenizable Example.grown ∧ SeqsInRange Example.grown ∧ (∀ q ∈ Example.grown.sequences, q.tokens ≠ []) ∧
    Token.str [97, 98] ∈ Example.grown.tokens :=
  ⟨Example.grown_ok.1, Example.grown_ok.2, by decide +kernel, by decide +kernel⟩

end Tokens.Props
