import Verif.Model.Together
import Verif.Spec.Together
import Verif.Props.Beforehand
import Verif.Props.Running

/-!
Several runs at the same time: each is as if it were alone, if none writes what another reads or writes.
-/

namespace Tokens
open Spec TokenSet Optimize Batch Main Input Disk Props

set_option linter.unusedVariables false

/-! ### A command depends only on the files it reads -/

theorem exec_reads {m : Machine} {d d' : Files} {cmd : Command} (h : ∀ path, Reads cmd path → d'.read path = d.read path)
    (hc : d'.creatable = d.creatable) {o : R Unit × List (Text × Bytes)} (he : Exec m d cmd o) : Exec m d' cmd o := by
  cases he with
  | processOpen h1 => exact .processOpen (by rw [h _ rfl]; exact h1)
  | @process data output file out ok h1 hf hp =>
    rw [attempt_congr hc.symm]
    refine .process (by rw [h _ rfl]; exact h1) ?_ hp
    have := h data rfl
    simp only [Files.write] at hf ⊢
    split
    · rename_i e; rw [if_pos e] at hf; exact hf
    · rename_i e; rw [if_neg e] at hf; rw [this]; exact hf
  | @processPanic data output file part e h1 hf hp =>
    rw [attempt_congr hc.symm]
    refine .processPanic (by rw [h _ rfl]; exact h1) ?_ hp
    have := h data rfl
    simp only [Files.write] at hf ⊢
    split
    · rename_i e; rw [if_pos e] at hf; exact hf
    · rename_i e; rw [if_neg e] at hf; rw [this]; exact hf
  | @countChars data r order ho hr =>
    refine .countChars order ho ?_
    rw [openFile_congr (h data rfl)]; exact hr
  | @convertOpen data processed inputTokens tokensDir e h1 =>
    refine .convertOpen ?_
    rw [readJson_congr (h inputTokens (.inr (.inr rfl))), openFile_congr (h data (.inl rfl))]
    rcases h1 with h1 | h1 | ⟨v, ts, a, b, c⟩
    · exact .inl h1
    · exact .inr (.inl h1)
    · refine .inr (.inr ⟨v, ts, a, b, ?_⟩)
      rw [openProcessed_congr (fun f hf => h f (.inr (.inl hf)))]; exact c
  | @convertFail data processed inputTokens tokensDir v raw file e hv hr hp h1 =>
    refine .convertFail ?_ ?_ (fun ts hts => ?_) h1
    · rw [readJson_congr (h inputTokens (.inr (.inr rfl)))]; exact hv
    · rw [openFile_congr (h data (.inl rfl))]; exact hr
    · rw [openProcessed_congr (fun f hf => h f (.inr (.inl hf)))]; exact hp ts hts
  | @convert data processed inputTokens tokensDir v raw file f hv hr hp h1 =>
    rw [attempt_congr hc.symm]
    refine .convert ?_ ?_ (fun ts hts => ?_) h1
    · rw [readJson_congr (h inputTokens (.inr (.inr rfl)))]; exact hv
    · rw [openFile_congr (h data (.inl rfl))]; exact hr
    · rw [openProcessed_congr (fun f hf => h f (.inr (.inl hf)))]; exact hp ts hts
  | @optimizeOpen data processed tokensDir p ty ntokens inputTokens minSize e h1 =>
    refine .optimizeOpen ?_
    rw [openFile_congr (h data (.inl rfl)), openProcessed_congr (fun f hf => h f (.inr (.inl hf))),
      openInput_congr (fun f hf => h f (.inr (.inr hf)))]
    exact h1
  | @optimizePrepare data processed tokensDir p ty ntokens inputTokens minSize raw file v e hr hp hi h1 =>
    refine .optimizePrepare ?_ ?_ ?_ h1
    · rw [openFile_congr (h data (.inl rfl))]; exact hr
    · rw [openProcessed_congr (fun f hf => h f (.inr (.inl hf)))]; exact hp
    · rw [openInput_congr (fun f hf => h f (.inr (.inr hf)))]; exact hi
  | @optimizeFail data processed tokensDir p ty ntokens inputTokens minSize raw file v bytes ts r saved e hr hp hi hd ht ho h1 =>
    rw [attempt_congr hc.symm]
    refine .optimizeFail ?_ ?_ ?_ hd ht ho h1
    · rw [openFile_congr (h data (.inl rfl))]; exact hr
    · rw [openProcessed_congr (fun f hf => h f (.inr (.inl hf)))]; exact hp
    · rw [openInput_congr (fun f hf => h f (.inr (.inr hf)))]; exact hi
  | @optimize data processed tokensDir p ty ntokens inputTokens minSize raw file v bytes ts st saved f hr hp hi hd ht ho h1 =>
    rw [attempt_congr hc.symm]
    refine .optimize ?_ ?_ ?_ hd ht ho h1
    · rw [openFile_congr (h data (.inl rfl))]; exact hr
    · rw [openProcessed_congr (fun f hf => h f (.inr (.inl hf)))]; exact hp
    · rw [openInput_congr (fun f hf => h f (.inr (.inr hf)))]; exact hi

theorem running_reads {m : Machine} {d d' : Files} {cmd : Command}
    (h : ∀ path, Reads cmd path → d'.read path = d.read path) (hc : d'.creatable = d.creatable)
    {ws : List (Text × Bytes)} (he : Running m d cmd ws) : Running m d' cmd ws := by
  cases he with
  | nothing => exact .nothing
  | @optimize data processed tokensDir p ty ntokens inputTokens minSize raw file v bytes ts saved hr hp hi hd ht ho =>
    rw [attempt_congr hc.symm]
    refine .optimize ?_ ?_ ?_ hd ht ho
    · rw [openFile_congr (h data (.inl rfl))]; exact hr
    · rw [openProcessed_congr (fun f hf => h f (.inr (.inl hf)))]; exact hp
    · rw [openInput_congr (fun f hf => h f (.inr (.inr hf)))]; exact hi
  | ended he => exact .ended (exec_reads h hc he)

theorem begins_reads {m : Machine} {d d' : Files} {cmd : Command}
    (h : ∀ path, Reads cmd path → d'.read path = d.read path) (hc : d'.creatable = d.creatable)
    {res : Option (R Unit)} {ws : List (Text × Bytes)} (he : Begins m d cmd res ws) : Begins m d' cmd res ws := by
  cases res with
  | none => exact running_reads h hc he
  | some r => exact exec_reads h hc he

theorem begins_running {m : Machine} {d : Files} {cmd : Command} {res : Option (R Unit)} {ws : List (Text × Bytes)}
    (he : Begins m d cmd res ws) : Running m d cmd ws := by
  cases res with
  | none => exact he
  | some r => exact .ended he

/-! ### Calls -/

theorem write_write (d : Files) (path : Text) (a b : Bytes) : (d.write path a).write path b = d.write path b := by
  unfold Files.write
  congr 1
  funext q
  by_cases h : q = path <;> simp [h]

theorem apply_creatable (d : Files) (c : Call) : (c.apply d).creatable = d.creatable := by
  cases c <;> rfl

theorem apply_other (d : Files) (c : Call) {path : Text} (h : c.path ≠ path) : (c.apply d).read path = d.read path := by
  cases c with
  | create q => exact if_neg (fun e => h e.symm)
  | write q k x => exact if_neg (fun e => h e.symm)

theorem apply_same {d d' : Files} (c : Call) {path : Text} (h : d.read path = d'.read path) :
    (c.apply d).read path = (c.apply d').read path := by
  by_cases e : c.path = path
  · cases c with
    | create q =>
      have : q = path := e
      subst this
      simp [Call.apply, Files.write]
    | write q k x =>
      have : q = path := e
      subst this
      simp [Call.apply, Files.write, h]
  · rw [apply_other _ _ e, apply_other _ _ e, h]

theorem applyCalls_append (d : Files) (a b : List Call) : applyCalls d (a ++ b) = applyCalls (applyCalls d a) b := by
  induction a generalizing d with
  | nil => rfl
  | cons c a ih => exact ih _

theorem applyCalls_creatable (d : Files) (a : List Call) : (applyCalls d a).creatable = d.creatable := by
  induction a generalizing d with
  | nil => rfl
  | cons c a ih => exact (ih _).trans (apply_creatable d c)

theorem overlay_end (old x : Bytes) : overlay old old.length x = old ++ x := by
  unfold overlay
  split
  · next h => simp [h]
  · simp

/-- Writing pieces at the end of a file. -/
theorem applyCalls_pieces (d : Files) (path : Text) (pieces : List Bytes) (start : Bytes) :
    applyCalls (d.write path start) (writesAt path start.length pieces) = d.write path (start ++ pieces.flatten) := by
  induction pieces generalizing start with
  | nil => simp [applyCalls, writesAt]
  | cons x pieces ih =>
    rw [writesAt, applyCalls]
    have : Call.apply (d.write path start) (.write path start.length x) = d.write path (start ++ x) := by
      show (d.write path start).write path (overlay (((d.write path start).read path).getD []) start.length x) = _
      rw [write_write]
      have : ((d.write path start).read path).getD [] = start := by simp [Files.write]
      rw [this, overlay_end]
    rw [this]
    have := ih (start ++ x)
    rw [List.length_append] at this
    rw [this]
    simp

theorem writesAt_mem {path : Text} {pieces : List Bytes} {pos : Nat} {c : Call} (h : c ∈ writesAt path pos pieces) :
    ∃ l x r, pieces.flatten = l ++ x ++ r ∧ c = .write path (pos + l.length) x := by
  induction pieces generalizing pos with
  | nil => cases h
  | cons y pieces ih =>
    rcases List.mem_cons.1 h with rfl | h
    · exact ⟨[], y, pieces.flatten, by simp, by simp⟩
    · obtain ⟨l, x, r, e1, e2⟩ := ih h
      refine ⟨y ++ l, x, r, by simp [e1], ?_⟩
      rw [e2, List.length_append, Nat.add_assoc]

theorem writesAt_split {path : Text} {pieces : List Bytes} {pos : Nat} {a b : List Call}
    (h : writesAt path pos pieces = a ++ b) : ∃ k1 k2, pieces = k1 ++ k2 ∧ a = writesAt path pos k1 := by
  induction pieces generalizing pos a with
  | nil =>
    rw [writesAt] at h
    have : a = [] := by have := congrArg List.length h; simp at this; exact List.length_eq_zero_iff.1 (by omega)
    exact ⟨[], [], rfl, this⟩
  | cons y pieces ih =>
    cases a with
    | nil => exact ⟨[], y :: pieces, rfl, rfl⟩
    | cons c a =>
      rw [writesAt, List.cons_append] at h
      obtain ⟨h1, h2⟩ := List.cons.inj h
      obtain ⟨k1, k2, e1, e2⟩ := ih h2
      exact ⟨y :: k1, k2, by rw [e1]; rfl, by rw [writesAt, ← h1, e2]⟩

theorem callsFor_paths {ws : List (Text × Bytes)} {calls : List Call} (h : CallsFor ws calls) :
    ∀ c ∈ calls, ∃ w ∈ ws, w.1 = c.path := by
  induction h with
  | nil => intro c hc; cases hc
  | @cons path b ws cs pieces hp h ih =>
    intro c hc
    rcases List.mem_cons.1 hc with rfl | hc
    · exact ⟨(path, b), by simp, rfl⟩
    · rcases List.mem_append.1 hc with hc | hc
      · obtain ⟨_, _, _, _, rfl⟩ := writesAt_mem hc
        exact ⟨(path, b), by simp, rfl⟩
      · obtain ⟨w, h1, h2⟩ := ih c hc
        exact ⟨w, by simp [h1], h2⟩

/-- All calls done: all files written. -/
theorem callsFor_all {ws : List (Text × Bytes)} {calls : List Call} (h : CallsFor ws calls) (d : Files) :
    applyCalls d calls = writeAll d ws := by
  induction h generalizing d with
  | nil => rfl
  | @cons path b ws cs pieces hp h ih =>
    rw [applyCalls, applyCalls_append]
    show applyCalls (applyCalls (d.write path []) _) cs = _
    have hq := applyCalls_pieces d path pieces []
    rw [List.length_nil] at hq
    rw [hq, List.nil_append, hp, ih]
    rfl

/-- Some of the calls done: stopped in between. -/
theorem callsFor_some {ws : List (Text × Bytes)} {calls : List Call} (h : CallsFor ws calls) :
    ∀ (d : Files) (a b : List Call), a ++ b = calls → Stopped ws d (applyCalls d a) := by
  induction h with
  | nil =>
    intro d a b e
    have : a = [] := by simp at e; exact e.1
    subst this
    exact .before
  | @cons path x ws cs pieces hp h ih =>
    intro d a b e
    cases a with
    | nil => exact .before
    | cons c a =>
      rw [List.cons_append] at e
      obtain ⟨rfl, e'⟩ := List.cons.inj e
      clear e
      show Stopped _ d (applyCalls (d.write path []) a)
      rw [List.append_eq_append_iff] at e'
      rcases e' with ⟨l, e1, e2⟩ | ⟨l, e1, e2⟩
      · -- in the middle of this file
        obtain ⟨k1, k2, e3, e4⟩ := writesAt_split e1
        subst e4
        have hq := applyCalls_pieces d path k1 []
        rw [List.length_nil] at hq
        rw [hq, List.nil_append]
        refine .during (rest := k2.flatten) ?_
        rw [← hp, e3, List.flatten_append]
      · subst e1
        have hq := applyCalls_pieces d path pieces []
        rw [List.length_nil] at hq
        rw [applyCalls_append, hq, List.nil_append, hp]
        exact .after (ih _ l b e2.symm)

/-! ### Several runs -/

/-- Each run started is as if it were alone. -/
structure Apart (prog : Nat → Option (Machine × Command)) (W : Nat → Text → Prop) (d : Files) (s : Together) :
    Prop where
  creatable : s.files.creatable = d.creatable
  begins : ∀ i j, s.job i = some j → ∃ m cmd, prog i = some (m, cmd) ∧ Begins m d cmd j.result j.writes ∧
    CallsFor j.writes (j.done ++ j.todo) ∧ ∀ w ∈ j.writes, W i w.1
  files : ∀ i path, W i path →
    s.files.read path = (match s.job i with
      | some j => (applyCalls d j.done).read path
      | none => d.read path)
  others : ∀ path, (∀ i, ¬ W i path) → s.files.read path = d.read path

variable {prog : Nat → Option (Machine × Command)} {W : Nat → Text → Prop} {d : Files}

theorem apart_step
    (hW : ∀ i m cmd ws, prog i = some (m, cmd) → Running m d cmd ws → ∀ w ∈ ws, W i w.1)
    (hww : ∀ i j path, i ≠ j → W i path → ¬ W j path)
    (hwr : ∀ i j m cmd path, i ≠ j → W i path → prog j = some (m, cmd) → ¬ Reads cmd path)
    {s t : Together} (h : Apart prog W d s) (hs : Together.Step prog s t) : Apart prog W d t := by
  cases hs with
  | @start i m cmd result ws calls hp hn hb hc =>
    -- what it reads is as at the beginning
    have hread : ∀ path, Reads cmd path → d.read path = s.files.read path := by
      intro path hr
      by_cases hw : ∃ k, W k path
      · obtain ⟨k, hk⟩ := hw
        by_cases e : k = i
        · subst e
          have := h.files k path hk
          rw [hn] at this
          exact this.symm
        · exact absurd hr (hwr k i m cmd path e hk hp)
      · exact (h.others path (fun k hk => hw ⟨k, hk⟩)).symm
    have hb' : Begins m d cmd result ws := begins_reads hread h.creatable.symm hb
    refine ⟨h.creatable, ?_, ?_, h.others⟩
    · intro k j hj
      by_cases e : k = i
      · subst e
        simp only [if_true] at hj
        have := Option.some.inj hj
        subst this
        exact ⟨m, cmd, hp, hb', hc, hW k m cmd ws hp (begins_running hb')⟩
      · simp only [if_neg e] at hj
        exact h.begins k j hj
    · intro k path hk
      by_cases e : k = i
      · subst e
        have := h.files k path hk
        rw [hn] at this
        simp only [if_true]
        exact this
      · simp only [if_neg e]
        exact h.files k path hk
  | @call i j c rest hj ht =>
    obtain ⟨m, cmd, b0, b1, b2, b3⟩ := h.begins i j hj
    have hwc : W i c.path := by
      obtain ⟨w, h1, h2⟩ := callsFor_paths b2 c (by rw [ht]; simp)
      rw [← h2]; exact b3 w h1
    refine ⟨(apply_creatable _ _).trans h.creatable, ?_, ?_, ?_⟩
    · intro k j' hj'
      by_cases e : k = i
      · subst e
        simp only [if_true] at hj'
        have := Option.some.inj hj'
        subst this
        refine ⟨m, cmd, b0, b1, ?_, b3⟩
        show CallsFor j.writes ((j.done ++ [c]) ++ rest)
        rw [List.append_assoc, List.singleton_append, ← ht]
        exact b2
      · simp only [if_neg e] at hj'
        exact h.begins k j' hj'
    · intro k path hk
      by_cases e : k = i
      · subst e
        simp only [if_true]
        rw [applyCalls_append]
        have := h.files k path hk
        rw [hj] at this
        exact apply_same c this
      · simp only [if_neg e]
        have hne : c.path ≠ path := by
          rintro rfl
          exact hww k i _ e hk hwc
        rw [apply_other _ _ hne]
        exact h.files k path hk
    · intro path hp
      have hne : c.path ≠ path := by
        rintro rfl
        exact hp i hwc
      rw [apply_other _ _ hne]
      exact h.others path hp

theorem apart_fresh : Apart prog W d (Together.fresh d) :=
  ⟨rfl, fun i j h => (nomatch h), fun i path _ => rfl, fun path _ => rfl⟩

theorem apart_steps
    (hW : ∀ i m cmd ws, prog i = some (m, cmd) → Running m d cmd ws → ∀ w ∈ ws, W i w.1)
    (hww : ∀ i j path, i ≠ j → W i path → ¬ W j path)
    (hwr : ∀ i j m cmd path, i ≠ j → W i path → prog j = some (m, cmd) → ¬ Reads cmd path)
    {s t : Together} (h : Apart prog W d s) (hs : Together.Steps prog s t) : Apart prog W d t := by
  induction hs with
  | refl => exact h
  | tail _ hs ih => exact apart_step hW hww hwr ih hs

/-! ### Names -/

theorem fileIn_inj {dir a b : Text} (h : fileIn dir a = fileIn dir b) : a = b := by
  unfold fileIn at h
  cases hd : dir.getLast? with
  | none => simpa [hd] using h
  | some c =>
    simp only [hd] at h
    split at h
    · exact List.append_cancel_left h
    · exact List.append_cancel_left h

theorem tokenFile_inj {n n' : Nat} {p p' : Processing} {ty ty' : TokenType}
    (h : tokenFile n p ty = tokenFile n' p' ty') : n = n' ∧ p = p' ∧ ty = ty' := by
  have mk : ∀ n p ty, ∃ ts : TokenSet, ts.tokens.length = n ∧ ts.processing = p ∧ ts.tokenType = ty :=
    fun n p ty => ⟨⟨0, ty, p, false, List.replicate n (.ext 0), []⟩, by simp, rfl, rfl⟩
  obtain ⟨a, a1, a2, a3⟩ := mk n p ty
  obtain ⟨b, b1, b2, b3⟩ := mk n' p' ty'
  subst a1 a2 a3 b1 b2 b3
  rw [← tokenFile_name, ← tokenFile_name] at h
  exact (C19_name_iff a b).1 (List.append_cancel_right h)

end Tokens
