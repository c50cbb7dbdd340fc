import Verif.Model.Faults
import Verif.Props.Reading
import Verif.Props.Running
import Verif.Props.Temporary

/-! The commands on devices that may fail. -/

set_option linter.unusedVariables false

namespace Tokens
namespace Faults
open Spec TokenSet Optimize Batch Main Input Disk Props

/-- What is left when some of the writes fail is what may be left when the program is stopped. -/
theorem writeFiles_stopped {d0 : Files} {ws left : List (Text × Bytes)} {ok : Bool}
    (h : WriteFiles d0 ws left ok) : ∀ {d d' : Files}, Stopped left d d' → Stopped ws d d' := by
  induction h with
  | done => exact fun h => h
  | ok hc h hw ih =>
    intro d d' hs
    have e := (C78_files _ _ _ h).2.1 rfl
    subst e
    cases hs with
    | before => exact .before
    | during h => exact .during h
    | after h => exact .after (ih h)
  | @fail path b ws out e h =>
    intro d d' hs
    obtain ⟨rest, e⟩ := (C78_files _ _ _ h).1
    cases hs with
    | before => exact .before
    | @during _ _ _ _ part rest' h =>
      exact .during (rest := rest' ++ rest) (by rw [← List.append_assoc, h, e])
    | after h =>
      cases h
      exact .during e
  | create =>
    intro d d' hs
    cases hs
    exact .before

theorem writeFiles_ok {d : Files} {ws left : List (Text × Bytes)} (h : WriteFiles d ws left true) :
    left = ws ∧ ws.all (fun w => d.creatable w.1) = true := by
  generalize hk : true = ok at h
  induction h with
  | done => exact ⟨rfl, rfl⟩
  | ok hc h hw ih =>
    obtain ⟨e1, e2⟩ := ih hk
    have e := (C78_files _ _ _ h).2.1 rfl
    subst e e1
    exact ⟨rfl, by simp [hc, e2]⟩
  | fail => cases hk
  | create => cases hk

theorem writeFiles_all {d : Files} : ∀ (ws : List (Text × Bytes)), ws.all (fun w => d.creatable w.1) = true →
    WriteFiles d ws ws true
  | [], _ => .done
  | (path, b) :: ws, h => by
    simp only [List.all_cons, Bool.and_eq_true] at h
    exact .ok h.1 (.ok (Writing.putAll_all b)) (writeFiles_all ws h.2)

theorem writeFiles_sub {d : Files} {ws left : List (Text × Bytes)} {ok : Bool} (h : WriteFiles d ws left ok) :
    ∀ w ∈ left, ∃ b, (w.1, b) ∈ ws ∧ w.2 <+: b := by
  induction h with
  | done => simp
  | ok hc h hw ih =>
    intro w hw
    rcases List.mem_cons.1 hw with rfl | hw
    · exact ⟨_, List.mem_cons_self, (C78_files _ _ _ h).1⟩
    · obtain ⟨b, h1, h2⟩ := ih w hw
      exact ⟨b, List.mem_cons_of_mem _ h1, h2⟩
  | fail h =>
    intro w hw
    rw [List.mem_singleton] at hw
    subst hw
    exact ⟨_, List.mem_cons_self, (C78_files _ _ _ h).1⟩
  | create => simp

theorem prepare_read {m : Machine} {d : Files} {data : Text} {raw bytes : Bytes} {processed : Option Text}
    {p : Processing} (hr : d.read data = some raw) (h : Prepare m d raw processed p bytes) :
    ∃ whole, DataRead m d data processed p raw whole ∧ Shortened whole bytes ∧
      (p = .raw ∨ processed.isSome → bytes = whole) := by
  have same : ∀ whole : Bytes, Shortened whole whole := fun _ => ⟨[], by simp, by simp⟩
  cases h with
  | raw => exact ⟨raw, .raw hr, same _, fun _ => rfl⟩
  | given h => exact ⟨bytes, .given hr rfl h, same _, fun _ => rfl⟩
  | temp h =>
    obtain ⟨_, h'⟩ := C83_process m.db raw bytes _ h
    cases hv : validUtf8 raw with
    | false => exact absurd rfl (C78_not_text m.db raw hv bytes _ h')
    | true =>
      obtain ⟨text, rfl⟩ := validUtf8_iff.1 hv
      obtain ⟨z, hz⟩ := processFile_ok m.db text
      obtain ⟨lost, e1, e2, _⟩ := C78_process_partial m.db text z hz bytes _ h'
      exact ⟨_, .made hr rfl hz, ⟨lost, e1, e2 rfl⟩, fun h => by simp at h⟩

theorem prepare_of {m : Machine} {d : Files} {data : Text} {raw bytes : Bytes} {processed : Option Text}
    {p : Processing} (h : DataRead m d data processed p raw bytes) : Prepare m d raw processed p bytes := by
  cases h with
  | raw h => exact .raw
  | given h hp hf => subst hp; exact .given hf
  | made h hp ho => subst hp; exact .temp (C83_process_works m.db _ _ ho)

theorem tokenized_real {m : Machine} {file : Bytes} {ts : TokenSet} {n : Option Nat} {st : TokenStats}
    (h : Tokenized m file ts n st) : Main.Tokenized m file ts n (.ok st) := by
  cases h with
  | ok hs ht =>
    obtain ⟨⟨short, h⟩, _⟩ := C83_file_sampler _ _ (by decide) _ _ hs
    exact .ok h ht

theorem sampleEnv_real {m : Machine} {file : Bytes} {size : Nat} {n : Option Nat} {env : Env}
    (h : SampleEnv m file size n env) : sampleEnv m file size n = .ok env := by
  cases h with
  | @ok s sd ok hs hm =>
    obtain ⟨h1, h2⟩ := C83_sample _ _ _ _ _ hs
    cases ok with
    | false => obtain ⟨e, he⟩ := h2 rfl; cases he
    | true =>
      have h3 := (h1 rfl).symm
      have hdat : s = ⟨s.data, 1 <<< 20⟩ := by
        unfold sampleFromFile at h3
        cases hl : sampleLoop (lessShare size file.length) (splitLines file) [] [] 0 with
        | error e => rw [hl] at h3; cases h3
        | ok d => rw [hl] at h3; exact (Except.ok.inj h3) ▸ rfl
      unfold sampleEnv memoryEnv
      rw [h3, R.ok_bind, ← hdat, hm]
      rfl

theorem increasing_real {m : Machine} {file : Bytes} {ntokens : Nat} {p : Processing} {ty : TokenType}
    {n : Option Nat} {size : Nat} {ts : Option TokenSet} {r : Option TokenStats} {saved : List (Text × Text)}
    (h : Increasing m file ntokens p ty n size ts r saved) :
    (r = none → PartIncreasing m file ntokens p ty n size ts saved) ∧
    ∀ st, r = some st → Main.Increasing m file ntokens p ty n size ts (.ok st) saved := by
  induction h with
  | head => exact ⟨fun _ => .head, fun st e => by cases e⟩
  | optimize h hs hb ho => exact ⟨fun _ => .optimize h (sampleEnv_real hs) hb ho, fun st e => by cases e⟩
  | after h hs hb ho => exact ⟨fun _ => .after h (sampleEnv_real hs) hb ho, fun st e => by cases e⟩
  | stop h hs hb ho hf hstop =>
    refine ⟨(fun e => by cases e), fun st e => ?_⟩
    have := Option.some.inj e
    subst this
    exact .stop h (sampleEnv_real hs) hb ho (tokenized_real hf) hstop
  | again h hs hb ho hf hstop hr ih =>
    exact ⟨fun e => .again h (sampleEnv_real hs) hb ho (tokenized_real hf) hstop (ih.1 e),
      fun st e => .again h (sampleEnv_real hs) hb ho (tokenized_real hf) hstop (ih.2 st e)⟩

theorem fromFile_real {data : Bytes} {k : Nat} {s : MemorySampler} {ok : Bool}
    (h : Reading.FromFile data k (.ok s) ok) : s = ⟨data, k⟩ := by
  obtain ⟨h1, h2⟩ := C83_memory _ _ _ _ h
  cases ok with
  | false => obtain ⟨e, he⟩ := h2 rfl; cases he
  | true => exact Except.ok.inj (h1 rfl)

/-- Full reads or failures: without a failure these are the samples of full reads. -/
theorem fileSampler_full {data : Bytes} {reads : Nat → Option Nat} {sd : SamplerData}
    (hr : ∀ i, reads i = none ∨ reads i = some (1 <<< 24))
    (h : Reading.fileSampler data (1 <<< 24) reads = .ok sd) :
    Input.fileSampler data (1 <<< 24) (fun _ => 1 <<< 24) = .ok sd := by
  obtain ⟨l', h1, -⟩ := C24_file_partition data (1 <<< 24) (by decide) (fun _ => 1 <<< 24)
  unfold Reading.fileSampler at h
  unfold Input.fileSampler
  rw [h1, R.ok_bind]
  rcases Reading.fileSlices_error data (1 <<< 24) reads (fun _ => 1 <<< 24) _ 0 0 l' hr h1 with e | e
  · rw [e, R.ok_bind] at h; exact h
  · rw [e] at h; cases h

/-- And conversely. -/
theorem fileSampler_never {data : Bytes} {short : Nat → Nat} {sd : SamplerData}
    (h : Input.fileSampler data (1 <<< 24) short = .ok sd) :
    Reading.fileSampler data (1 <<< 24) (fun i => some (short i)) = .ok sd := by
  have key : ∀ (f i offset : Nat), Reading.fileSlices data (1 <<< 24) (fun i => some (short i)) f i offset =
      Input.fileSlices data (1 <<< 24) short f i offset := by
    intro f
    induction f with
    | zero => intros; rfl
    | succ f ih =>
      intro i offset
      rw [Reading.fileSlices, Input.fileSlices]
      simp only
      cases fileNext data (1 <<< 24) offset (short i) with
      | error e => rfl
      | ok o =>
        simp only [R.ok_bind]
        cases o with
        | none => rfl
        | some q => simp only [ih]
  unfold Reading.fileSampler
  rw [key]
  exact h

theorem wholeEnv_real {m : Machine} {data : Bytes} {rawSize : Nat} {env : Env} (h : WholeEnv m data rawSize env) :
    (rawSize < 1 <<< 34 ∧ memoryEnv m data (some rawSize) = .ok env) ∨
    ∃ sd, ¬ rawSize < 1 <<< 34 ∧ Input.fileSampler data (1 <<< 24) (fun _ => 1 <<< 24) = .ok sd ∧
      env = ⟨sd, some rawSize, m.nthreads⟩ := by
  cases h with
  | memory hsize hf hm =>
    refine .inl ⟨hsize, ?_⟩
    rw [fromFile_real hf] at hm
    unfold memoryEnv
    rw [hm]; rfl
  | file hsize hr hf => exact .inr ⟨_, hsize, fileSampler_full hr hf, rfl⟩

theorem wholeEnv_of {m : Machine} {data : Bytes} {rawSize : Nat} {env : Env} (hsize : rawSize < 1 <<< 34)
    (h : memoryEnv m data (some rawSize) = .ok env) : WholeEnv m data rawSize env := by
  unfold memoryEnv at h
  cases hms : memorySampler ⟨data, 1 <<< 20⟩ with
  | error e => rw [hms] at h; cases h
  | ok sd =>
    rw [hms] at h
    have := Except.ok.inj h
    subst this
    exact .memory hsize (.run (Reading.pull_all data)) hms

/-- What the optimizer does on these devices is what it may do on perfect ones, up to some moment. -/
theorem optimized_real {m : Machine} {data : Bytes} {ntokens : Nat} {p : Processing} {ty : TokenType}
    {rawSize : Nat} {input : Option TokenSet} {minSize : Option Nat} {r : Option TokenStats}
    {saved : List (Text × Text)} (h : Optimized m data ntokens p ty rawSize input minSize r saved) :
    (r = none → saved = [] ∨ PartOptimized m data ntokens p ty rawSize input minSize saved) ∧
    ∀ st, r = some st → Main.Optimized m data ntokens p ty rawSize input minSize (.ok st) saved := by
  cases h with
  | nothing => exact ⟨fun _ => .inl rfl, fun st e => by cases e⟩
  | increasing h =>
    obtain ⟨h1, h2⟩ := increasing_real h
    exact ⟨fun e => .inr (.increasing (h1 e)), fun st e => .increasing (h2 st e)⟩
  | part he h =>
    refine ⟨fun _ => .inr ?_, fun st e => by cases e⟩
    rcases wholeEnv_real he with ⟨h1, h2⟩ | ⟨sd, h1, h2, rfl⟩
    · exact .memory h1 h2 h
    · exact .file h1 h2 h
  | whole he h =>
    refine ⟨(fun e => by cases e), fun st e => ?_⟩
    have := Option.some.inj e
    subst this
    rcases wholeEnv_real he with ⟨h1, h2⟩ | ⟨sd, h1, h2, rfl⟩
    · exact .memory h1 h2 h
    · exact .file h1 h2 h

theorem tokenized_of {m : Machine} {file : Bytes} {ts : TokenSet} {n : Option Nat} {st : TokenStats}
    (h : Main.Tokenized m file ts n (.ok st)) : Tokenized m file ts n st := by
  cases h with
  | ok hs ht => exact .ok (fileSampler_never hs) ht

theorem sampleEnv_of {m : Machine} {file : Bytes} {size : Nat} {n : Option Nat} {env : Env}
    (h : sampleEnv m file size n = .ok env) : SampleEnv m file size n env := by
  unfold sampleEnv memoryEnv at h
  cases hsf : sampleFromFile file size (1 <<< 20) with
  | error e => rw [hsf] at h; cases h
  | ok s =>
    have hdat : s = ⟨s.data, 1 <<< 20⟩ := by
      unfold sampleFromFile at hsf
      cases hl : sampleLoop (lessShare size file.length) (splitLines file) [] [] 0 with
      | error e => rw [hl] at hsf; cases hsf
      | ok d => rw [hl] at hsf; exact (Except.ok.inj hsf) ▸ rfl
    rw [hsf, R.ok_bind] at h
    cases hms : memorySampler ⟨s.data, 1 <<< 20⟩ with
    | error e => rw [hms] at h; cases h
    | ok sd =>
      rw [hms] at h
      have := Except.ok.inj h
      subst this
      refine .ok (s := s) (ok := true) ?_ (by rw [hdat]; exact hms)
      have hrun := Reading.Sample.run (size := size) (chunkSize := 1 <<< 20)
        ((Reading.readLines_exists _ file le_rfl _ List.prefix_rfl).2 rfl)
      rw [← hsf]
      exact hrun

theorem increasing_of {m : Machine} {file : Bytes} {ntokens : Nat} {p : Processing} {ty : TokenType}
    {n : Option Nat} {size : Nat} {ts : Option TokenSet} {r : R TokenStats} {saved : List (Text × Text)}
    (h : Main.Increasing m file ntokens p ty n size ts r saved) :
    ∀ st, r = .ok st → Increasing m file ntokens p ty n size ts (some st) saved := by
  induction h with
  | exhausted => intro st e; cases e
  | sample => intro st e; cases e
  | before => intro st e; cases e
  | optimize => intro st e; cases e
  | full => intro st e; cases e
  | stop h hs hb ho hf hstop =>
    intro st e
    have := Except.ok.inj e
    subst this
    exact .stop h (sampleEnv_of hs) hb ho (tokenized_of hf) hstop
  | again h hs hb ho hf hstop hr ih =>
    intro st e
    exact .again h (sampleEnv_of hs) hb ho (tokenized_of hf) hstop (ih st e)

theorem optimized_of {m : Machine} {data : Bytes} {ntokens : Nat} {p : Processing} {ty : TokenType}
    {rawSize : Nat} {input : Option TokenSet} {minSize : Option Nat} {st : TokenStats}
    {saved : List (Text × Text)}
    (h : Main.Optimized m data ntokens p ty rawSize input minSize (.ok st) saved) :
    Optimized m data ntokens p ty rawSize input minSize (some st) saved := by
  generalize hr : (Except.ok st : R TokenStats) = r at h
  cases h with
  | increasing h => exact .increasing (increasing_of h st hr.symm)
  | memory hsize he h => subst hr; exact .whole (wholeEnv_of hsize he) h
  | memoryFail => cases hr
  | file hsize he h =>
    subst hr
    exact .whole (.file (reads := fun _ => some (1 <<< 24)) hsize (fun _ => .inr rfl) (fileSampler_never he)) h
  | fileFail => cases hr

/-- The input token set. -/
theorem readInput_real {d : Files} {inputTokens : Option Text} {ts : Option TokenSet}
    (h : ReadInput d inputTokens ts) :
    ∃ v, openInput d inputTokens = .ok v ∧ readInput v = .ok ts ∧
      ∀ f, inputTokens = some f → ∃ j, v = some j ∧ readJson d f = .ok j ∧ ∃ t, ts = some t ∧ fromJson j = .ok t := by
  cases h with
  | none => exact ⟨none, rfl, rfl, fun f e => by cases e⟩
  | @some f b v ok ts hf hv ht =>
    obtain ⟨h1, h2⟩ := C83_token_set _ _ _ hv
    cases ok with
    | false => obtain ⟨e, he⟩ := h2 rfl; cases he
    | true =>
      have hj : readJson d f = .ok v := by
        unfold readJson
        rw [openFile_iff.2 hf, R.ok_bind, ← h1 rfl]
      refine ⟨some v, by simp only [openInput, hj, R.ok_bind], by simp only [readInput, ht, R.ok_bind], ?_⟩
      intro f' e
      have := Option.some.inj e
      subst this
      exact ⟨v, rfl, hj, ts, rfl, ht⟩

theorem readInput_of {d : Files} {inputTokens : Option Text} {v : Option Json} {ts : Option TokenSet}
    (h1 : openInput d inputTokens = .ok v) (h2 : readInput v = .ok ts) : ReadInput d inputTokens ts := by
  cases inputTokens with
  | none =>
    have := openInput_none h1
    subst this
    have := Except.ok.inj h2
    subst this
    exact .none
  | some f =>
    obtain ⟨j, g1, g2⟩ := ok_bind_inv h1
    have := Except.ok.inj g2
    subst this
    obtain ⟨t, g3, g4⟩ := ok_bind_inv h2
    have := Except.ok.inj g4
    subst this
    obtain ⟨b, g5, g6⟩ := ok_bind_inv g1
    refine .some (ok := true) (openFile_iff.1 g5) ?_ g3
    rw [← g6]
    exact .run (Reading.pull_all b)

end Faults
end Tokens
