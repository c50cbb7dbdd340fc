import Verif.Proofs.Reading
import Verif.Spec.Reading
import Verif.Props.Writing
import Verif.Props.Sampler

/-!
# Property C83: how the data is delivered does not matter, and a failing read is never taken for the end

The relations of `Verif/Model/Reading.lean`: the system delivers the file in pieces of any size and may fail at
any `read`.  Their last argument tells whether all reads went well.
-/

namespace Tokens.Props
open Tokens Reading Main Spec

theorem linesOf_split (n : Nat) (data : Bytes) (hn : data.length ≤ n) : LinesOf data (Input.splitLines data) := by
  induction n generalizing data with
  | zero =>
    have : data = [] := List.length_eq_zero_iff.1 (by omega)
    subst this; exact .empty
  | succ n ih =>
    rcases line_cases data with rfl | ⟨pre, post, h1, rfl⟩ | ⟨h1, h2⟩
    · exact .empty
    · rw [splitLines_nl _ _ h1]
      exact .line h1 (ih post (by simp at hn; omega))
    · rw [Reading.splitLines_last _ h1 h2]
      exact .last h2 h1

theorem linesOf_unique {data : Bytes} {ls : List Bytes} (h : LinesOf data ls) : ls = Input.splitLines data := by
  induction h with
  | empty => rfl
  | last hne h => rw [Reading.splitLines_last _ h hne]
  | line h _ ih => rw [splitLines_nl _ _ h, ih]

/-- **C83** (lines).  However the bytes are delivered, what arrives are the lines of the file, whole and in
order: all of them if no read failed, and otherwise a beginning. -/
theorem C83_lines (data : Bytes) (ls : List Bytes) (ok : Bool) (h : ReadLines [] data ls ok) :
    ∃ all, LinesOf data all ∧ ls <+: all ∧ (ok = true → ls = all) := by
  obtain ⟨h1, h2⟩ := readLines_spec h
  exact ⟨_, linesOf_split _ data le_rfl, by simpa using h2, by simpa using h1⟩

/-- **C83** (lines).  Each of these cases may happen. -/
theorem C83_lines_any (data : Bytes) (all : List Bytes) (h : LinesOf data all) :
    ReadLines [] data all true ∧ ∀ ls, ls <+: all → ReadLines [] data ls false := by
  have e := linesOf_unique h
  subst e
  exact ⟨(readLines_exists _ data le_rfl _ List.prefix_rfl).2 rfl,
    fun ls hl => (readLines_exists _ data le_rfl ls hl).1⟩

theorem readLines_true {data : Bytes} {ls : List Bytes} (h : ReadLines [] data ls true) :
    ls = Input.splitLines data := by simpa using (readLines_spec h).1 rfl

/-- **C83** (`process`).  A run of `process` in which a read failed is never reported as a success: a success is
a run on the whole data, as described by C78. -/
theorem C83_process (db : CharTables) (input out : Bytes) (ok : Bool) (h : Process db input out (.ok ()) ok) :
    ok = true ∧ Writing.ProcessTo db input out (.ok ()) := by
  cases h with
  | run hl h hd =>
    rw [readLines_true hl] at h
    exact ⟨rfl, .run h hd⟩

theorem loop_append (db : CharTables) (a b : List Bytes) (w full : Bytes)
    (h : processBytesLoop db w (a ++ b) = .ok (full, true)) :
    ∃ w', processBytesLoop db w a = .ok (w', true) ∧ w' <+: full := by
  induction a generalizing w with
  | nil =>
    refine ⟨w, rfl, ?_⟩
    rw [List.nil_append] at h
    induction b generalizing w with
    | nil =>
      have := (Prod.mk.inj (Except.ok.inj h)).1
      rw [this]
    | cons l ls ih =>
      rw [processBytesLoop] at h
      cases hd : utf8Decode l with
      | none => rw [hd] at h; have := (Prod.mk.inj (Except.ok.inj h)).2; cases this
      | some t =>
        simp only [hd] at h
        cases hp : Processing.process db (chomp t) with
        | error e => rw [hp] at h; cases h
        | ok p =>
          rw [hp, R.ok_bind] at h
          exact List.IsPrefix.trans ⟨utf8Encode p ++ [10], by simp⟩ (ih _ h)
  | cons l ls ih =>
    rw [List.cons_append, processBytesLoop] at h
    rw [processBytesLoop]
    cases hd : utf8Decode l with
    | none => rw [hd] at h; have := (Prod.mk.inj (Except.ok.inj h)).2; cases this
    | some t =>
      simp only [hd] at h ⊢
      cases hp : Processing.process db (chomp t) with
      | error e => rw [hp] at h; cases h
      | ok p =>
        rw [hp, R.ok_bind] at h
        rw [R.ok_bind]
        exact ih _ h

/-- **C83** (`process`).  Whatever reads and writes do, what `process` leaves is a beginning of the processed
text.  After a success, all of the text has been read and at most the last 8192 bytes are missing (C78). -/
theorem C83_process_text (db : CharTables) (text z : Text) (hz : Processing.processFile db text = .ok z)
    (out : Bytes) (r : R Unit) (ok : Bool) (h : Process db (utf8Encode text) out r ok) :
    ∃ lost, out ++ lost = utf8Encode z ∧ (r = .ok () → ok = true ∧ lost.length ≤ 8192) := by
  cases h with
  | run hl h hd =>
    rw [readLines_true hl] at h
    obtain ⟨lost, h1, h2, -⟩ := C78_process_partial db text z hz out r (.run h hd)
    exact ⟨lost, h1, fun e => ⟨rfl, h2 e⟩⟩
  | @fail ls s out hl h hd =>
    obtain ⟨rest, e⟩ := (readLines_spec hl).2
    rw [List.nil_append] at e
    have hf : processBytesLoop db [] (ls ++ rest) = .ok (utf8Encode z, true) := by
      rw [e]; exact processBytes_text db text z hz
    obtain ⟨w, hw, hpre⟩ := loop_append db ls rest [] _ hf
    obtain ⟨k1, k2, -⟩ := Writing.loop_ok h (by simp) (full := w) (flag := true) hw
    cases hd with
    | @flush written left ok hp =>
      obtain ⟨e1, _⟩ := Writing.putAll_split hp
      obtain ⟨more, e2⟩ := hpre
      refine ⟨left ++ more, ?_, fun e => by cases e⟩
      rw [← e2, ← (k2 rfl).2, ← e1]; simp

/-- **C83** (`process`).  If the system does not fail, the work is done. -/
theorem C83_process_works (db : CharTables) (text z : Text) (hz : Processing.processFile db text = .ok z) :
    Process db (utf8Encode text) (utf8Encode z) (.ok ()) true := by
  cases C78_process_works db text z hz with
  | run h hd =>
    exact .run ((readLines_exists _ _ le_rfl _ List.prefix_rfl).2 rfl) h hd

/-- **C83** (`count-chars`).  The report is the one for the whole file (see C44), or there is none. -/
theorem C83_count (order : List Nat → List Nat) (input : Bytes) (r : R CharReport) (ok : Bool)
    (h : Count order input r ok) :
    (ok = true → r = countChars order input) ∧ (ok = false → ∃ e, r = .error e) := by
  cases h with
  | run hl =>
    refine ⟨fun _ => ?_, by intro e; cases e⟩
    rw [readLines_true hl]; rfl
  | @fail ls hl =>
    refine ⟨(by intro e; cases e), fun _ => ?_⟩
    cases countLines ⟨0, List.replicate 256 0, []⟩ ls with
    | error e => exact ⟨e, rfl⟩
    | ok s => exact ⟨.panic, rfl⟩

/-- **C83** (sampling).  The sample is the one of the whole file (see C27, C55), or there is none. -/
theorem C83_sample (input : Bytes) (size chunkSize : Nat) (r : R Input.MemorySampler) (ok : Bool)
    (h : Sample input size chunkSize r ok) :
    (ok = true → r = Input.sampleFromFile input size chunkSize) ∧ (ok = false → ∃ e, r = .error e) := by
  cases h with
  | run hl =>
    refine ⟨fun _ => ?_, by intro e; cases e⟩
    rw [readLines_true hl]; rfl
  | @fail ls hl =>
    refine ⟨(by intro e; cases e), fun _ => ?_⟩
    cases Input.sampleLoop (Input.lessShare size input.length) ls [] [] 0 with
    | error e => exact ⟨e, rfl⟩
    | ok s => exact ⟨.unwrapNone, rfl⟩

/-- **C83** (reading all of a file).  The data in memory is that of the file, or there is none. -/
theorem C83_memory (input : Bytes) (chunkSize : Nat) (r : R Input.MemorySampler) (ok : Bool)
    (h : FromFile input chunkSize r ok) :
    (ok = true → r = .ok ⟨input, chunkSize⟩) ∧ (ok = false → ∃ e, r = .error e) := by
  cases h with
  | run h =>
    refine ⟨fun _ => ?_, by intro e; cases e⟩
    rw [(pull_spec h).1 rfl]
  | fail h => exact ⟨(by intro e; cases e), fun _ => ⟨_, rfl⟩⟩

/-- **C83** (reading a token set).  The value is that of the whole file (see C68), or there is none. -/
theorem C83_token_set (input : Bytes) (r : R Json) (ok : Bool) (h : FromReader input r ok) :
    (ok = true → r = unwrapR (JsonRead.parseBytes input)) ∧ (ok = false → ∃ e, r = .error e) := by
  cases h with
  | run h =>
    refine ⟨fun _ => ?_, by intro e; cases e⟩
    rw [(pull_spec h).1 rfl]
  | fail h => exact ⟨(by intro e; cases e), fun _ => ⟨_, rfl⟩⟩

theorem fileSlices_reads (file : Bytes) (size : Nat) (reads : Nat → Option Nat) (f i offset : Nat) (l : List Bytes)
    (h : Reading.fileSlices file size reads f i offset = .ok l) : ∀ j ≤ l.length, reads (i + j) ≠ none := by
  induction f generalizing i offset l with
  | zero => cases h
  | succ f ih =>
    rw [Reading.fileSlices] at h
    cases hr : reads i with
    | none => rw [hr] at h; cases h
    | some short =>
      rw [hr] at h
      simp only at h
      intro j hj
      cases j with
      | zero => rw [Nat.add_zero, hr]; simp
      | succ j =>
        cases hn : Input.fileNext file size offset short with
        | error e => rw [hn] at h; cases h
        | ok o =>
          rw [hn, R.ok_bind] at h
          cases o with
          | none =>
            have := Except.ok.inj h
            subst this
            simp at hj
          | some p =>
            obtain ⟨slice, offset'⟩ := p
            simp only at h
            cases hs : Reading.fileSlices file size reads f (i + 1) offset' with
            | error e => rw [hs] at h; cases h
            | ok l' =>
              rw [hs] at h
              have := Except.ok.inj h
              subst this
              have := ih _ _ _ hs j (by simpa using hj)
              rwa [show i + (j + 1) = i + 1 + j by omega]

theorem fromVecs_same (l : List Bytes) (xs : List Bytes) (h : Input.fromVecs l = .ok xs) : xs = l := by
  induction l generalizing xs with
  | nil => exact (Except.ok.inj h).symm
  | cons b l ih =>
    rw [Input.fromVecs] at h
    unfold Input.fromVec at h
    split at h
    · rw [R.ok_bind] at h
      cases hl : Input.fromVecs l with
      | error e => rw [hl] at h; cases h
      | ok ys =>
        rw [hl, R.ok_bind] at h
        rw [← Except.ok.inj h, ih ys hl]
    · cases h

/-- **C83** (the file sampler).  If the iteration ends, then every read up to the end went well and the samples are
those of a run without failures (see C24): they make up the whole file. -/
theorem C83_file_sampler (file : Bytes) (size : Nat) (hs : 0 < size) (reads : Nat → Option Nat) (sd : SamplerData)
    (h : Reading.fileSampler file size reads = .ok sd) :
    (∃ short, Input.fileSampler file size short = .ok sd) ∧ sd.samples.flatten = file ∧
      ∀ i ≤ sd.samples.length, reads i ≠ none := by
  unfold Reading.fileSampler at h
  cases hf : Reading.fileSlices file size reads (file.length + 1) 0 0 with
  | error e => rw [hf] at h; cases h
  | ok l =>
    rw [hf, R.ok_bind] at h
    cases hv : Input.fromVecs l with
    | error e => rw [hv] at h; cases h
    | ok xs =>
      rw [hv, R.ok_bind] at h
      have e := Except.ok.inj h
      have ex := fromVecs_same l xs hv
      have hsl := fileSlices_ok _ _ _ _ _ _ _ hf
      obtain ⟨l', h1, h2, -⟩ := C24_file_partition file size hs (fun i => (reads i).getD 1)
      rw [h1] at hsl
      have el := Except.ok.inj hsl
      subst e
      refine ⟨⟨fun i => (reads i).getD 1, ?_⟩, ?_, ?_⟩
      · unfold Input.fileSampler
        rw [h1, R.ok_bind, el, hv, R.ok_bind]
      · show xs.flatten = file
        rw [ex, ← el, h2]
      · intro i hi
        have := fileSlices_reads _ _ _ _ _ _ _ hf i (by rw [← ex]; exact hi)
        rwa [Nat.zero_add] at this

/-- **C83** (the file sampler).  With failing reads, the outcome is that of a run without them, or a panic. -/
theorem C83_file_sampler_fails (file : Bytes) (size : Nat) (reads : Nat → Option Nat) (short : Nat → Nat)
    (hr : ∀ i, reads i = none ∨ reads i = some (short i)) (sd : SamplerData)
    (h : Input.fileSampler file size short = .ok sd) :
    Reading.fileSampler file size reads = .ok sd ∨ Reading.fileSampler file size reads = .error .unwrapNone := by
  unfold Input.fileSampler at h
  unfold Reading.fileSampler
  cases hf : Input.fileSlices file size short (file.length + 1) 0 0 with
  | error e => rw [hf] at h; cases h
  | ok l =>
    rw [hf, R.ok_bind] at h
    rcases fileSlices_error file size reads short _ _ _ _ hr hf with e | e
    · rw [e, R.ok_bind]; exact .inl h
    · rw [e]; exact .inr rfl

/-! Concrete cases: a file with two lines of which the second has no newline; the read in the middle of the
second line fails. -/

example : ReadLines [] [97, 10, 98] [[97, 10]] false :=
  (C83_lines_any [97, 10, 98] [[97, 10], [98]]
    (.line (l := [97]) (rest := [98]) (by decide) (.last (by decide) (by decide)))).2 _ ⟨[[98]], rfl⟩

/-- The reads may cut anywhere: here into `a`, and newline with `b`. -/
example : ReadLines [] [97, 10, 98] [[97, 10], [98]] true := by
  have h2 : ReadUntil [98] [] [98] [] [] true := .eof (by decide)
  have h3 : ReadUntil [] [] [] [] [] true := .eof (by decide)
  have h1 : ReadUntil [] [97, 10, 98] [97, 10] [98] [] true :=
    ReadUntil.fill (buf := []) (rest := [97, 10, 98]) (n := 1) (got := [97, 10]) (by decide) (by decide) (by decide)
      (by decide)
      (ReadUntil.fill (buf := [97]) (rest := [10, 98]) (n := 2) (got := [10]) (by decide) (by decide) (by decide)
        (by decide) (ReadUntil.found (pre := []) (post := [98]) (rest := []) (by decide)))
  exact .line (by decide) h1 (.line (by decide) h2 (.done h3))

/-- A failing `process` that has written the first line. -/
example (db : CharTables) (p : Text) (hp : Processing.process db ['a'] = .ok p) (hl : (utf8Encode p).length < 8000) :
    Process db [97, 10, 98] (utf8Encode p ++ [10]) (.error .unwrapNone) false := by
  have hr : ReadLines [] [97, 10, 98] [[97, 10]] false :=
    (C83_lines_any [97, 10, 98] [[97, 10], [98]]
      (.line (l := [97]) (rest := [98]) (by decide) (.last (by decide) (by decide)))).2 _ ⟨[[98]], rfl⟩
  have hw : processBytesLoop db [] [[97, 10]] = .ok (utf8Encode p ++ [10], true) := by
    rw [processBytesLoop]
    have : utf8Decode [97, 10] = some ['a', '\n'] := by decide +kernel
    rw [this]
    simp only
    rw [show chomp ['a', '\n'] = ['a'] from by decide, hp, R.ok_bind, processBytesLoop, List.nil_append]
  have := Writing.loop_buffered db [[97, 10]] [] _ hw (by
    have : Writing.capacity = 8192 := rfl
    simp; omega)
  exact .fail hr this (.flush (s := ⟨[], _⟩) (Writing.putAll_all _))

end Tokens.Props
