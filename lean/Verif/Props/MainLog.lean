import Verif.Proofs.MainLog2
import Verif.Proofs.Success
import Verif.Props.Disk
import Verif.Props.Commands

/-!
# Properties C114, C115: the console output of the commands

Read together with `Verif/Spec/MainLog.lean` (which file a line announces, the sizes of the samples) and the
type `Note` of `Verif/Model/MainLog.lean` (the lines).
-/

namespace Tokens.Props
open Tokens Spec TokenSet Optimize Batch Main Input

/-! ## C114 the files that are announced -/

/-- **C114** (nothing else).  Printing changes nothing: the outcomes of the optimize command are those of C47
and C48. -/
theorem C114_same_optimize (m : Machine) (ntokens : Nat) (raw : Bytes) (processed : Option Bytes)
    (p : Processing) (ty : TokenType) (input : Option Json) (minSize : Option Nat) (r : R (List (Text × Text))) :
    (∃ notes, OptimizeCommandT m ntokens raw processed p ty input minSize r notes) ↔
      OptimizeCommand m ntokens raw processed p ty input minSize r := optimizeCommandT_iff

/-- **C114** (nothing else), for the command that converts a token set. -/
theorem C114_same_convert (m : Machine) (raw : Bytes) (processed : Option Bytes) (input : Json)
    (r : R (Text × Text)) :
    (∃ notes, ConvertCommandT m raw processed input r notes) ↔ ConvertCommand m raw processed input r :=
  convertCommandT_iff

/-- **C114** (the optimizer).  Whatever the data, the set it starts from and the outcome: the lines
"Writing the token set to …" name exactly the files that were written, in their order; only if the
optimizer fails there may be one more line at the end, for a file that was not written. -/
theorem C114_optimizer (env : Env) (ntokens : Nat) (p : Processing) (ty : TokenType) (pre : Option TokenSet)
    (r : R TokenStats) (w : World) (out : List Printed)
    (h : OptimizeTokensetT env ntokens p ty pre r w out) :
    w.saved.map Prod.fst = announced out ∨
    (∃ e, r = .error e) ∧ ∃ f, w.saved.map Prod.fst ++ [f] = announced out := by
  obtain ⟨l, h1, h2⟩ := optimizeT_kept h
  rw [h1]
  rcases h2 with h2 | ⟨h2, h3⟩
  · exact .inl h2
  · cases r with
    | ok _ => cases h2
    | error e => exact .inr ⟨⟨e, rfl⟩, h3⟩

/-- **C114** (the optimize command).  After a success, with or without a minimum size of the data, the
lines that announce files name exactly the files that were written, in their order. -/
theorem C114_optimize_command (m : Machine) (ntokens : Nat) (raw : Bytes) (processed : Option Bytes)
    (p : Processing) (ty : TokenType) (input : Option Json) (minSize : Option Nat) (files : List (Text × Text))
    (notes : List Note) (h : OptimizeCommandT m ntokens raw processed p ty input minSize (.ok files) notes) :
    announcedBy notes = files.map Prod.fst := by
  cases h with
  | write h1 h2 h3 h4 =>
    obtain ⟨l, k1, k2⟩ := optimizedT_kept h3
    rcases k2 with k2 | ⟨k2, _⟩
    · rw [announcedBy_append, announcedBy_append, announcedBy_process, announcedBy_read]
      show announcedBy (_ ++ _) = _
      rw [announcedBy_append, ← k2, k1, List.map_append]
      show l.map Prod.fst ++ [_] = l.map Prod.fst ++ [_]
      rw [statsFile_name h4]
    · cases k2

/-- **C114** (the command that converts a token set).  After a success exactly one line announces a file,
and it names the file that was written. -/
theorem C114_convert_command (m : Machine) (raw : Bytes) (processed : Option Bytes) (input : Json)
    (f : Text × Text) (notes : List Note) (h : ConvertCommandT m raw processed input (.ok f) notes) :
    announcedBy notes = [f.1] := by
  generalize hr : (Except.ok f : R (Text × Text)) = r at h
  cases h with
  | load h => cases hr
  | process h1 h2 => cases hr
  | tokenize h1 h2 h3 => cases hr
  | write h1 h2 h3 =>
    rw [announcedBy_append, announcedBy_process, statsFile_name hr.symm]
    cases h3 with
    | ok hs h3 =>
      rw [tokenizeFile_set (C61_in_range _ _ h1) h3]
      rfl

-- the optimizer announces the files it writes, in a run that ends with a success, and that is not empty
example : ∃ notes files, OptimizeCommandT aMachine 20 [97, 98, 97, 98, 10] none .raw .bits4 none none (.ok files) notes ∧
    announcedBy notes = files.map Prod.fst ∧ files ≠ [] := by
  have hi : GoodInput .bits4 .raw 20 none := by show 16 ≤ 20 ∧ 20 ≤ 16 + 256; decide
  obtain ⟨⟨r, h⟩, h2⟩ := C47_optimize_command aMachine aMachine_ok 20 [97, 98, 97, 98, 10] none .raw .bits4 none none rfl hi
    (by show 5 < 2 ^ 34; norm_num) _ rfl
  obtain ⟨w, st, env, v, rfl, _⟩ := h2 r h
  obtain ⟨notes, hn⟩ := (C114_same_optimize ..).2 h
  exact ⟨notes, _, hn, C114_optimize_command _ _ _ _ _ _ _ _ _ _ hn, by simp⟩

/-! ## C115 optimizing with increasing data -/

/-- **C115**.  If it succeeds, the output ends with the rate of the result on the full data and the line
"The difference is less than 0.5%. Stopping.", which is printed once; and the lines "Optimizing with … bytes" give the sizes of the samples
for `size`, `2 * size`, … up to a size above 2^24 and below the size of the file. -/
theorem C115_success (m : Machine) (file : Bytes) (ntokens : Nat) (p : Processing) (ty : TokenType)
    (n : Option Nat) (size : Nat) (input : Option TokenSet) (st : TokenStats) (saved : List (Text × Text))
    (notes : List Note) (h : IncreasingT m file ntokens p ty n size input (.ok st) saved notes) :
    ∃ u k, notes = u ++ [.full st, .stopping] ∧ Note.stopping ∉ u ∧ 2 ^ 24 < size * 2 ^ k ∧
      size * 2 ^ k < file.length ∧
      List.Forall₂ (fun i x => ∃ s, sampleFromFile file (size * 2 ^ i) (2 ^ 20) = .ok s ∧ x = s.data.length)
        (List.range (k + 1)) (sampleSizes notes) :=
  increasingT_succeeds h st rfl

/-- **C115**.  If it fails, the line "… Stopping." is not printed. -/
theorem C115_failure (m : Machine) (file : Bytes) (ntokens : Nat) (p : Processing) (ty : TokenType)
    (n : Option Nat) (size : Nat) (input : Option TokenSet) (e : Err) (saved : List (Text × Text))
    (notes : List Note) (h : IncreasingT m file ntokens p ty n size input (.error e) saved notes) :
    Note.stopping ∉ notes :=
  increasingT_fails h rfl

/-- **C115** (each round helps).  Every rate for "(bigger data)" is followed, after the output of the
optimizer, by the rate for "(optimized)" of the same sample; and if the set that the round started from has the size
asked for, then the optimized set needs no more tokens, and the rate printed for it is not lower. -/
theorem C115_not_worse (m : Machine) (hm : MachineOk m) (file : Bytes) (ntokens : Nat) (p : Processing)
    (ty : TokenType) (n : Option Nat) (size : Nat) (input : Option TokenSet)
    (hi : GoodInput ty p ntokens input) (r : R TokenStats) (saved : List (Text × Text)) (notes : List Note)
    (h : IncreasingT m file ntokens p ty n size input r saved notes)
    (u v : List Note) (a : TokenStats) (hu : notes = u ++ .bigger a :: v) :
    ∃ (out : List Printed) (b : TokenStats) (v' : List Note), v = out.map .opt ++ .optimized b :: v' ∧ a.scannedBytes = b.scannedBytes ∧
      (a.tokenSet.tokens.length = ntokens →
        b.totalTokens ≤ a.totalTokens ∧ (bytesPerToken b).lt (bytesPerToken a) = false) := by
  have h1 := increasingT_improves hm h hi
  rw [hu] at h1
  exact improves_at h1

-- there is a success, with a file of two paragraphs of more than 2^24 bytes; `C40_stops_close` applies to it too
example : ∃ st saved notes, MachineOk aMachine ∧ GoodInput .bits4 .raw 16 none ∧
    IncreasingT aMachine (twoParas (2 ^ 24)) 16 .raw .bits4 none (2 ^ 24 + 1) none (.ok st) saved notes ∧
    Increasing aMachine (twoParas (2 ^ 24)) 16 .raw .bits4 none (2 ^ 24 + 1) none (.ok st) saved := by
  obtain ⟨st, saved, h⟩ := increasing_success aMachine aMachine_ok (2 ^ 24) (by omega) none
  obtain ⟨notes, hn⟩ := increasingT_iff.2 h
  exact ⟨st, saved, notes, aMachine_ok, by show 16 ≤ 16 ∧ 16 ≤ 16 + 256; omega, hn, h⟩

-- a run with a rate for "(bigger data)"
example : ∃ ts r saved notes u a v, GoodInput .bits4 .raw 20 (some ts) ∧
    IncreasingT aMachine [97, 98, 10] 20 .raw .bits4 none 1 (some ts) r saved notes ∧
    notes = u ++ .bigger a :: v := by
  obtain ⟨ts, _, hwk⟩ := workable_bits4
  have hi : GoodInput .bits4 .raw 20 (some ts) := hwk
  obtain ⟨r, saved, h⟩ := C40_terminates aMachine aMachine_ok [97, 98, 10] 20 .raw .bits4 none 1 (by decide) _ hi
  obtain ⟨notes, hn⟩ := increasingT_iff.2 h
  clear h
  obtain ⟨env, h1, h2, h3, h4⟩ := sampleEnv_ok aMachine_ok [97, 98, 10] 1 none
  have key : ∀ {env o}, Before aMachine env none (some ts) o → ∃ a, o = [.bigger a] := by
    intro env o h
    cases h with
    | some h => exact ⟨_, rfl⟩
  refine ⟨ts, r, saved, notes, ?_⟩
  cases hn with
  | exhausted h => exact absurd (by decide : 1 < [97, 98, 10].length) h
  | sample h hs => rw [h1] at hs; cases hs
  | before h hs hf =>
    have := Except.ok.inj (h1.symm.trans hs)
    subst this
    have hu := Tokens.Family.usable hwk.family
    exact absurd hf (tokenize_fails_not h2 hu.accepted hu.inRange)
  | optimize h hs hb ho =>
    obtain ⟨a, rfl⟩ := key hb
    exact ⟨[_], a, _, hi, .optimize h hs hb ho, rfl⟩
  | full h hs hb ho hf =>
    obtain ⟨a, rfl⟩ := key hb
    exact ⟨[_], a, _, hi, .full h hs hb ho hf, rfl⟩
  | stop h hs hb ho hf hst =>
    obtain ⟨a, rfl⟩ := key hb
    exact ⟨[_], a, _, hi, .stop h hs hb ho hf hst, rfl⟩
  | again h hs hb ho hf hst hr =>
    obtain ⟨a, rfl⟩ := key hb
    exact ⟨[_], a, _, hi, .again h hs hb ho hf hst hr, rfl⟩

end Tokens.Props
