import Verif.Proofs.Lazy
import Verif.Props.Batch
import Verif.Props.Sampler

/-!
# Properties C104, C105: data in memory, and a sampler that fails, in parallel tokenization

Read together with `Verif/Spec/Lazy.lean`.
-/

namespace Tokens.Props
open Tokens Spec FragmentTokenizer Batch Input

/-- **C104** (samples).  Whatever the schedule and however long the data: at every moment at most
`nthreads + 5` samples have been read and not been dealt with. -/
theorem C104_in_flight (ts : TokenSet) (tk : FragmentTokenizer) (fails : Bool) (samples : List Bytes)
    (n : Option Nat) (nthreads : Nat) (s : LState)
    (h : LSteps tk fails (linit ts samples n nthreads) s) :
    (inFlight s).length ≤ nthreads + 5 := flight_le h

/-- **C104** (the bound is exact).  Some schedule gets there if there are enough samples. -/
theorem C104_reached (ts : TokenSet) (tk : FragmentTokenizer) (fails : Bool) (samples : List Bytes)
    (n : Option Nat) (nthreads : Nat) (hl : nthreads + 5 ≤ samples.length) :
    ∃ s, LSteps tk fails (linit ts samples n nthreads) s ∧ (inFlight s).length = nthreads + 5 :=
  flight_reached hl

/-- **C104** (bytes).  Reading a file in chunks of `size` bytes, whatever the lengths of the reads:
at most `(nthreads + 5) * size` bytes of it are in flight at any moment. -/
theorem C104_file_bytes (ts : TokenSet) (tk : FragmentTokenizer) (file : Bytes) (size : Nat)
    (hs : 0 < size) (short : Nat → Nat) (sampler : SamplerData)
    (hrun : fileSampler file size short = .ok sampler) (n : Option Nat) (nthreads : Nat) (s : LState)
    (h : LSteps tk false (linit ts sampler.samples n nthreads) s) :
    byteSum (inFlight s) ≤ (nthreads + 5) * size := by
  obtain ⟨slices, h1, h2, h3⟩ := C24_file_partition file size hs short
  unfold fileSampler at hrun
  rw [h1] at hrun
  simp only [R.ok_bind] at hrun
  rcases fromVecs_ok_iff slices with ⟨_, g⟩ | ⟨_, e, g⟩
  · rw [g] at hrun
    simp only [R.ok_bind] at hrun
    have := Except.ok.inj hrun
    subst this
    have hf := (from_lsteps (from_linit (P := fun x => x.length ≤ size) (fun x hx => (h3 x hx).2)) h).flight
    exact (byteSum_le hf).trans (Nat.mul_le_mul_right _ (flight_le h))
  · rw [g] at hrun
    simp only [R.error_bind] at hrun
    exact absurd hrun (by simp)

-- six short samples, one worker: all six are in flight at some moment
example : ∃ tk s, FragmentTokenizer.new Example.grown = .ok tk ∧
    LSteps tk false (linit Example.grown [[97], [98], [99], [100], [10], [32]] none 1) s ∧
    (inFlight s).length = 6 := by
  obtain ⟨tk, h, _⟩ := new_ok_of Example.grown_ok.1
  obtain ⟨s, h1, h2⟩ := C104_reached Example.grown tk false [[97], [98], [99], [100], [10], [32]] none 1
    (by simp)
  exact ⟨tk, s, h, h1, h2⟩

/-- **C104** (nothing is lost or counted twice on the way).  As long as no worker has failed, at
every moment each byte of the data is either counted by some thread, or in flight, or not yet
read. -/
theorem C104_accounted (ts : TokenSet) (tk : FragmentTokenizer)
    (hnew : FragmentTokenizer.new ts = .ok tk) (hseq : SeqsInRange ts) (fails : Bool)
    (samples : List Bytes) (n : Option Nat) (nthreads : Nat) (s : LState)
    (h : LSteps tk fails (linit ts samples n nthreads) s)
    (hp : ∀ w ∈ s.p.workers, w ≠ .panicked) :
    countedBytes s + byteSum (inFlight s) + byteSum (unread s) = byteSum samples := by
  obtain ⟨d, hw⟩ := exists_work hnew hseq
  rcases reach_fold h with ⟨hi, hs⟩ | ⟨ho, s0, hi, hs, hu, hh, rfl⟩
  · exact account_fold hw hi (inv_steps hw (inv_init samples n nthreads) hs) hp
  · have := account_fold hw hi (inv_steps hw (inv_init samples n nthreads) hs) hp
    have hm := hi.unw hu
    simp [countedBytes, inFlight, unread, hm] at this ⊢
    exact this

-- the state of the example above, for instance
example : ∃ tk s, FragmentTokenizer.new Example.grown = .ok tk ∧
    LSteps tk false (linit Example.grown [[97], [98], [99], [100], [10], [32]] none 0) s ∧
    (∀ w ∈ s.p.workers, w ≠ .panicked) ∧ byteSum (inFlight s) = 5 ∧ byteSum (unread s) = 1 := by
  obtain ⟨tk, h, _⟩ := new_ok_of Example.grown_ok.1
  have h0 := fill_queue (tk := tk) (fails := false)
    (p := pinit Example.grown [[97], [98], [99], [100], [10], [32]] none 0) 4
    (rest := [[97], [98], [99], [100], [10], [32]]) rfl (by simp) rfl (by simp [queueCap])
  exact ⟨tk, _, h, .step h0 (.read (x := [10]) (rest := [[32]]) rfl rfl), by simp [pinit],
    by simp [inFlight, byteSum, pinit], by simp [unread, byteSum]⟩

/-- **C104** (the results are those of C07).  The runs in which reading and sending are one step
give the same results as those in which they are two. -/
theorem C104_same_results (ts : TokenSet) (tk : FragmentTokenizer) (samples : List Bytes)
    (n : Option Nat) (nthreads : Nat) (st : TokenStats) :
    (∃ s, LSteps tk false (linit ts samples n nthreads) s ∧ s.p.main = .returned ∧ s.p.stats = st) ↔
    ∃ s, PSteps tk (pinit ts samples n nthreads) s ∧ s.main = .returned ∧ s.stats = st := by
  constructor
  · rintro ⟨s, h, hm, hst⟩
    rcases reach_fold h with ⟨hi, hs⟩ | ⟨ho, _⟩
    · have hu : s.unwinding = false := by
        cases hu : s.unwinding with
        | false => rfl
        | true => have := hi.unw hu; rw [hm] at this; simp at this
      rw [fold_other hu (by rw [hm]; simp)] at hs
      exact ⟨s.p, hs, hm, hst⟩
    · have := ho.main; rw [hm] at this; simp at this
  · rintro ⟨s, h, hm, hst⟩
    exact ⟨⟨s, none, false⟩, lift_steps h, hm, hst⟩

/-- **C105**.  The iterator panics after some samples.  Whatever the schedule: the run is finite, and
where it stops the main thread has panicked and all workers have ended; it never returns
statistics. -/
theorem C105_failing_sampler (ts : TokenSet) (tk : FragmentTokenizer)
    (hnew : FragmentTokenizer.new ts = .ok tk) (hseq : SeqsInRange ts) (samples : List Bytes)
    (hne : ∀ x ∈ samples, x ≠ []) (n : Option Nat) (nthreads : Nat) (hN : 0 < nthreads) :
    (∀ f : Nat → LState, f 0 = linit ts samples n nthreads → ¬ ∀ k, LStep tk true (f k) (f (k + 1))) ∧
    ∀ s, LSteps tk true (linit ts samples n nthreads) s →
      s.p.main ≠ .returned ∧
      ((¬ ∃ s', LStep tk true s s') → s.p.main = .panicked ∧ ∀ w ∈ s.p.workers, w = .done) := by
  obtain ⟨d, hw⟩ := exists_work hnew hseq
  refine ⟨fun f h0 => lazy_finite f h0, fun s hs => ⟨?_, fun hstuck => ?_⟩⟩
  · rcases failing_main hs with ⟨r, h⟩ | h <;> rw [h] <;> simp
  · rcases failing_progress hw hne hN hs with h | ho
    · exact absurd h hstuck
    · refine ⟨ho.main, fun w hwm => ?_⟩
      rcases ho.workers w hwm with h | h
      · exact h
      · exfalso
        rcases reach_fold hs with ⟨hi, hp⟩ | ⟨_, s0, hi, hp, hu, hh, rfl⟩
        · have hm := hi.unw ho.unw
          rw [ho.main] at hm
          simp at hm
        · have hc := clean_steps hw (inv_init samples n nthreads) (clean_init hne) hp
          rw [fold_unw hu] at hc
          have := hc.workers w hwm
          rw [h] at this
          exact this

/-- **C105** (a file).  The file is read in chunks of `size` bytes, whatever the lengths of the reads.
Whatever the schedule, every run ends; if all chunks are valid UTF-8, it ends with the statistics
of the whole file, and if one is not (a character cut in two), it ends with a panic of the main
thread and without a worker left behind. -/
theorem C105_file (ts : TokenSet) (tk : FragmentTokenizer)
    (hnew : FragmentTokenizer.new ts = .ok tk) (hseq : SeqsInRange ts) (file : Bytes) (size : Nat)
    (hs : 0 < size) (short : Nat → Nat) (chunks : List Bytes)
    (hsl : fileSlices file size short (file.length + 1) 0 0 = .ok chunks)
    (n : Option Nat) (nthreads : Nat) (hN : 0 < nthreads) (s : LState)
    (h : LSteps tk (deliver chunks).2 (linit ts (deliver chunks).1 n nthreads) s)
    (hstuck : ¬ ∃ s', LStep tk (deliver chunks).2 s s') :
    ((∀ x ∈ chunks, validUtf8 x = true) → s.p.main = .returned ∧
      tokenizeFileSync ts chunks n = .ok s.p.stats ∧ s.p.stats.scannedBytes = file.length) ∧
    ((∃ x ∈ chunks, validUtf8 x = false) →
      s.p.main = .panicked ∧ ∀ w ∈ s.p.workers, w = .done) := by
  obtain ⟨slices, h1, h2, h3⟩ := C24_file_partition file size hs short
  rw [h1] at hsl
  have := Except.ok.inj hsl
  subst this
  obtain ⟨d, hw⟩ := exists_work hnew hseq
  constructor
  · intro hv
    rw [deliver_valid hv] at h hstuck
    dsimp only at h hstuck
    have hret : s.p.main = .returned := by
      apply Classical.byContradiction
      intro hr
      exact hstuck (lazy_progress hw (fun x hx => (h3 x hx).1) hN h hr)
    obtain ⟨s', g1, g2, g3⟩ := (C104_same_results ts tk slices n nthreads s.p.stats).1 ⟨s, h, hret, rfl⟩
    have g4 := C07_parallel_equals_sequential ts tk hnew hseq slices n nthreads hN s' g1 g2
    rw [g3] at g4
    refine ⟨hret, g4, ?_⟩
    obtain ⟨st, k1, k2, k3, k4⟩ := sync_ok hnew hw slices n
    rw [g4] at k1
    have := Except.ok.inj k1
    subst this
    have h5 := k4 .scanned
    rw [workSum_scanned hw] at h5
    have h6 : byteSum slices = slices.flatten.length := by simp [byteSum, List.length_flatten]
    rw [h6, h2] at h5
    exact h5
  · rintro ⟨x, hx, hxv⟩
    have hinv : ¬ ∀ x ∈ slices, validUtf8 x = true := by
      intro h'; have := h' x hx; rw [hxv] at this; simp at this
    obtain ⟨g1, g2⟩ := deliver_invalid hinv
    rw [g1] at h hstuck
    exact ((C105_failing_sampler ts tk hnew hseq _ (fun y hy => (h3 y (g2 y hy)).1) n nthreads hN).2
      s h).2 hstuck

-- such a run exists: two samples, then a failure, with two workers
example : ∃ tk s, FragmentTokenizer.new Example.grown = .ok tk ∧
    LSteps tk true (linit Example.grown [[97], [98, 99]] none 2) s ∧ s.p.main = .panicked := by
  obtain ⟨tk, h, _⟩ := new_ok_of Example.grown_ok.1
  obtain ⟨s, h1, h2⟩ := lazy_stuck (tk := tk) (fails := true)
    (LSteps.refl (linit Example.grown [[97], [98, 99]] none 2))
  exact ⟨tk, s, h, h1, ((C105_failing_sampler _ tk h Example.grown_ok.2 [[97], [98, 99]] (by simp) none 2
    (by omega)).2 s h1).2 h2 |>.1⟩

end Tokens.Props
