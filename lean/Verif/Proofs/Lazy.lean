import Verif.Spec.Lazy
import Verif.Proofs.Batch

/-! The parallel path with lazily read samples: what is in flight, and a sampler that panics. -/

set_option linter.unusedSimpArgs false
set_option linter.unusedVariables false

namespace Tokens
open Spec FragmentTokenizer
namespace Batch

/-! ### Number of samples in flight -/

def isJob : WState → Nat
  | .working _ _ => 1
  | _ => 0

theorem isJob_le (w) : isJob w ≤ 1 := by cases w <;> simp [isJob]

theorem jobs_length (l : List WState) : (l.flatMap jobOf).length = lsum isJob l := by
  induction l with
  | nil => rfl
  | cons w l ih => cases w <;> simp [jobOf, isJob, ih]; omega

theorem pstep_queue {tk : FragmentTokenizer} {s s' : PState} (hs : PStep tk s s')
    (h : s.queue.length ≤ queueCap) :
    s'.queue.length ≤ queueCap ∧ s'.workers.length = s.workers.length := by
  cases hs with
  | send _ hq => simp; omega
  | recv hw hq => rw [hq] at h; simp at h ⊢; omega
  | _ => simp [h]

theorem lstep_queue {tk : FragmentTokenizer} {fails} {s s' : LState} (hs : LStep tk fails s s')
    (h : s.p.queue.length ≤ queueCap) :
    s'.p.queue.length ≤ queueCap ∧ s'.p.workers.length = s.p.workers.length := by
  cases hs with
  | send _ hq => simp; omega
  | main hp _ => exact pstep_queue hp h
  | worker hp _ => exact pstep_queue hp h
  | _ => simp [h]

theorem lsteps_queue {tk : FragmentTokenizer} {fails} {s s' : LState} (hs : LSteps tk fails s s')
    (h : s.p.queue.length ≤ queueCap) :
    s'.p.queue.length ≤ queueCap ∧ s'.p.workers.length = s.p.workers.length := by
  induction hs with
  | refl => exact ⟨h, rfl⟩
  | step _ hs ih => have := lstep_queue hs ih.1; exact ⟨this.1, this.2.trans ih.2⟩

theorem flight_le {tk : FragmentTokenizer} {fails} {ts : TokenSet} {samples n N} {s : LState}
    (hs : LSteps tk fails (linit ts samples n N) s) : (inFlight s).length ≤ N + 5 := by
  obtain ⟨h1, h2⟩ := lsteps_queue hs (by simp [linit, pinit])
  have h3 : s.held.toList.length ≤ 1 := by cases s.held <;> simp
  have h4 := lsum_le_length isJob_le s.p.workers
  simp only [inFlight, List.length_append, jobs_length]
  simp [linit, pinit] at h2
  simp [queueCap] at h1
  omega

/-! ### The coarse machine -/

/-- The state of the coarse machine. -/
def fold (s : LState) : PState :=
  if s.unwinding then { s.p with main := .collecting s.p.workers.length }
  else match s.p.main with
    | .sending rest => { s.p with main := .sending (s.held.toList ++ rest) }
    | _ => s.p

/-- Main has not yet gone on with a panic of the iterator. -/
structure LInv (s : LState) : Prop where
  held : s.held ≠ none → s.unwinding = false ∧ ∃ rest, s.p.main = .sending rest
  unw : s.unwinding = true → s.p.main = .sending []

theorem fold_other {s : LState} (hu : s.unwinding = false) (hm : ∀ rest, s.p.main ≠ .sending rest) :
    fold s = s.p := by
  unfold fold
  rw [hu]
  cases h : s.p.main with
  | sending rest => exact absurd h (hm rest)
  | _ => rfl

theorem fold_sending {s : LState} {rest} (hu : s.unwinding = false) (hm : s.p.main = .sending rest) :
    fold s = { s.p with main := .sending (s.held.toList ++ rest) } := by
  unfold fold
  rw [hu, hm]
  rfl

theorem fold_unw {s : LState} (hu : s.unwinding = true) :
    fold s = { s.p with main := .collecting s.p.workers.length } := by
  unfold fold
  rw [hu]
  rfl

/-- A step of a worker does not depend on where main is. -/
theorem worker_transfer {tk : FragmentTokenizer} {s s' : PState} (hs : PStep tk s s')
    (hm : s'.main = s.main) (m : MState) :
    PStep tk { s with main := m } { s' with main := m } := by
  cases hs with
  | send h hq => rw [h] at hm; simp at hm
  | close h => rw [h] at hm; simp at hm
  | collect h hr hm' => rw [h] at hm; simp at hm
  | collectPanic h hr hm' => rw [h] at hm; simp at hm
  | collected h => rw [h] at hm; simp at hm
  | join h hw => rw [h] at hm; simp at hm
  | joinPanic h hw => rw [h] at hm; simp at hm
  | finish h => rw [h] at hm; simp at hm
  | lock hw hl => exact .lock (s := { s with main := m }) hw hl
  | recv hw hq => exact .recv (s := { s with main := m }) hw hq
  | recvErr hw hq hc => exact .recvErr (s := { s with main := m }) hw hq hc
  | process hw hne hp => exact .process (s := { s with main := m }) hw hne hp
  | processPanic hw hp => exact .processPanic (s := { s with main := m }) hw hp
  | result hw => exact .result (s := { s with main := m }) hw

theorem pstep_len {tk : FragmentTokenizer} {s s' : PState} (hs : PStep tk s s') :
    s'.workers.length = s.workers.length := by
  cases hs <;> simp

theorem pstep_rest {tk : FragmentTokenizer} {a b : PState} (h : PStep tk a b) :
    b.main.rest.length ≤ a.main.rest.length := by
  cases h with
  | send h _ => simp [h, MState.rest]
  | close h => simp [h, MState.rest]
  | collect h _ _ => simp [h, MState.rest]
  | collectPanic h _ _ => simp [h, MState.rest]
  | collected h => simp [h, MState.rest]
  | join h _ => simp [h, MState.rest]
  | joinPanic h _ => simp [h, MState.rest]
  | finish h => simp [h, MState.rest]
  | _ => simp

/-- A fine step is a coarse step, or none, or the end of unwinding. -/
theorem lstep_fold {tk : FragmentTokenizer} {fails} {s s' : LState} (hi : LInv s)
    (hs : LStep tk fails s s') :
    (LInv s' ∧ ((fold s' = fold s ∧ s'.p.main.rest.length < s.p.main.rest.length) ∨
      (PStep tk (fold s) (fold s') ∧ s'.p.main.rest.length ≤ s.p.main.rest.length))) ∨
    (s.unwinding = true ∧ s'.p.main = .panicked ∧ s'.p.workers = s.p.workers ∧
      ∀ w ∈ s.p.workers, w = .done ∨ w = .panicked) := by
  cases hs with
  | @read x rest h hh =>
    have hu : s.unwinding = false := by
      cases hu : s.unwinding with
      | false => rfl
      | true => have := hi.unw hu; rw [h] at this; simp at this
    refine .inl ⟨⟨fun _ => ⟨hu, rest, rfl⟩, fun h' => ?_⟩, .inl ⟨?_, by simp [h, MState.rest]⟩⟩
    · dsimp only at h'; rw [hu] at h'; exact absurd h' (by simp)
    · rw [fold_sending hu h, fold_sending (s := ⟨{ s.p with main := .sending rest }, some x, s.unwinding⟩)
        (rest := rest) hu rfl, hh]; rfl
  | @send x hh hq =>
    obtain ⟨hu, rest, hm⟩ := hi.held (by rw [hh]; simp)
    refine .inl ⟨⟨fun h' => absurd rfl h', fun h' => ?_⟩, .inr ⟨?_, by simp⟩⟩
    · dsimp only at h'; rw [hu] at h'; exact absurd h' (by simp)
    · rw [fold_sending hu hm, fold_sending
        (s := ⟨{ s.p with queue := s.p.queue ++ [x] }, none, s.unwinding⟩) (rest := rest) hu hm, hh]
      exact .send (s := { s.p with main := .sending (x :: rest) }) (x := x) (rest := rest) rfl hq
  | close h hh hf hu =>
    refine .inl ⟨⟨fun h' => absurd hh h', fun h' => ?_⟩, .inr ⟨?_, by simp [MState.rest]⟩⟩
    · dsimp only at h'; rw [hu] at h'; exact absurd h' (by simp)
    · rw [fold_sending hu h, fold_other
        (s := ⟨{ s.p with main := .collecting s.p.workers.length, closed := true }, s.held, s.unwinding⟩)
        hu (by simp), hh]
      exact .close (s := { s.p with main := .sending [] }) rfl
  | fail h hh hf hu =>
    refine .inl ⟨⟨fun h' => absurd hh h', fun _ => h⟩, .inr ⟨?_, by simp⟩⟩
    rw [fold_sending hu h, fold_unw (s := ⟨{ s.p with closed := true }, s.held, true⟩) rfl, hh]
    exact .close (s := { s.p with main := .sending [] }) rfl
  | unwound hu hm hw => exact .inr ⟨hu, rfl, rfl, hw⟩
  | @main p' hp hm =>
    have hu : s.unwinding = false := by
      cases hu : s.unwinding with
      | false => rfl
      | true => exact absurd (hi.unw hu) (hm _)
    have hh : s.held = none := by
      cases hh : s.held with
      | none => rfl
      | some x => obtain ⟨_, r, hr⟩ := hi.held (by rw [hh]; simp); exact absurd hr (hm r)
    have hm' : ∀ rest, p'.main ≠ .sending rest := by
      intro rest hr
      cases hp with
      | send h _ => exact hm _ h
      | close h => exact hm _ h
      | _ => first | exact hm _ hr | simp at hr
    refine .inl ⟨⟨fun h' => absurd hh h', fun h' => ?_⟩, .inr ⟨?_, pstep_rest hp⟩⟩
    · dsimp only at h'; rw [hu] at h'; exact absurd h' (by simp)
    · rw [fold_other hu hm, fold_other (s := ⟨p', s.held, s.unwinding⟩) hu hm']
      exact hp
  | @worker p' hp hm =>
    refine .inl ⟨⟨fun h' => ?_, fun h' => ?_⟩, .inr ⟨?_, pstep_rest hp⟩⟩
    · dsimp only at h' ⊢; rw [hm]; exact hi.held h'
    · dsimp only at h' ⊢; rw [hm]; exact hi.unw h'
    · have hu : s.unwinding = false ∨ s.unwinding = true := by cases s.unwinding <;> simp
      rcases hu with hu | hu
      · by_cases hsend : ∃ rest, s.p.main = .sending rest
        · obtain ⟨rest, hr⟩ := hsend
          rw [fold_sending hu hr, fold_sending (s := ⟨p', s.held, s.unwinding⟩)
            (rest := rest) hu (hm.trans hr)]
          exact worker_transfer hp hm _
        · have h1 : ∀ rest, s.p.main ≠ .sending rest := fun r hr => hsend ⟨r, hr⟩
          rw [fold_other hu h1, fold_other (s := ⟨p', s.held, s.unwinding⟩) hu
            (by dsimp only; rw [hm]; exact h1)]
          exact hp
      · rw [fold_unw hu, fold_unw (s := ⟨p', s.held, s.unwinding⟩) hu]
        have := worker_transfer hp hm (.collecting s.p.workers.length)
        dsimp only
        rw [pstep_len hp]
        exact this

/-- The main thread has gone on with a panic of the iterator. -/
structure Over (s : LState) : Prop where
  main : s.p.main = .panicked
  unw : s.unwinding = true
  held : s.held = none
  workers : ∀ w ∈ s.p.workers, w = .done ∨ w = .panicked

theorem over_stuck {tk : FragmentTokenizer} {fails} {s s' : LState} (h : Over s)
    (hs : LStep tk fails s s') : False := by
  have hp : ∀ p', ¬ PStep tk s.p p' := by
    intro p' hp
    have hm := h.main
    have hw := h.workers
    cases hp with
    | send h _ => rw [h] at hm; simp at hm
    | close h => rw [h] at hm; simp at hm
    | collect h _ _ => rw [h] at hm; simp at hm
    | collectPanic h _ _ => rw [h] at hm; simp at hm
    | collected h => rw [h] at hm; simp at hm
    | join h _ => rw [h] at hm; simp at hm
    | joinPanic h _ => rw [h] at hm; simp at hm
    | finish h => rw [h] at hm; simp at hm
    | lock h _ => have := hw _ (mem_of_get h); simp at this
    | recv h _ => have := hw _ (mem_of_get h); simp at this
    | recvErr h _ _ => have := hw _ (mem_of_get h); simp at this
    | process h _ _ => have := hw _ (mem_of_get h); simp at this
    | processPanic h _ => have := hw _ (mem_of_get h); simp at this
    | result h => have := hw _ (mem_of_get h); simp at this
  have hm := h.main
  cases hs with
  | read h' _ => rw [h'] at hm; simp at hm
  | send h' _ => rw [h.held] at h'; simp at h'
  | close h' _ _ _ => rw [h'] at hm; simp at hm
  | fail h' _ _ _ => rw [h'] at hm; simp at hm
  | unwound _ h' _ => rw [h'] at hm; simp at hm
  | main h' _ => exact hp _ h'
  | worker h' _ => exact hp _ h'

/-- A reachable state: its fold is reachable in the coarse machine; or main has panicked, and the
state before was such a state. -/
theorem reach_fold {tk : FragmentTokenizer} {fails} {ts : TokenSet} {samples n N} {s : LState}
    (hs : LSteps tk fails (linit ts samples n N) s) :
    (LInv s ∧ PSteps tk (pinit ts samples n N) (fold s)) ∨
    (Over s ∧ ∃ s0, LInv s0 ∧ PSteps tk (pinit ts samples n N) (fold s0) ∧ s0.unwinding = true ∧
      s0.held = none ∧ s = { s0 with p := { s0.p with main := .panicked } }) := by
  induction hs with
  | refl =>
    refine .inl ⟨⟨fun h => absurd rfl h, fun h => by simp [linit] at h⟩, ?_⟩
    rw [fold_sending (rest := samples) rfl rfl]
    exact .refl _
  | @step b c _ hs ih =>
    rcases ih with ⟨hi, hp⟩ | ⟨ho, _⟩
    · rcases lstep_fold hi hs with ⟨hi', ⟨h, _⟩ | ⟨h, _⟩⟩ | ⟨hu, hm, hw, hall⟩
      · exact .inl ⟨hi', h ▸ hp⟩
      · exact .inl ⟨hi', .step hp h⟩
      · have hheld : b.held = none := by
          cases hb : b.held with
          | none => rfl
          | some x => have := (hi.held (by rw [hb]; simp)).1; rw [hu] at this; simp at this
        cases hs with
        | unwound hu' hm' hw' =>
          exact .inr ⟨⟨rfl, hu, hheld, hall⟩, b, hi, hp, hu, hheld, rfl⟩
        | read h _ => simp at hm
        | send h hq => obtain ⟨h1, _⟩ := hi.held (by rw [h]; simp); rw [hu] at h1; simp at h1
        | close h _ _ _ => simp at hm
        | fail h _ _ hu' => rw [hu] at hu'; simp at hu'
        | main hp' hm' => exact absurd (hi.unw hu) (hm' _)
        | worker hp' hm' => rw [hm', hi.unw hu] at hm; simp at hm
    · exact (over_stuck ho hs).elim

/-! ### The fine machine can do what the coarse one does -/

theorem lift_step {tk : FragmentTokenizer} {a b : PState} (h : PStep tk a b) :
    LSteps tk false ⟨a, none, false⟩ ⟨b, none, false⟩ := by
  have hmain : (∀ rest, a.main ≠ .sending rest) → LSteps tk false ⟨a, none, false⟩ ⟨b, none, false⟩ :=
    fun hm => .step (.refl _) (.main (s := ⟨a, none, false⟩) h hm)
  have hworker : b.main = a.main → LSteps tk false ⟨a, none, false⟩ ⟨b, none, false⟩ :=
    fun hm => .step (.refl _) (.worker (s := ⟨a, none, false⟩) h hm)
  cases h with
  | @send x rest h hq =>
    exact .step (.step (.refl _) (.read (s := ⟨a, none, false⟩) h rfl))
      (.send (s := ⟨{ a with main := .sending rest }, some x, false⟩) rfl hq)
  | close h => exact .step (.refl _) (.close (s := ⟨a, none, false⟩) h rfl rfl rfl)
  | collect h _ _ => exact hmain (by rw [h]; simp)
  | collectPanic h _ _ => exact hmain (by rw [h]; simp)
  | collected h => exact hmain (by rw [h]; simp)
  | join h _ => exact hmain (by rw [h]; simp)
  | joinPanic h _ => exact hmain (by rw [h]; simp)
  | finish h => exact hmain (by rw [h]; simp)
  | lock h _ => exact hworker rfl
  | recv h _ => exact hworker rfl
  | recvErr h _ _ => exact hworker rfl
  | process h _ _ => exact hworker rfl
  | processPanic h _ => exact hworker rfl
  | result h => exact hworker rfl

theorem lsteps_trans {tk : FragmentTokenizer} {fails} {a b c : LState} (h1 : LSteps tk fails a b)
    (h2 : LSteps tk fails b c) : LSteps tk fails a c := by
  induction h2 with
  | refl => exact h1
  | step _ hs ih => exact .step ih hs

theorem lift_steps {tk : FragmentTokenizer} {a b : PState} (h : PSteps tk a b) :
    LSteps tk false ⟨a, none, false⟩ ⟨b, none, false⟩ := by
  induction h with
  | refl => exact .refl _
  | step _ hs ih => exact lsteps_trans ih (lift_step hs)

/-! ### Accounting -/

theorem byteSum_append (a b : List Bytes) : byteSum (a ++ b) = byteSum a + byteSum b := by
  simp [byteSum]

theorem workSum_scanned {ts : TokenSet} {tk : FragmentTokenizer} {d} (hw : Work ts tk d)
    (l : List Bytes) : workSum d l .scanned = byteSum l := by
  induction l with
  | nil => rfl
  | cons x l ih =>
    have hx : d x .scanned = x.length := by
      obtain ⟨ps, _, h⟩ := hw.seg x
      rw [h]; rfl
    simp [workSum, byteSum] at ih ⊢
    omega

theorem wcnt_scanned {ts : TokenSet} {tk : FragmentTokenizer} {d} (hw : Work ts tk d)
    (l : List WState) : lsum (wcnt d .scanned) l = (l.map counted).sum + byteSum (l.flatMap jobOf) := by
  induction l with
  | nil => rfl
  | cons w l ih =>
    rw [lsum_cons, ih]
    cases w with
    | working st x =>
      have hx : d x .scanned = x.length := by
        obtain ⟨ps, _, h⟩ := hw.seg x
        rw [h]; rfl
      simp [wcnt, cnt, counted, jobOf, byteSum, hx]
      omega
    | _ => simp [wcnt, cnt, counted, jobOf, byteSum]; try omega

theorem account_fold {ts : TokenSet} {tk : FragmentTokenizer} {d} (hw : Work ts tk d)
    {samples : List Bytes} {n : Option Nat} {N : Nat} {s : LState} (hi : LInv s)
    (h : Inv ts d samples n N (fold s)) (hp : ∀ w ∈ s.p.workers, w ≠ .panicked) :
    countedBytes s + byteSum (inFlight s) + byteSum (unread s) = byteSum samples := by
  have hw' : (fold s).workers = s.p.workers ∧ (fold s).queue = s.p.queue ∧
      (fold s).results = s.p.results ∧ (fold s).stats = s.p.stats ∧
      byteSum (fold s).main.rest = byteSum s.held.toList + byteSum (unread s) := by
    cases hu : s.unwinding with
    | true =>
      rw [fold_unw hu]
      refine ⟨rfl, rfl, rfl, rfl, ?_⟩
      have hheld : s.held = none := by
        cases hb : s.held with
        | none => rfl
        | some x => have := (hi.held (by rw [hb]; simp)).1; rw [hu] at this; simp at this
      have hm := hi.unw hu
      simp [hheld, unread, hm, byteSum, MState.rest]
    | false =>
      by_cases hs : ∃ rest, s.p.main = .sending rest
      · obtain ⟨rest, hr⟩ := hs
        rw [fold_sending hu hr]
        refine ⟨rfl, rfl, rfl, rfl, ?_⟩
        simp [MState.rest, byteSum_append, unread, hr]
      · have hm : ∀ rest, s.p.main ≠ .sending rest := fun r hr => hs ⟨r, hr⟩
        rw [fold_other hu hm]
        refine ⟨rfl, rfl, rfl, rfl, ?_⟩
        have hheld : s.held = none := by
          cases hb : s.held with
          | none => rfl
          | some x => exact absurd (hi.held (by rw [hb]; simp)).2 hs
        unfold unread
        cases hm' : s.p.main with
        | sending r => exact absurd hm' (hm r)
        | _ => simp [hheld, byteSum, MState.rest]
  obtain ⟨e1, e2, e3, e4, e5⟩ := hw'
  have h5 := h.cons (by
    rw [e1]
    refine lsum_eq_zero.2 (fun w hw => ?_)
    have := hp w hw
    cases w <;> simp [isPan] at this ⊢) .scanned
  rw [e1, e2, e3, e4, workSum_scanned hw, workSum_scanned hw, workSum_scanned hw, wcnt_scanned hw, e5] at h5
  have e6 : lsum (fun x => cnt x .scanned) s.p.results = (s.p.results.map TokenStats.scannedBytes).sum := rfl
  rw [e6] at h5
  simp only [cnt] at h5
  simp only [countedBytes, inFlight, byteSum_append]
  omega

/-! ### A sampler that panics -/

theorem worker_moves' {ts : TokenSet} {tk : FragmentTokenizer} {d} (hw : Work ts tk d)
    {samples : List Bytes} {n : Option Nat} {N : Nat} {s : PState}
    (hi : Inv ts d samples n N s)
    (hq : s.queue ≠ [] ∨ s.closed = true) {i : Nat} {w : WState} (hwi : s.workers[i]? = some w)
    (hd : w ≠ .done) (hp : w ≠ .panicked) : ∃ s', PStep tk s s' ∧ s'.main = s.main := by
  have hold : ∀ (i : Nat) (st : TokenStats), s.workers[i]? = some (.holding st) →
      ∃ s', PStep tk s s' ∧ s'.main = s.main := by
    intro i st h
    cases hqq : s.queue with
    | nil =>
      rcases hq with hq | hq
      · exact absurd hqq hq
      · exact ⟨_, .recvErr h hqq hq, rfl⟩
    | cons x rest => exact ⟨_, .recv h hqq, rfl⟩
  cases w with
  | waiting st =>
    cases hl : s.locked with
    | false => exact ⟨_, .lock hwi hl, rfl⟩
    | true =>
      obtain ⟨j, st', hj⟩ := hi.lock hl
      exact hold j st' hj
  | holding st => exact hold i st hwi
  | working st x =>
    by_cases hx : x = []
    · exact ⟨_, .processPanic hwi (.inl hx), rfl⟩
    · obtain ⟨st', g, _⟩ := hw.ok x st (hi.wst _ (mem_of_get hwi) st rfl)
      exact ⟨_, .process hwi hx g, rfl⟩
  | sending st => exact ⟨_, .result hwi, rfl⟩
  | done => exact absurd rfl hd
  | panicked => exact absurd rfl hp

/-- With a failing iterator main never gets beyond sending. -/
theorem failing_main {tk : FragmentTokenizer} {ts : TokenSet} {samples n N} {s : LState}
    (hs : LSteps tk true (linit ts samples n N) s) :
    (∃ rest, s.p.main = .sending rest) ∨ s.p.main = .panicked := by
  induction hs with
  | refl => exact .inl ⟨samples, rfl⟩
  | @step b c hb hs ih =>
    cases hs with
    | read h _ => exact .inl ⟨_, rfl⟩
    | send h _ => exact ih
    | close _ _ hf _ => simp at hf
    | fail h _ _ _ => exact ih
    | unwound _ _ _ => exact .inr rfl
    | main hp hm =>
      rcases ih with ⟨r, hr⟩ | hr
      · exact absurd hr (hm r)
      · rcases reach_fold hb with ⟨hi, hp'⟩ | ⟨ho, _⟩
        · right
          cases hp with
          | send h _ => exact absurd (h.symm.trans hr) (by simp)
          | close h => exact absurd (h.symm.trans hr) (by simp)
          | collect h _ _ => exact absurd (h.symm.trans hr) (by simp)
          | collectPanic h _ _ => exact absurd (h.symm.trans hr) (by simp)
          | collected h => exact absurd (h.symm.trans hr) (by simp)
          | join h _ => exact absurd (h.symm.trans hr) (by simp)
          | joinPanic h _ => exact absurd (h.symm.trans hr) (by simp)
          | finish h => exact absurd (h.symm.trans hr) (by simp)
          | _ => exact hr
        · exact (over_stuck (tk := tk) (fails := true) ho (.main hp hm)).elim
    | worker hp hm => dsimp only; rw [hm]; exact ih

theorem failing_progress {ts : TokenSet} {tk : FragmentTokenizer} {d} (hw : Work ts tk d)
    {samples : List Bytes} (hne : ∀ x ∈ samples, x ≠ []) {n : Option Nat} {N : Nat} (hN : 0 < N)
    {s : LState} (hs : LSteps tk true (linit ts samples n N) s) :
    (∃ s', LStep tk true s s') ∨ Over s := by
  rcases reach_fold hs with ⟨hi, hp⟩ | ⟨ho, _⟩
  swap
  · exact .inr ho
  left
  have hinv := inv_steps hw (inv_init samples n N) hp
  have hc := clean_steps hw (inv_init samples n N) (clean_init hne) hp
  have hmove : ∀ m, (∃ p', PStep tk { s.p with main := m } p' ∧ p'.main = m) →
      ∃ s', LStep tk true s s' := by
    rintro m ⟨p', h1, h2⟩
    refine ⟨{ s with p := { p' with main := s.p.main } }, .worker ?_ rfl⟩
    have := worker_transfer h1 h2 s.p.main
    exact this
  cases hu : s.unwinding with
  | true =>
    have hm := hi.unw hu
    by_cases hall : ∀ w ∈ s.p.workers, w = .done ∨ w = .panicked
    · exact ⟨_, .unwound hu hm hall⟩
    · simp only [not_forall, not_or] at hall
      obtain ⟨w, hwm, hd, hpn⟩ := hall
      obtain ⟨i, hwi⟩ := List.mem_iff_getElem?.1 hwm
      rw [fold_unw hu] at hinv
      exact hmove _ (worker_moves' hw hinv (.inr (by rw [hinv.closed]; rfl)) hwi hd hpn)
  | false =>
    rcases failing_main hs with ⟨rest, hm⟩ | hm
    · cases hh : s.held with
      | none =>
        cases rest with
        | nil => exact ⟨_, .fail hm hh rfl hu⟩
        | cons x rest => exact ⟨_, .read hm hh⟩
      | some x =>
        by_cases hq : s.p.queue.length < queueCap
        · exact ⟨_, .send hh hq⟩
        · rw [fold_sending hu hm] at hinv hc
          have hlen : 0 < s.p.workers.length := by have := hinv.len; dsimp only at this; omega
          have hget := List.getElem?_eq_getElem hlen
          refine hmove _ (worker_moves' hw hinv (.inl ?_) hget ?_ ?_)
          · intro h; dsimp only at h; rw [h] at hq; simp [queueCap] at hq
          · intro hd
            have := (hinv.ended _ (mem_of_get hget) (by rw [hd]; trivial)).1
            rw [hinv.closed] at this
            simp [isSending] at this
          · intro hpn
            have := hc.workers _ (mem_of_get hget)
            rw [hpn] at this
            exact this
    · have h1 := hinv.main
      rw [fold_other hu (by rw [hm]; simp), hm] at h1
      exact h1.elim

/-! ### Termination -/

def lMeasure (s : LState) : Nat :=
  2 * pMeasure (fold s) + s.p.main.rest.length + 1

theorem lstep_decreases {tk : FragmentTokenizer} {fails} {s s' : LState} (hi : LInv s)
    (hs : LStep tk fails s s') : (LInv s' ∧ lMeasure s' < lMeasure s) ∨ s'.p.main = .panicked := by
  unfold lMeasure
  rcases lstep_fold hi hs with ⟨hi', ⟨h, h'⟩ | ⟨h, h'⟩⟩ | ⟨hu, hm, hw, _⟩
  · rw [h]; exact .inl ⟨hi', by omega⟩
  · have := step_decreases h; exact .inl ⟨hi', by omega⟩
  · exact .inr hm

theorem lazy_finite {tk : FragmentTokenizer} {fails} {ts : TokenSet} {samples n N}
    (f : Nat → LState) (h0 : f 0 = linit ts samples n N) :
    ¬ ∀ k, LStep tk fails (f k) (f (k + 1)) := by
  intro h
  have hr : ∀ k, LSteps tk fails (linit ts samples n N) (f k) := by
    intro k
    induction k with
    | zero => rw [h0]; exact .refl _
    | succ k ih => exact .step ih (h k)
  have hl : ∀ k, LInv (f k) := by
    intro k
    rcases reach_fold (hr k) with ⟨hi, _⟩ | ⟨ho, _⟩
    · exact hi
    · exact (over_stuck ho (h k)).elim
  have hd : ∀ k, lMeasure (f (k + 1)) < lMeasure (f k) := by
    intro k
    rcases reach_fold (hr (k + 1)) with ⟨hi, hp⟩ | ⟨ho, _⟩
    · rcases lstep_fold (hl k) (h k) with ⟨_, ⟨h1, h2⟩ | ⟨h1, h2⟩⟩ | ⟨hu, hm, hw, hall⟩
      · unfold lMeasure; rw [h1]; omega
      · have := step_decreases h1; unfold lMeasure; omega
      · have h3 : (f (k + 1)).unwinding = true := by
          have hs := h k
          revert hm
          generalize f (k + 1) = c at hs
          intro hm
          cases hs with
          | fail _ _ _ _ => rfl
          | _ => exact hu
        have := hi.unw h3
        rw [hm] at this
        simp at this
    · exact (over_stuck ho (h (k + 1))).elim
  have : ∀ k, lMeasure (f k) + k ≤ lMeasure (f 0) := by
    intro k
    induction k with
    | zero => simp
    | succ k ih => have := hd k; omega
  have := this (lMeasure (f 0) + 1)
  omega

/-- Every reachable state has a finite continuation to a state where nothing can move. -/
theorem lazy_stuck {tk : FragmentTokenizer} {fails} {ts : TokenSet} {samples n N} {s : LState}
    (hs : LSteps tk fails (linit ts samples n N) s) :
    ∃ s', LSteps tk fails s s' ∧ ¬ ∃ s'', LStep tk fails s' s'' := by
  apply Classical.byContradiction
  intro hn
  have hgo : ∀ s', LSteps tk fails s s' → ∃ s'', LStep tk fails s' s'' := by
    intro s' h
    apply Classical.byContradiction
    intro h'
    exact hn ⟨s', h, h'⟩
  have hbound : ∀ m s', LSteps tk fails s s' → LInv s' → lMeasure s' ≤ m → False := by
    intro m
    induction m with
    | zero => intro s' _ _ hm; unfold lMeasure at hm; omega
    | succ m ih =>
      intro s' h hi hm
      obtain ⟨s2, h2⟩ := hgo s' h
      rcases lstep_decreases hi h2 with ⟨hi2, hd⟩ | hp
      · exact ih s2 (.step h h2) hi2 (by omega)
      · obtain ⟨s3, h3⟩ := hgo s2 (.step h h2)
        rcases reach_fold (lsteps_trans hs (.step h h2)) with ⟨hi2, hp2⟩ | ⟨ho, _⟩
        · rcases lstep_fold hi h2 with ⟨hi3, ⟨e1, e2⟩ | ⟨e1, e2⟩⟩ | ⟨hu, hm', hw, hall⟩
          · exact ih s2 (.step h h2) hi2 (by unfold lMeasure at hm ⊢; rw [e1]; omega)
          · have := step_decreases e1
            exact ih s2 (.step h h2) hi2 (by unfold lMeasure at hm ⊢; omega)
          · have h3 : s2.unwinding = true := by
              cases h2 with
              | fail _ _ _ _ => rfl
              | _ => exact hu
            have := hi2.unw h3
            rw [hp] at this
            simp at this
        · exact over_stuck ho h3
  rcases reach_fold hs with ⟨hi, _⟩ | ⟨ho, _⟩
  · exact hbound _ s (.refl _) hi (Nat.le_refl _)
  · obtain ⟨s', h⟩ := hgo s (.refl _)
    exact over_stuck ho h

/-! ### The bound is reached -/

/-- `k` workers are at work on the first `k` samples. -/
def busy (ts : TokenSet) (samples : List Bytes) (n : Option Nat) (N k : Nat) : PState :=
  { main := .sending (samples.drop k), queue := [], closed := false, locked := false,
    workers := (samples.take k).map (.working (TokenStats.new ts none)) ++
      List.replicate (N - k) (.waiting (TokenStats.new ts none)),
    results := [], stats := TokenStats.new ts n }

theorem drop_cons_of_lt {α : Type} {l : List α} {k : Nat} (h : k < l.length) :
    ∃ x, l.drop k = x :: l.drop (k + 1) ∧ l.take (k + 1) = l.take k ++ [x] := by
  refine ⟨l[k], (List.drop_eq_getElem_cons h), ?_⟩
  rw [List.take_add_one]; simp [h]

theorem get_mid {α : Type} (A B : List α) (w : α) (k : Nat) (h : A.length = k) :
    (A ++ w :: B)[k]? = some w := by
  subst h; simp

theorem set_mid {α : Type} (A B : List α) (w v : α) (k : Nat) (h : A.length = k) :
    (A ++ w :: B).set k v = A ++ v :: B := by
  subst h; simp

theorem busy_reached {tk : FragmentTokenizer} {fails} {ts : TokenSet} {samples n N} (k : Nat)
    (hk : k ≤ N) (hl : k ≤ samples.length) :
    LSteps tk fails (linit ts samples n N) ⟨busy ts samples n N k, none, false⟩ := by
  induction k with
  | zero => exact .refl _
  | succ k ih =>
    obtain ⟨x, h1, h2⟩ := drop_cons_of_lt (show k < samples.length by omega)
    have e1 : N - k = (N - (k + 1)) + 1 := by omega
    generalize hA : (samples.take k).map (WState.working (TokenStats.new ts none)) = A
    generalize hB : List.replicate (N - (k + 1)) (WState.waiting (TokenStats.new ts none)) = B
    have hlen : A.length = k := by rw [← hA]; simp; omega
    have eb : busy ts samples n N k = ⟨.sending (x :: samples.drop (k + 1)), [], false, false,
        A ++ .waiting (TokenStats.new ts none) :: B, [], TokenStats.new ts n⟩ := by
      unfold busy
      rw [h1, e1, List.replicate_succ, hA, hB]
    have eb' : busy ts samples n N (k + 1) = ⟨.sending (samples.drop (k + 1)), [], false, false,
        A ++ .working (TokenStats.new ts none) x :: B, [], TokenStats.new ts n⟩ := by
      unfold busy
      rw [h2, List.map_append, hA, hB]
      simp
    have hb : LSteps tk fails ⟨busy ts samples n N k, none, false⟩
        ⟨busy ts samples n N (k + 1), none, false⟩ := by
      rw [eb, eb']
      refine .step (.step (.step (.step (.refl _) (.read (x := x) (rest := samples.drop (k + 1)) rfl rfl))
        (.send (x := x) rfl (by simp [queueCap])))
        (.worker (.lock (i := k) (st := TokenStats.new ts none) (get_mid A B _ k hlen) rfl) rfl)) ?_
      dsimp only
      rw [set_mid A B _ _ k hlen]
      have := LStep.worker (tk := tk) (fails := fails)
        (s := ⟨⟨.sending (samples.drop (k + 1)), [x], false, true,
          A ++ WState.holding (TokenStats.new ts none) :: B, [], TokenStats.new ts n⟩, none, false⟩)
        (PStep.recv (i := k) (st := TokenStats.new ts none) (x := x) (rest := [])
          (get_mid A B _ k hlen) rfl) rfl
      dsimp only at this
      rw [set_mid A B _ _ k hlen] at this
      exact this
    exact lsteps_trans (ih (by omega) (by omega)) hb

theorem fill_queue {tk : FragmentTokenizer} {fails} {p : PState} (k : Nat) {rest : List Bytes}
    (hm : p.main = .sending rest) (hk : k ≤ rest.length) (hq : p.queue = []) (h4 : k ≤ queueCap) :
    LSteps tk fails ⟨p, none, false⟩
      ⟨{ p with main := .sending (rest.drop k), queue := rest.take k }, none, false⟩ := by
  induction k with
  | zero =>
    have : ({ p with main := .sending (rest.drop 0), queue := rest.take 0 } : PState) = p := by
      cases p; simp at hm hq ⊢; exact ⟨hm.symm, hq⟩
    rw [this]
    exact .refl _
  | succ k ih =>
    obtain ⟨x, h1, h2⟩ := drop_cons_of_lt (show k < rest.length by omega)
    refine lsteps_trans (ih (by omega) (by omega)) ?_
    have s1 := LStep.read (tk := tk) (fails := fails) (x := x) (rest := rest.drop (k + 1))
      (s := ⟨{ p with main := .sending (rest.drop k), queue := rest.take k }, none, false⟩)
      (by dsimp only; rw [h1]) rfl
    have s2 := LStep.send (tk := tk) (fails := fails) (x := x)
      (s := ⟨{ p with main := .sending (rest.drop (k + 1)), queue := rest.take k }, some x, false⟩)
      rfl (by simp; omega)
    dsimp only at s2
    rw [← h2] at s2
    exact .step (.step (.refl _) s1) s2

theorem flight_reached {tk : FragmentTokenizer} {fails} {ts : TokenSet} {samples n N}
    (hl : N + 5 ≤ samples.length) :
    ∃ s, LSteps tk fails (linit ts samples n N) s ∧ (inFlight s).length = N + 5 := by
  have h1 := busy_reached (tk := tk) (fails := fails) (ts := ts) (samples := samples) (n := n) (N := N)
    N (Nat.le_refl _) (by omega)
  have h2 := fill_queue (tk := tk) (fails := fails) (p := busy ts samples n N N) 4
    (rest := samples.drop N) rfl (by simp; omega) rfl (by simp [queueCap])
  obtain ⟨x, h3, _⟩ := drop_cons_of_lt (l := samples.drop N) (k := 4) (by simp; omega)
  have s1 := LStep.read (tk := tk) (fails := fails) (x := x) (rest := (samples.drop N).drop 5)
      (s := ⟨{ busy ts samples n N N with main := .sending ((samples.drop N).drop 4), queue := (samples.drop N).take 4 }, none, false⟩)
      (by dsimp only; rw [h3]) rfl
  refine ⟨_, .step (lsteps_trans h1 h2) s1, ?_⟩
  simp only [inFlight, List.length_append, jobs_length, busy]
  simp [lsum_replicate, lsum, isJob, Function.comp_def]
  omega

/-! ### What is in flight comes from the sampler -/

structure From (P : Bytes → Prop) (s : LState) : Prop where
  held : ∀ x ∈ s.held.toList, P x
  rest : ∀ x ∈ s.p.main.rest, P x
  queue : ∀ x ∈ s.p.queue, P x
  jobs : ∀ w ∈ s.p.workers, ∀ x ∈ jobOf w, P x

theorem from_pstep {P : Bytes → Prop} {tk : FragmentTokenizer} {p p' : PState} {h : Option Bytes}
    {u u' : Bool} (hf : From P ⟨p, h, u⟩) (hs : PStep tk p p') : From P ⟨p', h, u'⟩ := by
  obtain ⟨h1, h2, h3, h4⟩ := hf
  dsimp only at h1 h2 h3 h4
  have hset : ∀ (i : Nat) w', (∀ x ∈ jobOf w', P x) → ∀ w ∈ p.workers.set i w', ∀ x ∈ jobOf w, P x := by
    intro i w' hw' w hw
    rcases mem_set hw with hw | rfl
    · exact h4 w hw
    · exact hw'
  cases hs with
  | @send x rest h hq =>
    rw [h] at h2
    simp [MState.rest] at h2
    refine ⟨h1, by simpa [MState.rest] using h2.2, ?_, h4⟩
    intro y hy
    rcases List.mem_append.1 hy with hy | hy
    · exact h3 y hy
    · simp at hy; subst hy; exact h2.1
  | close h => exact ⟨h1, by simp [MState.rest], h3, h4⟩
  | collect h _ _ => exact ⟨h1, by simp [MState.rest], h3, h4⟩
  | collectPanic h _ _ => exact ⟨h1, by simp [MState.rest], h3, h4⟩
  | collected h => exact ⟨h1, by simp [MState.rest], h3, h4⟩
  | join h _ => exact ⟨h1, by simp [MState.rest], h3, h4⟩
  | joinPanic h _ => exact ⟨h1, by simp [MState.rest], h3, h4⟩
  | finish h => exact ⟨h1, by simp [MState.rest], h3, h4⟩
  | lock hw hl => exact ⟨h1, h2, h3, hset _ _ (by simp [jobOf])⟩
  | @recv i st x rest hw hq =>
    rw [hq] at h3
    exact ⟨h1, h2, fun y hy => h3 y (by simp [hy]), hset _ _ (by simpa [jobOf] using h3 x (by simp))⟩
  | recvErr hw hq hc => exact ⟨h1, h2, h3, hset _ _ (by simp [jobOf])⟩
  | process hw hne hp => exact ⟨h1, h2, h3, hset _ _ (by simp [jobOf])⟩
  | processPanic hw hp => exact ⟨h1, h2, h3, hset _ _ (by simp [jobOf])⟩
  | result hw => exact ⟨h1, h2, h3, hset _ _ (by simp [jobOf])⟩

theorem from_lsteps {P : Bytes → Prop} {tk : FragmentTokenizer} {fails} {a b : LState}
    (hf : From P a) (hs : LSteps tk fails a b) : From P b := by
  induction hs with
  | refl => exact hf
  | @step b c _ hs ih =>
    have ih' := ih
    obtain ⟨h1, h2, h3, h4⟩ := ih
    cases hs with
    | @read x rest h hh =>
      rw [h] at h2
      simp [MState.rest] at h2
      exact ⟨by simpa using h2.1, by simpa [MState.rest] using h2.2, h3, h4⟩
    | @send x hh hq =>
      rw [hh] at h1
      refine ⟨by simp, h2, ?_, h4⟩
      intro y hy
      rcases List.mem_append.1 hy with hy | hy
      · exact h3 y hy
      · simp at hy; subst hy; exact h1 _ (by simp)
    | close h hh _ _ => exact ⟨h1, by simp [MState.rest], h3, h4⟩
    | fail h hh _ _ => exact ⟨h1, h2, h3, h4⟩
    | unwound _ _ _ => exact ⟨h1, by simp [MState.rest], h3, h4⟩
    | main hp _ => exact from_pstep ih' hp
    | worker hp _ => exact from_pstep ih' hp

theorem from_linit {P : Bytes → Prop} {ts : TokenSet} {samples : List Bytes} {n N}
    (h : ∀ x ∈ samples, P x) : From P (linit ts samples n N) := by
  refine ⟨by simp [linit], by simpa [linit, pinit, MState.rest] using h, by simp [linit, pinit], ?_⟩
  intro w hw x hx
  simp [linit, pinit] at hw
  obtain ⟨_, rfl⟩ := hw
  simp [jobOf] at hx

theorem From.flight {P : Bytes → Prop} {s : LState} (h : From P s) : ∀ x ∈ inFlight s, P x := by
  intro x hx
  simp only [inFlight, List.mem_append, List.mem_flatMap] at hx
  rcases hx with (hx | hx) | ⟨w, hw, hx⟩
  · exact h.held x hx
  · exact h.queue x hx
  · exact h.jobs w hw x hx

theorem byteSum_le {l : List Bytes} {c : Nat} (h : ∀ x ∈ l, x.length ≤ c) :
    byteSum l ≤ l.length * c := by
  induction l with
  | nil => simp [byteSum]
  | cons x l ih =>
    have h1 := h x (by simp)
    have h2 := ih (fun y hy => h y (by simp [hy]))
    simp [byteSum] at h2 ⊢
    rw [Nat.add_mul]
    omega

/-! ### A sampler that does not fail -/

theorem not_unwinding {tk : FragmentTokenizer} {ts : TokenSet} {samples n N} {s : LState}
    (hs : LSteps tk false (linit ts samples n N) s) : s.unwinding = false := by
  induction hs with
  | refl => rfl
  | step _ hs ih => cases hs with
    | fail _ _ hf _ => simp at hf
    | _ => exact ih

theorem lazy_progress {ts : TokenSet} {tk : FragmentTokenizer} {d} (hw : Work ts tk d)
    {samples : List Bytes} (hne : ∀ x ∈ samples, x ≠ []) {n : Option Nat} {N : Nat} (hN : 0 < N)
    {s : LState} (hs : LSteps tk false (linit ts samples n N) s) (hr : s.p.main ≠ .returned) :
    ∃ s', LStep tk false s s' := by
  have hu := not_unwinding hs
  rcases reach_fold hs with ⟨hi, hp⟩ | ⟨ho, _⟩
  swap
  · have := ho.unw; rw [hu] at this; simp at this
  have hinv := inv_steps hw (inv_init samples n N) hp
  have hc := clean_steps hw (inv_init samples n N) (clean_init hne) hp
  by_cases hsend : ∃ rest, s.p.main = .sending rest
  · obtain ⟨rest, hm⟩ := hsend
    cases hh : s.held with
    | none =>
      cases rest with
      | nil => exact ⟨_, .close hm hh rfl hu⟩
      | cons x rest => exact ⟨_, .read hm hh⟩
    | some x =>
      by_cases hq : s.p.queue.length < queueCap
      · exact ⟨_, .send hh hq⟩
      · rw [fold_sending hu hm] at hinv hc
        have hlen : 0 < s.p.workers.length := by have := hinv.len; dsimp only at this; omega
        have hget := List.getElem?_eq_getElem hlen
        obtain ⟨p', h1, h2⟩ := worker_moves' hw hinv (.inl (by
            intro h; dsimp only at h; rw [h] at hq; simp [queueCap] at hq)) hget (by
            intro hd
            have := (hinv.ended _ (mem_of_get hget) (by rw [hd]; trivial)).1
            rw [hinv.closed] at this
            simp [isSending] at this) (by
            intro hpn
            have := hc.workers _ (mem_of_get hget)
            rw [hpn] at this
            exact this)
        refine ⟨{ s with p := { p' with main := s.p.main } }, .worker ?_ rfl⟩
        have := worker_transfer h1 h2 s.p.main
        exact this
  · have hm : ∀ rest, s.p.main ≠ .sending rest := fun r h => hsend ⟨r, h⟩
    rw [fold_other hu hm] at hinv hc
    obtain ⟨p', h⟩ := progress hw hN hinv hc hr
    exact ⟨_, .main h hm⟩

theorem deliver_valid {l : List Bytes} (h : ∀ x ∈ l, validUtf8 x = true) :
    deliver l = (l, false) := by
  induction l with
  | nil => rfl
  | cons x l ih =>
    rw [deliver, if_pos (h x (by simp)), ih (fun y hy => h y (by simp [hy]))]

theorem deliver_invalid {l : List Bytes} (h : ¬ ∀ x ∈ l, validUtf8 x = true) :
    (deliver l).2 = true ∧ ∀ x ∈ (deliver l).1, x ∈ l := by
  induction l with
  | nil => simp at h
  | cons x l ih =>
    by_cases hx : validUtf8 x = true
    · rw [deliver, if_pos hx]
      have := ih (fun h' => h (by
        intro y hy
        rcases List.mem_cons.1 hy with rfl | hy
        · exact hx
        · exact h' y hy))
      refine ⟨this.1, ?_⟩
      intro y hy
      rcases List.mem_cons.1 hy with rfl | hy
      · simp
      · exact List.mem_cons_of_mem _ (this.2 y hy)
    · rw [deliver, if_neg hx]
      simp

end Batch
end Tokens
