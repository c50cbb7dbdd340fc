import Verif.Proofs.Counts

/-! The parallel tokenizer: invariant, progress, termination. -/

set_option linter.unusedSimpArgs false
set_option linter.unusedVariables false

namespace Tokens
open Spec FragmentTokenizer
namespace Batch

/-- Sum of `f` over a list. -/
def lsum {α : Type} (f : α → Nat) (l : List α) : Nat := (l.map f).sum

@[simp] theorem lsum_nil {α : Type} (f : α → Nat) : lsum f [] = 0 := rfl
@[simp] theorem lsum_cons {α : Type} (f : α → Nat) (a l) : lsum f (a :: l) = f a + lsum f l := by
  simp [lsum]
@[simp] theorem lsum_append {α : Type} (f : α → Nat) (l l') :
    lsum f (l ++ l') = lsum f l + lsum f l' := by simp [lsum]

theorem lsum_set {α : Type} (f : α → Nat) {l : List α} {i : Nat} {a : α} (h : l[i]? = some a)
    (b : α) : lsum f (l.set i b) + f a = lsum f l + f b := by
  induction l generalizing i with
  | nil => simp at h
  | cons x l ih =>
    cases i with
    | zero => simp at h; subst h; simp; omega
    | succ i =>
      have := ih (i := i) (by simpa using h)
      simp; omega

theorem lsum_replicate {α : Type} (f : α → Nat) (n : Nat) (a : α) :
    lsum f (List.replicate n a) = n * f a := by simp [lsum]

theorem lsum_eq_zero {α : Type} {f : α → Nat} {l : List α} : lsum f l = 0 ↔ ∀ a ∈ l, f a = 0 := by
  induction l with
  | nil => simp
  | cons x l ih => simp [ih]

theorem lsum_le_length {α : Type} {f : α → Nat} (h : ∀ a, f a ≤ 1) (l : List α) :
    lsum f l ≤ l.length := by
  induction l with
  | nil => simp
  | cons x l ih => have := h x; simp; omega

theorem all_of_lsum {α : Type} {f : α → Nat} (h : ∀ a, f a ≤ 1) {l : List α}
    (hl : l.length ≤ lsum f l) : ∀ a ∈ l, f a = 1 := by
  induction l with
  | nil => simp
  | cons x l ih =>
    have h1 := h x
    have h2 := lsum_le_length h l
    simp at hl
    intro a ha
    rcases List.mem_cons.1 ha with rfl | ha
    · omega
    · exact ih (by omega) a ha

theorem exists_of_lsum_lt {α : Type} {f : α → Nat} (h : ∀ a, f a ≤ 1) {l : List α}
    (hl : lsum f l < l.length) : ∃ (i : Nat) (a : α), l[i]? = some a ∧ f a = 0 := by
  apply Classical.byContradiction
  intro hn
  have h1 : ∀ a ∈ l, f a = 1 := by
    intro a ha
    obtain ⟨i, hi⟩ := List.mem_iff_getElem?.1 ha
    have := h a
    rcases Nat.lt_or_ge (f a) 1 with h' | h'
    · exact absurd ⟨i, a, hi, by omega⟩ hn
    · omega
  have : lsum f l = l.length := by
    clear hn hl
    induction l with
    | nil => rfl
    | cons x l ih =>
      have := ih (fun a ha => h1 a (by simp [ha]))
      have := h1 x (by simp)
      simp; omega
  omega

/-- The counters accumulated or promised by a worker. -/
def wcnt (d : Bytes → Ix → Nat) (ix : Ix) : WState → Nat
  | .waiting st => cnt st ix
  | .holding st => cnt st ix
  | .working st x => cnt st ix + d x ix
  | .sending st => cnt st ix
  | .done => 0
  | .panicked => 0

def isDone : WState → Nat
  | .done => 1
  | _ => 0

def isPan : WState → Nat
  | .panicked => 1
  | _ => 0

theorem isDone_le (w) : isDone w ≤ 1 := by cases w <;> simp [isDone]
theorem isPan_le (w) : isPan w ≤ 1 := by cases w <;> simp [isPan]

def WState.stats : WState → Option TokenStats
  | .waiting st => some st
  | .holding st => some st
  | .working st _ => some st
  | .sending st => some st
  | .done => none
  | .panicked => none

/-- The worker has left its receive loop normally. -/
def ended : WState → Prop
  | .sending _ => True
  | .done => True
  | _ => False

def MState.rest : MState → List Bytes
  | .sending l => l
  | _ => []

/-- Number of results main has received so far, if it is known. -/
def received (N : Nat) : MState → Nat
  | .sending _ => 0
  | .collecting k => N - k
  | _ => N

def mainOK (N : Nat) : MState → Prop
  | .collecting k => k ≤ N
  | .joining k => k ≤ N
  | .panicked => False
  | _ => True

def isSending : MState → Bool
  | .sending _ => true
  | _ => false

structure Inv (ts : TokenSet) (d : Bytes → Ix → Nat) (samples : List Bytes) (n : Option Nat)
    (N : Nat) (s : PState) : Prop where
  len : s.workers.length = N
  stats : Shaped ts s.stats ∧ s.stats.initialSize = n
  res : ∀ r ∈ s.results, Shaped ts r
  wst : ∀ w ∈ s.workers, ∀ st, w.stats = some st → Shaped ts st
  cons : lsum isPan s.workers = 0 → ∀ ix, cnt s.stats ix + lsum (cnt · ix) s.results +
    lsum (wcnt d ix) s.workers + workSum d s.queue ix + workSum d s.main.rest ix =
      workSum d samples ix
  closed : s.closed = !isSending s.main
  ended : ∀ w ∈ s.workers, ended w → s.closed = true ∧ s.queue = []
  main : mainOK N s.main
  acct : s.results.length + received N s.main = lsum isDone s.workers
  lock : s.locked = true → ∃ (i : Nat) (st : TokenStats), s.workers[i]? = some (WState.holding st)

theorem mem_set {α : Type} {l : List α} {i : Nat} {a b : α} (h : b ∈ l.set i a) : b ∈ l ∨ b = a := by
  rcases List.mem_or_eq_of_mem_set h with h | h
  · exact .inl h
  · exact .inr h

theorem inv_init {ts : TokenSet} {d} (samples : List Bytes) (n : Option Nat) (N : Nat) :
    Inv ts d samples n N (pinit ts samples n N) := by
  refine ⟨by simp [pinit], ⟨shaped_new ts n, rfl⟩, by simp [pinit], ?_, ?_, by simp [pinit, isSending],
    ?_, by simp [pinit, mainOK], ?_, by simp [pinit]⟩
  · intro w hw st hst
    simp [pinit] at hw
    obtain ⟨_, rfl⟩ := hw
    simp [WState.stats] at hst
    subst hst
    exact shaped_new _ _
  · intro _ ix
    simp [pinit, MState.rest, cnt_new, lsum_replicate, wcnt]
  · intro w hw he
    simp [pinit] at hw
    obtain ⟨_, rfl⟩ := hw
    simp [Batch.ended] at he
  · simp [pinit, received, lsum_replicate, isDone]

theorem mem_of_get {α : Type} {l : List α} {i : Nat} {a : α} (h : l[i]? = some a) : a ∈ l :=
  List.mem_iff_getElem?.2 ⟨i, h⟩

theorem get_set_ne {α : Type} {l : List α} {i j : Nat} {a b : α} (h : i ≠ j)
    (hj : l[j]? = some b) : (l.set i a)[j]? = some b := by
  rw [List.getElem?_set_ne h]; exact hj

theorem inv_step {ts : TokenSet} {tk : FragmentTokenizer} {d} (hw : Work ts tk d)
    {samples : List Bytes} {n : Option Nat} {N : Nat} {s s' : PState}
    (h : Inv ts d samples n N s) (hs : PStep tk s s') : Inv ts d samples n N s' := by
  obtain ⟨h1, h2, h3, h4, h5, h6, h7, h8, h9, h10⟩ := h
  cases hs with
  | @send x rest h hq =>
    rw [h] at h5 h6 h8 h9
    refine ⟨h1, h2, h3, h4, ?_, ?_, ?_, h8, h9, h10⟩
    · intro hp ix
      have := h5 hp ix
      simp [MState.rest] at this ⊢
      omega
    · simpa [isSending] using h6
    · intro w hw he
      have := (h7 w hw he).1
      rw [h6] at this
      simp [isSending] at this
  | close h =>
    rw [h] at h5 h6 h8 h9
    refine ⟨h1, h2, h3, h4, ?_, ?_, ?_, ?_, ?_, h10⟩
    · intro hp ix
      have := h5 hp ix
      simpa [MState.rest] using this
    · simp [isSending]
    · intro w hw he
      have := (h7 w hw he).1
      rw [h6] at this
      simp [isSending] at this
    · show s.workers.length ≤ N
      omega
    · simp [received] at h9 ⊢
      omega
  | @collect k r rest st h hr hm =>
    rw [h] at h5 h6 h8 h9
    rw [hr] at h5 h9 h3
    obtain ⟨st', g1, g2, g3, g4⟩ := merge_ok h2.1 (h3 r (by simp))
    rw [hm] at g1
    simp at g1
    subst g1
    refine ⟨h1, ⟨g2, g3.trans h2.2⟩, ?_, h4, ?_, ?_, h7, ?_, ?_, h10⟩
    · intro r' hr'; exact h3 r' (by simp [hr'])
    · intro hp ix
      have := h5 hp ix
      have := g4 ix
      simp [MState.rest] at *
      omega
    · simpa [isSending] using h6
    · simp [mainOK] at h8 ⊢; omega
    · simp [received, mainOK] at h8 h9 ⊢; omega
  | @collectPanic k r rest e h hr hm =>
    rw [hr] at h3
    obtain ⟨st', g1, _⟩ := merge_ok h2.1 (h3 r (by simp))
    rw [hm] at g1
    simp at g1
  | collected h =>
    rw [h] at h5 h6 h8 h9
    refine ⟨h1, h2, h3, h4, ?_, ?_, h7, ?_, ?_, h10⟩
    · simpa [MState.rest] using h5
    · simpa [isSending] using h6
    · simp [mainOK, h1]
    · simpa [received] using h9
  | @join k h hw =>
    rw [h] at h5 h6 h8 h9
    refine ⟨h1, h2, h3, h4, ?_, ?_, h7, ?_, ?_, h10⟩
    · simpa [MState.rest] using h5
    · simpa [isSending] using h6
    · simp [mainOK] at h8 ⊢; omega
    · simpa [received] using h9
  | @joinPanic k h hw =>
    rw [h] at h9
    simp only [received] at h9
    have := all_of_lsum isDone_le (l := s.workers) (by omega) _ (mem_of_get hw)
    simp [isDone] at this
  | finish h =>
    rw [h] at h5 h6 h8 h9
    refine ⟨h1, h2, h3, h4, ?_, ?_, h7, trivial, ?_, h10⟩
    · simpa [MState.rest] using h5
    · simpa [isSending] using h6
    · simpa [received] using h9
  | @lock i st hw' hl =>
    refine ⟨by simpa using h1, h2, h3, ?_, ?_, h6, ?_, h8, ?_, ?_⟩
    · intro w hw st' hst'
      rcases mem_set hw with hw | rfl
      · exact h4 w hw st' hst'
      · exact h4 _ (mem_of_get hw') st' hst'
    · intro hp ix
      have e1 := lsum_set isPan hw' (.holding st)
      have e2 := lsum_set (wcnt d ix) hw' (.holding st)
      simp [isPan, wcnt] at e1 e2 hp
      have := h5 (by omega) ix
      simp
      omega
    · intro w hw he
      rcases mem_set hw with hw | rfl
      · exact h7 w hw he
      · simp [Batch.ended] at he
    · have e1 := lsum_set isDone hw' (.holding st)
      simp [isDone] at e1 ⊢
      omega
    · intro _
      refine ⟨i, st, ?_⟩
      have := (List.getElem?_eq_some_iff.1 hw').1
      simp [this]
  | @recv i st x rest hw' hq =>
    refine ⟨by simpa using h1, h2, h3, ?_, ?_, h6, ?_, h8, ?_, by simp⟩
    · intro w hw st' hst'
      rcases mem_set hw with hw | rfl
      · exact h4 w hw st' hst'
      · exact h4 _ (mem_of_get hw') st' hst'
    · intro hp ix
      have e1 := lsum_set isPan hw' (.working st x)
      have e2 := lsum_set (wcnt d ix) hw' (.working st x)
      simp [isPan, wcnt] at e1 e2 hp
      have := h5 (by omega) ix
      rw [hq] at this
      simp at this ⊢
      omega
    · intro w hw he
      rcases mem_set hw with hw | rfl
      · have := (h7 w hw he).2
        rw [hq] at this
        simp at this
      · simp [Batch.ended] at he
    · have e1 := lsum_set isDone hw' (.working st x)
      simp [isDone] at e1 ⊢
      omega
  | @recvErr i st hw' hq hc =>
    refine ⟨by simpa using h1, h2, h3, ?_, ?_, h6, ?_, h8, ?_, by simp⟩
    · intro w hw st' hst'
      rcases mem_set hw with hw | rfl
      · exact h4 w hw st' hst'
      · exact h4 _ (mem_of_get hw') st' hst'
    · intro hp ix
      have e1 := lsum_set isPan hw' (.sending st)
      have e2 := lsum_set (wcnt d ix) hw' (.sending st)
      simp [isPan, wcnt] at e1 e2 hp
      have := h5 (by omega) ix
      simp at this ⊢
      omega
    · intro w hw he
      exact ⟨hc, hq⟩
    · have e1 := lsum_set isDone hw' (.sending st)
      simp [isDone] at e1 ⊢
      omega
  | @process i st x st' hw' hne hp =>
    obtain ⟨st'', g1, g2, g3, g4⟩ := hw.ok x st (h4 _ (mem_of_get hw') st rfl)
    rw [hp] at g1
    simp at g1
    subst g1
    refine ⟨by simpa using h1, h2, h3, ?_, ?_, h6, ?_, h8, ?_, ?_⟩
    · intro w hw st' hst'
      rcases mem_set hw with hw | rfl
      · exact h4 w hw st' hst'
      · simp [WState.stats] at hst'; subst hst'; exact g2
    · intro hp ix
      have e1 := lsum_set isPan hw' (.waiting st')
      have e2 := lsum_set (wcnt d ix) hw' (.waiting st')
      simp [isPan, wcnt] at e1 e2 hp
      have := h5 (by omega) ix
      have := g4 ix
      simp
      omega
    · intro w hw he
      rcases mem_set hw with hw | rfl
      · exact h7 w hw he
      · simp [Batch.ended] at he
    · have e1 := lsum_set isDone hw' (.waiting st')
      simp [isDone] at e1 ⊢
      omega
    · intro hl
      obtain ⟨j, st2, hj⟩ := h10 hl
      exact ⟨j, st2, get_set_ne (by rintro rfl; rw [hw'] at hj; simp at hj) hj⟩
  | @processPanic i st x hw' hp =>
    refine ⟨by simpa using h1, h2, h3, ?_, ?_, h6, ?_, h8, ?_, ?_⟩
    · intro w hw st' hst'
      rcases mem_set hw with hw | rfl
      · exact h4 w hw st' hst'
      · simp [WState.stats] at hst'
    · intro hp ix
      have e1 := lsum_set isPan hw' .panicked
      simp [isPan] at e1 hp
      omega
    · intro w hw he
      rcases mem_set hw with hw | rfl
      · exact h7 w hw he
      · simp [Batch.ended] at he
    · have e1 := lsum_set isDone hw' .panicked
      simp [isDone] at e1 ⊢
      omega
    · intro hl
      obtain ⟨j, st2, hj⟩ := h10 hl
      exact ⟨j, st2, get_set_ne (by rintro rfl; rw [hw'] at hj; simp at hj) hj⟩
  | @result i st hw' =>
    have hst := h4 _ (mem_of_get hw') st rfl
    refine ⟨by simpa using h1, h2, ?_, ?_, ?_, h6, ?_, h8, ?_, ?_⟩
    · intro r hr
      rcases List.mem_append.1 hr with hr | hr
      · exact h3 r hr
      · simp at hr; subst hr; exact hst
    · intro w hw st' hst'
      rcases mem_set hw with hw | rfl
      · exact h4 w hw st' hst'
      · simp [WState.stats] at hst'
    · intro hp ix
      have e1 := lsum_set isPan hw' .done
      have e2 := lsum_set (wcnt d ix) hw' .done
      simp [isPan, wcnt] at e1 e2 hp
      have := h5 (by omega) ix
      simp
      omega
    · intro w hw he
      exact h7 _ (mem_of_get hw') trivial
    · have e1 := lsum_set isDone hw' .done
      simp [isDone] at e1 ⊢
      omega
    · intro hl
      obtain ⟨j, st2, hj⟩ := h10 hl
      exact ⟨j, st2, get_set_ne (by rintro rfl; rw [hw'] at hj; simp at hj) hj⟩

theorem inv_steps {ts : TokenSet} {tk : FragmentTokenizer} {d} (hw : Work ts tk d)
    {samples : List Bytes} {n : Option Nat} {N : Nat} {s s' : PState}
    (h : Inv ts d samples n N s) (hs : PSteps tk s s') : Inv ts d samples n N s' := by
  induction hs with
  | refl => exact h
  | step _ hs ih => exact inv_step hw ih hs

/-- What main has when it returns. -/
theorem inv_returned {ts : TokenSet} {d} {samples : List Bytes} {n : Option Nat} {N : Nat}
    {s : PState} (hN : 0 < N) (h : Inv ts d samples n N s) (hr : s.main = .returned) :
    Shaped ts s.stats ∧ s.stats.initialSize = n ∧
      (∀ ix, cnt s.stats ix = workSum d samples ix) ∧ ∀ w ∈ s.workers, w = .done := by
  obtain ⟨h1, h2, h3, h4, h5, h6, h7, h8, h9, h10⟩ := h
  rw [hr] at h9 h5
  simp only [received] at h9
  have hle := lsum_le_length isDone_le s.workers
  have hall := all_of_lsum isDone_le (l := s.workers) (by omega)
  have hdone : ∀ w ∈ s.workers, w = .done := by
    intro w hw
    have := hall w hw
    cases w <;> simp [isDone] at this ⊢
  have hres : s.results = [] := List.eq_nil_of_length_eq_zero (by omega)
  have hq : s.queue = [] := by
    have hlen : 0 < s.workers.length := by omega
    have hm : s.workers[0] ∈ s.workers := List.getElem_mem hlen
    refine (h7 _ hm ?_).2
    rw [hdone _ hm]
    trivial
  refine ⟨h2.1, h2.2, ?_, hdone⟩
  intro ix
  have h := h5 (lsum_eq_zero.2 (fun w hw => by rw [hdone w hw]; rfl)) ix
  have hz : lsum (wcnt d ix) s.workers = 0 := lsum_eq_zero.2 (fun w hw => by rw [hdone w hw]; rfl)
  rw [hz, hres, hq] at h
  simpa [MState.rest] using h

/-! ### Termination -/

def wMeasure : WState → Nat
  | .waiting _ => 3
  | .holding _ => 2
  | .working _ _ => 4
  | .sending _ => 1
  | .done => 0
  | .panicked => 0

def mMeasure (N : Nat) : MState → Nat
  | .sending l => 2 * N + 4 + 6 * l.length
  | .collecting k => k + N + 3
  | .joining k => k + 1
  | .returned => 0
  | .panicked => 0

def pMeasure (s : PState) : Nat :=
  mMeasure s.workers.length s.main + 5 * s.queue.length + lsum wMeasure s.workers

theorem step_decreases {tk : FragmentTokenizer} {s s' : PState} (hs : PStep tk s s') :
    pMeasure s' < pMeasure s := by
  unfold pMeasure
  cases hs with
  | send h hq => simp [h, mMeasure]; omega
  | close h => simp [h, mMeasure]; omega
  | collect h hr hm => simp [h, mMeasure]
  | collectPanic h hr hm => simp [h, mMeasure]
  | collected h => simp [h, mMeasure]
  | join h hw => simp [h, mMeasure]
  | joinPanic h hw => simp [h, mMeasure]
  | finish h => simp [h, mMeasure]
  | @lock i st hw hl =>
    have := lsum_set wMeasure hw (.holding st)
    simp [wMeasure] at this ⊢; omega
  | @recv i st x rest hw hq =>
    have := lsum_set wMeasure hw (.working st x)
    simp [wMeasure, hq] at this ⊢; omega
  | @recvErr i st hw hq hc =>
    have := lsum_set wMeasure hw (.sending st)
    simp [wMeasure] at this ⊢; omega
  | @process i st x st' hw hne hp =>
    have := lsum_set wMeasure hw (.waiting st')
    simp [wMeasure] at this ⊢; omega
  | @processPanic i st x hw hp =>
    have := lsum_set wMeasure hw .panicked
    simp [wMeasure] at this ⊢; omega
  | @result i st hw =>
    have := lsum_set wMeasure hw .done
    simp [wMeasure] at this ⊢; omega

theorem no_infinite_run {tk : FragmentTokenizer} (f : Nat → PState) :
    ¬ ∀ k, PStep tk (f k) (f (k + 1)) := by
  intro h
  have : ∀ k, pMeasure (f k) + k ≤ pMeasure (f 0) := by
    intro k
    induction k with
    | zero => simp
    | succ k ih => have := step_decreases (h k); omega
  have := this (pMeasure (f 0) + 1)
  omega

/-! ### No worker panics -/

def jobOK : WState → Prop
  | .working _ x => x ≠ []
  | .panicked => False
  | _ => True

structure Clean (s : PState) : Prop where
  rest : ∀ x ∈ s.main.rest, x ≠ []
  queue : ∀ x ∈ s.queue, x ≠ []
  workers : ∀ w ∈ s.workers, jobOK w

theorem clean_init {ts : TokenSet} {samples : List Bytes} {n : Option Nat} {N : Nat}
    (h : ∀ x ∈ samples, x ≠ []) : Clean (pinit ts samples n N) := by
  refine ⟨by simpa [pinit, MState.rest] using h, by simp [pinit], ?_⟩
  intro w hw
  simp [pinit] at hw
  obtain ⟨_, rfl⟩ := hw
  trivial

theorem clean_step {ts : TokenSet} {tk : FragmentTokenizer} {d} (hw : Work ts tk d)
    {samples : List Bytes} {n : Option Nat} {N : Nat} {s s' : PState}
    (hi : Inv ts d samples n N s) (hc : Clean s) (hs : PStep tk s s') : Clean s' := by
  obtain ⟨h1, h2, h3⟩ := hc
  cases hs with
  | @send x rest h hq =>
    rw [h] at h1
    simp [MState.rest] at h1
    refine ⟨by simpa [MState.rest] using h1.2, ?_, h3⟩
    intro y hy
    rcases List.mem_append.1 hy with hy | hy
    · exact h2 y hy
    · simp at hy; subst hy; exact h1.1
  | close h => exact ⟨by simp [MState.rest], h2, h3⟩
  | collect h hr hm => exact ⟨by simp [MState.rest], h2, h3⟩
  | collectPanic h hr hm => exact ⟨by simp [MState.rest], h2, h3⟩
  | collected h => exact ⟨by simp [MState.rest], h2, h3⟩
  | join h hw => exact ⟨by simp [MState.rest], h2, h3⟩
  | joinPanic h hw => exact ⟨by simp [MState.rest], h2, h3⟩
  | finish h => exact ⟨by simp [MState.rest], h2, h3⟩
  | lock hw hl =>
    refine ⟨h1, h2, ?_⟩
    intro w hw
    rcases mem_set hw with hw | rfl
    · exact h3 w hw
    · trivial
  | @recv i st x rest hw hq =>
    rw [hq] at h2
    refine ⟨h1, fun y hy => h2 y (by simp [hy]), ?_⟩
    intro w hw
    rcases mem_set hw with hw | rfl
    · exact h3 w hw
    · exact h2 x (by simp)
  | recvErr hw hq hc =>
    refine ⟨h1, h2, ?_⟩
    intro w hw
    rcases mem_set hw with hw | rfl
    · exact h3 w hw
    · trivial
  | process hw hne hp =>
    refine ⟨h1, h2, ?_⟩
    intro w hw
    rcases mem_set hw with hw | rfl
    · exact h3 w hw
    · trivial
  | @processPanic i st x hw' hp =>
    exfalso
    rcases hp with rfl | ⟨e, he⟩
    · exact h3 _ (mem_of_get hw') rfl
    · obtain ⟨st', g, _⟩ := hw.ok x st (hi.wst _ (mem_of_get hw') st rfl)
      rw [he] at g
      simp at g
  | result hw =>
    refine ⟨h1, h2, ?_⟩
    intro w hw
    rcases mem_set hw with hw | rfl
    · exact h3 w hw
    · trivial

theorem clean_steps {ts : TokenSet} {tk : FragmentTokenizer} {d} (hw : Work ts tk d)
    {samples : List Bytes} {n : Option Nat} {N : Nat} {s s' : PState}
    (hi : Inv ts d samples n N s) (hc : Clean s) (hs : PSteps tk s s') : Clean s' := by
  induction hs with
  | refl => exact hc
  | step hs hs' ih => exact clean_step hw (inv_steps hw hi hs) ih hs'

/-! ### Progress -/

/-- A worker that is neither finished nor dead can move, or the one holding the lock can. -/
theorem worker_moves {ts : TokenSet} {tk : FragmentTokenizer} {d} (hw : Work ts tk d)
    {samples : List Bytes} {n : Option Nat} {N : Nat} {s : PState}
    (hi : Inv ts d samples n N s)
    (hq : s.queue ≠ [] ∨ s.closed = true) {i : Nat} {w : WState} (hwi : s.workers[i]? = some w)
    (hd : w ≠ .done) (hp : w ≠ .panicked) : ∃ s', PStep tk s s' := by
  have hold : ∀ (i : Nat) (st : TokenStats), s.workers[i]? = some (.holding st) → ∃ s', PStep tk s s' := by
    intro i st h
    cases hqq : s.queue with
    | nil =>
      rcases hq with hq | hq
      · exact absurd hqq hq
      · exact ⟨_, .recvErr h hqq hq⟩
    | cons x rest => exact ⟨_, .recv h hqq⟩
  cases w with
  | waiting st =>
    cases hl : s.locked with
    | false => exact ⟨_, .lock hwi hl⟩
    | true =>
      obtain ⟨j, st', hj⟩ := hi.lock hl
      exact hold j st' hj
  | holding st => exact hold i st hwi
  | working st x =>
    by_cases hx : x = []
    · exact ⟨_, .processPanic hwi (.inl hx)⟩
    · obtain ⟨st', g, _⟩ := hw.ok x st (hi.wst _ (mem_of_get hwi) st rfl)
      exact ⟨_, .process hwi hx g⟩
  | sending st => exact ⟨_, .result hwi⟩
  | done => exact absurd rfl hd
  | panicked => exact absurd rfl hp

theorem progress {ts : TokenSet} {tk : FragmentTokenizer} {d} (hw : Work ts tk d)
    {samples : List Bytes} {n : Option Nat} {N : Nat} {s : PState} (hN : 0 < N)
    (hi : Inv ts d samples n N s) (hc : Clean s) (hr : s.main ≠ .returned) :
    ∃ s', PStep tk s s' := by
  have hnp : ∀ w ∈ s.workers, w ≠ .panicked := by
    rintro w hw rfl
    exact hc.workers _ hw
  cases hm : s.main with
  | sending l =>
    cases l with
    | nil => exact ⟨_, .close hm⟩
    | cons x rest =>
      by_cases hq : s.queue.length < queueCap
      · exact ⟨_, .send hm hq⟩
      · have hlen : 0 < s.workers.length := by rw [hi.len]; exact hN
        have hget := List.getElem?_eq_getElem hlen
        refine worker_moves hw hi (.inl ?_) hget ?_ (hnp _ (mem_of_get hget))
        · intro h; rw [h] at hq; simp [queueCap] at hq
        · intro hd
          have := (hi.ended _ (mem_of_get hget) (by rw [hd]; trivial)).1
          rw [hi.closed, hm] at this
          simp [isSending] at this
  | collecting k =>
    cases k with
    | zero => exact ⟨_, .collected hm⟩
    | succ k =>
      cases hres : s.results with
      | cons r rest =>
        obtain ⟨st, g, _⟩ := merge_ok hi.stats.1 (hi.res r (by rw [hres]; simp))
        exact ⟨_, .collect hm hres g⟩
      | nil =>
        have h1 := hi.acct
        have h2 := hi.main
        rw [hm] at h1 h2
        rw [hres] at h1
        simp [received, mainOK] at h1 h2
        obtain ⟨i, w, hwi, hw0⟩ := exists_of_lsum_lt isDone_le (l := s.workers)
          (by rw [hi.len]; omega)
        refine worker_moves hw hi (.inr ?_) hwi ?_ (hnp _ (mem_of_get hwi))
        · rw [hi.closed, hm]; rfl
        · rintro rfl; simp [isDone] at hw0
  | joining k =>
    cases k with
    | zero => exact ⟨_, .finish hm⟩
    | succ k =>
      have h1 := hi.acct
      have h2 := hi.main
      rw [hm] at h1 h2
      simp [received, mainOK] at h1 h2
      have hall := all_of_lsum isDone_le (l := s.workers) (by rw [hi.len]; omega)
      have hlen : k < s.workers.length := by rw [hi.len]; omega
      have hget := List.getElem?_eq_getElem hlen
      refine ⟨_, .join hm (n := k) ?_⟩
      rw [hget]
      have := hall _ (List.getElem_mem hlen)
      cases hw : s.workers[k] <;> rw [hw] at this <;> simp [isDone] at this ⊢
  | returned => exact absurd hm hr
  | panicked => have := hi.main; rw [hm] at this; exact this.elim

/-! ### A dead worker -/

theorem panicked_stays {tk : FragmentTokenizer} {s s' : PState} (hs : PStep tk s s')
    (h : .panicked ∈ s.workers) : .panicked ∈ s'.workers := by
  obtain ⟨i, hi⟩ := List.mem_iff_getElem?.1 h
  have key : ∀ (j : Nat) w w', s.workers[j]? = some w → w ≠ .panicked →
      WState.panicked ∈ s.workers.set j w' := by
    intro j w w' hj hne
    refine mem_of_get (get_set_ne (i := j) (j := i) ?_ hi)
    rintro rfl
    rw [hj] at hi
    exact hne (by simpa using hi)
  cases hs <;> first | exact h | exact key _ _ _ ‹_› (by simp)

theorem panicked_stays' {tk : FragmentTokenizer} {s s' : PState} (hs : PSteps tk s s')
    (h : .panicked ∈ s.workers) : .panicked ∈ s'.workers := by
  induction hs with
  | refl => exact h
  | step _ hs ih => exact panicked_stays hs ih

/-- With a dead worker main is always still sending or still collecting. -/
theorem dead_blocks {ts : TokenSet} {d} {samples : List Bytes} {n : Option Nat} {N : Nat}
    {s : PState} (hi : Inv ts d samples n N s) (h : .panicked ∈ s.workers) :
    (∃ l, s.main = .sending l) ∨ ∃ k, s.main = .collecting (k + 1) := by
  have hlt : lsum isDone s.workers < s.workers.length := by
    apply Classical.byContradiction
    intro hn
    have := all_of_lsum isDone_le (l := s.workers) (by omega) _ h
    simp [isDone] at this
  have hacct := hi.acct
  have hlen := hi.len
  have hmain := hi.main
  cases hm : s.main with
  | sending l => exact .inl ⟨l, rfl⟩
  | collecting k =>
    rw [hm] at hacct
    simp [received] at hacct
    cases k with
    | zero => omega
    | succ k => exact .inr ⟨k, rfl⟩
  | joining k => rw [hm] at hacct; simp [received] at hacct; omega
  | returned => rw [hm] at hacct; simp [received] at hacct; omega
  | panicked => rw [hm] at hmain; exact hmain.elim

/-- Every state has a finite continuation to a state where nothing can move. -/
theorem exists_stuck (tk : FragmentTokenizer) (s : PState) :
    ∃ s', PSteps tk s s' ∧ ¬ ∃ s'', PStep tk s' s'' := by
  generalize hm : pMeasure s = m
  induction m using Nat.strongRecOn generalizing s with
  | ind m ih =>
    by_cases h : ∃ s'', PStep tk s s''
    · obtain ⟨s1, h1⟩ := h
      obtain ⟨s2, h2, h3⟩ := ih (pMeasure s1) (by have := step_decreases h1; omega) s1 rfl
      refine ⟨s2, ?_, h3⟩
      clear h3 ih hm
      induction h2 with
      | refl => exact .step (.refl _) h1
      | step _ hs ih => exact .step ih hs
    · exact ⟨s, .refl s, h⟩

end Batch
end Tokens
