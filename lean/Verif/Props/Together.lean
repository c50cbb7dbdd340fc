import Verif.Proofs.Together

/-!
# Property C126: several runs at the same time

Read together with `Verif/Spec/Together.lean`.  `Together.Steps prog` are the histories of any number of runs
of the program on the same files (`Verif/Model/Together.lean`): run `i` executes a command on a machine, both
given by `prog i`; it starts at any moment, and its system calls come in between those of the others.
-/

namespace Tokens.Props
open Tokens Spec TokenSet Optimize Batch Main Input Disk

/-- **C126**.  Let `W i` be files that the i-th command alone, on the files `d`, writes at most, and let no
command write what another one writes or reads.  Then at every moment of every history, each run that has
started is as if it were alone: it has an outcome that it has alone on `d`, its files are what it, alone,
leaves at some moment (all it writes, if it has done all its calls), and the files that nobody may write are as
they were. -/
theorem C126_apart (prog : Nat → Option (Machine × Command)) (W : Nat → Text → Prop) (d : Files)
    (hW : ∀ i m cmd ws, prog i = some (m, cmd) → Running m d cmd ws → ∀ w ∈ ws, W i w.1)
    (hww : ∀ i j path, i ≠ j → W i path → ¬ W j path)
    (hwr : ∀ i j m cmd path, i ≠ j → W i path → prog j = some (m, cmd) → ¬ Reads cmd path)
    (s : Together) (h : Together.Steps prog (Together.fresh d) s) :
    (∀ i j, s.job i = some j → ∃ m cmd d', prog i = some (m, cmd) ∧ Begins m d cmd j.result j.writes ∧
      Stopped j.writes d d' ∧ (j.todo = [] → d' = writeAll d j.writes) ∧
      ∀ path, W i path → s.files.read path = d'.read path) ∧
    (∀ i path, s.job i = none → W i path → s.files.read path = d.read path) ∧
    ∀ path, (∀ i, ¬ W i path) → s.files.read path = d.read path := by
  have ha := apart_steps hW hww hwr apart_fresh h
  refine ⟨?_, ?_, ha.others⟩
  · intro i j hj
    obtain ⟨m, cmd, b0, b1, b2, b3⟩ := ha.begins i j hj
    refine ⟨m, cmd, applyCalls d j.done, b0, b1, callsFor_some b2 d _ _ rfl, ?_, ?_⟩
    · intro ht
      rw [ht, List.append_nil] at b2
      exact callsFor_all b2 d
    · intro path hp
      have := ha.files i path hp
      rw [hj] at this
      exact this
  · intro i path hj hp
    have := ha.files i path hp
    rw [hj] at this
    exact this

/-- **C126** (any commands).  In particular if the files that the commands are meant to write are not those
that others are meant to write or read: a finished run has the result and leaves the files that it would leave
alone. -/
theorem C126_commands (prog : Nat → Option (Machine × Command)) (d : Files)
    (hww : ∀ i j m1 cmd1 m2 cmd2 path, i ≠ j → prog i = some (m1, cmd1) → prog j = some (m2, cmd2) →
      MayWrite cmd1 path → ¬ MayWrite cmd2 path ∧ ¬ Reads cmd2 path)
    (s : Together) (h : Together.Steps prog (Together.fresh d) s) (i : Nat) (j : Job) (hj : s.job i = some j) :
    ∃ m cmd d', prog i = some (m, cmd) ∧ Begins m d cmd j.result j.writes ∧
      Stopped j.writes d d' ∧ (j.todo = [] → d' = writeAll d j.writes) ∧
      ∀ path, MayWrite cmd path → s.files.read path = d'.read path := by
  obtain ⟨h1, _⟩ := C126_apart prog (fun i path => ∃ m cmd, prog i = some (m, cmd) ∧ MayWrite cmd path) d
    (fun i m cmd ws hp hr w hw => ⟨m, cmd, hp, running_where hr w hw⟩)
    (by
      rintro i j path hne ⟨m1, c1, a1, b1⟩ ⟨m2, c2, a2, b2⟩
      exact (hww i j m1 c1 m2 c2 path hne a1 a2 b1).1 b2)
    (by
      rintro i j m2 c2 path hne ⟨m1, c1, a1, b1⟩ a2
      exact (hww i j m1 c1 m2 c2 path hne a1 a2 b1).2) s h
  obtain ⟨m, cmd, d', e1, e2, e3, e4, e5⟩ := h1 i j hj
  exact ⟨m, cmd, d', e1, e2, e3, e4, fun path hp => e5 path ⟨m, cmd, e1, hp⟩⟩

/-- The options of an optimize command. -/
structure OptimizeOptions where
  machine : Machine
  data : Text
  processed : Option Text
  p : Processing
  ty : TokenType
  ntokens : Nat
  inputTokens : Option Text
  minSize : Option Nat

/-- The runs given by a list of options, all writing to one directory. -/
def optimizations (dir : Text) (opts : List OptimizeOptions) (i : Nat) : Option (Machine × Command) :=
  (opts[i]?).map (fun o => (o.machine, .optimize o.data o.processed dir o.p o.ty o.ntokens o.inputTokens o.minSize))

/-- **C126** (optimizations into one directory).  Optimizations that differ in type or processing can work at the
same time and write into the same directory, if none of them reads a file that another one writes: at every
moment, each has an outcome that it has alone; as soon as it has done all its calls, its result is what it is
alone: the file named after its size, processing and type holds what the optimization alone leaves there. -/
theorem C126_types (dir : Text) (opts : List OptimizeOptions) (d : Files)
    (hm : ∀ o ∈ opts, MachineOk o.machine)
    (hg : ∀ o ∈ opts, StartsGood d o.p o.ty o.ntokens o.inputTokens)
    (hdiff : opts.Pairwise (fun a b => a.p ≠ b.p ∨ a.ty ≠ b.ty))
    (hread : ∀ a ∈ opts, ∀ b ∈ opts, ∀ n, (a.p ≠ b.p ∨ a.ty ≠ b.ty) →
      ¬ Reads (.optimize b.data b.processed dir b.p b.ty b.ntokens b.inputTokens b.minSize)
        (fileIn dir (tokenFile n a.p a.ty)))
    (s : Together) (h : Together.Steps (optimizations dir opts) (Together.fresh d) s) (i : Nat) (j : Job)
    (hj : s.job i = some j) :
    ∃ o d', opts[i]? = some o ∧
      Begins o.machine d (.optimize o.data o.processed dir o.p o.ty o.ntokens o.inputTokens o.minSize) j.result j.writes ∧
      Stopped j.writes d d' ∧ (j.todo = [] → d' = writeAll d j.writes) ∧
      ∀ n ≤ o.ntokens, s.files.read (fileIn dir (tokenFile n o.p o.ty)) = d'.read (fileIn dir (tokenFile n o.p o.ty)) := by
  have hd : ∀ (i j : Nat) (a b : OptimizeOptions), i ≠ j → opts[i]? = some a → opts[j]? = some b → a.p ≠ b.p ∨ a.ty ≠ b.ty := by
    intro i j a b hne ha hb
    obtain ⟨hi, ha'⟩ := List.getElem?_eq_some_iff.1 ha
    obtain ⟨hj, hb'⟩ := List.getElem?_eq_some_iff.1 hb
    rcases Nat.lt_or_gt_of_ne hne with hlt | hlt
    · have := List.pairwise_iff_getElem.1 hdiff i j hi hj hlt
      rw [ha', hb'] at this
      exact this
    · have := List.pairwise_iff_getElem.1 hdiff j i hj hi hlt
      rw [ha', hb'] at this
      exact this.imp Ne.symm Ne.symm
  have inv : ∀ {i m cmd}, optimizations dir opts i = some (m, cmd) → ∃ o, opts[i]? = some o ∧ m = o.machine ∧
      cmd = .optimize o.data o.processed dir o.p o.ty o.ntokens o.inputTokens o.minSize := by
    intro i m cmd hp
    unfold optimizations at hp
    cases e : opts[i]? with
    | none => rw [e] at hp; cases hp
    | some o =>
      rw [e] at hp
      have := Option.some.inj hp
      rw [Prod.mk.injEq] at this
      exact ⟨o, rfl, this.1.symm, this.2.symm⟩
  obtain ⟨h1, _⟩ := C126_apart (optimizations dir opts)
    (fun i path => ∃ o n, opts[i]? = some o ∧ n ≤ o.ntokens ∧ path = fileIn dir (tokenFile n o.p o.ty)) d
    (by
      intro i m cmd ws hp hr w hw
      obtain ⟨o, ho, rfl, rfl⟩ := inv hp
      have hmem := List.mem_of_getElem? ho
      obtain ⟨n, h1, h2⟩ := C58_running_names o.machine (hm o hmem) d o.data o.processed dir o.p o.ty o.ntokens
        o.inputTokens o.minSize (hg o hmem) ws hr w hw
      exact ⟨o, n, ho, h1, h2⟩)
    (by
      rintro i j path hne ⟨a, n, a1, _, rfl⟩ ⟨b, n', b1, _, e⟩
      obtain ⟨_, e1, e2⟩ := tokenFile_inj (fileIn_inj e)
      rcases hd i j a b hne a1 b1 with h | h
      · exact h e1
      · exact h e2)
    (by
      rintro i j m cmd path hne ⟨a, n, a1, _, rfl⟩ hp
      obtain ⟨b, hb, rfl, rfl⟩ := inv hp
      exact hread a (List.mem_of_getElem? a1) b (List.mem_of_getElem? hb) n (hd i j a b hne a1 hb)) s h
  obtain ⟨m, cmd, d', e1, e2, e3, e4, e5⟩ := h1 i j hj
  obtain ⟨o, ho, rfl, rfl⟩ := inv e1
  exact ⟨o, d', ho, e2, e3, e4, fun n hn => e5 _ ⟨o, n, ho, hn, rfl⟩⟩

/-- **C126** (every interleaving can be continued).  A run that has started can always do its next call, and one
that has not started can start, if it has an outcome alone. -/
theorem C126_goes_on (prog : Nat → Option (Machine × Command)) (W : Nat → Text → Prop) (d : Files)
    (hW : ∀ i m cmd ws, prog i = some (m, cmd) → Running m d cmd ws → ∀ w ∈ ws, W i w.1)
    (hww : ∀ i j path, i ≠ j → W i path → ¬ W j path)
    (hwr : ∀ i j m cmd path, i ≠ j → W i path → prog j = some (m, cmd) → ¬ Reads cmd path)
    (s : Together) (h : Together.Steps prog (Together.fresh d) s) (i : Nat) :
    (∀ j, s.job i = some j → j.todo ≠ [] → ∃ t j', Together.Step prog s t ∧ t.job i = some j' ∧
      j'.todo.length + 1 = j.todo.length) ∧
    (∀ m cmd r ws, s.job i = none → prog i = some (m, cmd) → Exec m d cmd (r, ws) →
      ∃ t j, Together.Step prog s t ∧ t.job i = some j ∧ j.result = some r ∧ j.writes = ws) := by
  have ha := apart_steps hW hww hwr apart_fresh h
  constructor
  · intro j hj hne
    cases ht : j.todo with
    | nil => exact absurd ht hne
    | cons c rest => exact ⟨_, _, .call i hj ht, if_pos rfl, by simp⟩
  · intro m cmd r ws hn hp he
    have hread : ∀ path, Reads cmd path → s.files.read path = d.read path := by
      intro path hr
      by_cases hw : ∃ k, W k path
      · obtain ⟨k, hk⟩ := hw
        by_cases e : k = i
        · subst e
          have := ha.files k path hk
          rw [hn] at this
          exact this
        · exact absurd hr (hwr k i m cmd path e hk hp)
      · exact ha.others path (fun k hk => hw ⟨k, hk⟩)
    have hc : ∃ calls, CallsFor ws calls := by
      clear he
      induction ws with
      | nil => exact ⟨_, .nil⟩
      | cons w ws ih =>
        obtain ⟨cs, hcs⟩ := ih
        exact ⟨_, .cons (path := w.1) [w.2] (by simp) hcs⟩
    obtain ⟨calls, hc⟩ := hc
    exact ⟨_, _, .start i hp hn (show Begins m s.files cmd (some r) ws from exec_reads hread ha.creatable he) hc,
      if_pos rfl, rfl, rfl⟩

/-! ### Examples -/

/-- Two optimizations of the same data, for type bytes and for type byteshuff. -/
def twoOptions : List OptimizeOptions :=
  [⟨aMachine, "data".toList, none, .raw, .bytes, 300, none, none⟩,
   ⟨{ aMachine with nthreads := 1 }, "data".toList, none, .raw, .bytesHuff, 280, none, none⟩]

theorem twoOptions_apart : (∀ o ∈ twoOptions, MachineOk o.machine) ∧
    (∀ o ∈ twoOptions, StartsGood someFiles o.p o.ty o.ntokens o.inputTokens) ∧
    twoOptions.Pairwise (fun a b => a.p ≠ b.p ∨ a.ty ≠ b.ty) ∧
    (∀ a ∈ twoOptions, ∀ b ∈ twoOptions, ∀ n, (a.p ≠ b.p ∨ a.ty ≠ b.ty) →
      ¬ Reads (.optimize b.data b.processed "dir".toList b.p b.ty b.ntokens b.inputTokens b.minSize)
        (fileIn "dir".toList (tokenFile n a.p a.ty))) := by
  refine ⟨?_, ?_, ?_, ?_⟩
  · intro o ho
    simp only [twoOptions, List.mem_cons, List.not_mem_nil, or_false] at ho
    rcases ho with rfl | rfl
    · exact aMachine_ok
    · exact ⟨by decide⟩
  · intro o ho
    simp only [twoOptions, List.mem_cons, List.not_mem_nil, or_false] at ho
    rcases ho with rfl | rfl
    · show 256 ≤ 300; decide
    · show 3 ≤ 280; decide
  · simp [twoOptions]
  · intro a ha b hb n _ hr
    have e : fileIn "dir".toList (tokenFile n a.p a.ty) = ['d', 'i', 'r'] ++ ['/'] ++ tokenFile n a.p a.ty := rfl
    have hb' : b.data = ['d', 'a', 't', 'a'] ∧ b.processed = none ∧ b.inputTokens = none := by
      simp only [twoOptions, List.mem_cons, List.not_mem_nil, or_false] at hb
      rcases hb with rfl | rfl <;> exact ⟨rfl, rfl, rfl⟩
    obtain ⟨h1, h2, h3⟩ := hb'
    rcases hr with hr | hr | hr
    · rw [e, h1] at hr
      simp at hr
    · rw [h2] at hr; cases hr
    · rw [h3] at hr; cases hr

-- both have been started, and the first has created its first file
example : ∃ s j0 j1, Together.Steps (optimizations "dir".toList twoOptions) (Together.fresh someFiles) s ∧
    s.job 0 = some j0 ∧ s.job 1 = some j1 ∧ j0.result = some (.ok ()) ∧ j1.result = some (.ok ()) ∧
    j0.done.length = 1 := by
  -- each has an outcome alone
  have one : ∀ o ∈ twoOptions, ∃ ws, ws ≠ [] ∧ Exec o.machine someFiles
      (.optimize o.data o.processed "dir".toList o.p o.ty o.ntokens o.inputTokens o.minSize) (.ok (), ws) := by
    intro o ho
    have hm := twoOptions_apart.1 o ho
    have hg := twoOptions_apart.2.1 o ho
    have hall : o.data = "data".toList ∧ o.processed = none ∧ o.inputTokens = none ∧ o.p = .raw ∧ o.minSize = none := by
      simp only [twoOptions, List.mem_cons, List.not_mem_nil, or_false] at ho
      rcases ho with rfl | rfl <;> exact ⟨rfl, rfl, rfl, rfl, rfl⟩
    obtain ⟨h1, h2, h3, h4, h5⟩ := hall
    rw [h3, h4] at hg
    rw [h1, h2, h3, h4, h5]
    obtain ⟨⟨⟨r, ws⟩, he⟩, hall⟩ := C59_optimize_succeeds o.machine hm someFiles "data".toList none "dir".toList .raw
      o.ty o.ntokens none hg [97, 98, 10] [97, 98, 10] (.raw rfl) (fun f hf => by cases hf) (by decide)
      (fun _ _ => rfl)
    have : r = .ok () := hall _ he
    subst this
    refine ⟨ws, ?_, he⟩
    rintro rfl
    generalize ho : ((.ok (), []) : R Unit × List (Text × Bytes)) = o' at he
    cases he with
    | optimizeOpen h => rw [Prod.mk.injEq] at ho; cases ho.1
    | optimizePrepare hr hp hi h => rw [Prod.mk.injEq] at ho; cases ho.1
    | optimizeFail hr hp hi hd ht ho' h => cases (attempt_ok ho.symm).2.1
    | optimize hr hp hi hd ht ho' h =>
      have := (attempt_ok ho.symm).1
      simp [inDir] at this
  obtain ⟨ws0, n0, e0⟩ := one _ (by unfold twoOptions; exact List.mem_cons_self)
  obtain ⟨ws1, n1, e1⟩ := one _ (by unfold twoOptions; exact List.mem_cons_of_mem _ List.mem_cons_self)
  have calls : ∀ (ws : List (Text × Bytes)), ∃ cs, CallsFor ws cs := by
    intro ws
    induction ws with
    | nil => exact ⟨_, .nil⟩
    | cons w ws ih =>
      obtain ⟨cs, hcs⟩ := ih
      exact ⟨_, .cons (path := w.1) [w.2] (by simp) hcs⟩
  obtain ⟨c1, hc1⟩ := calls ws1
  obtain ⟨c, rest, hc0⟩ : ∃ c rest, CallsFor ws0 (c :: rest) := by
    cases ws0 with
    | nil => exact absurd rfl n0
    | cons w ws =>
      obtain ⟨cs, hcs⟩ := calls ws
      exact ⟨_, _, .cons (path := w.1) [w.2] (by simp) hcs⟩
  have s0 : Together.Steps (optimizations "dir".toList twoOptions) (Together.fresh someFiles) _ := .refl
  have s1 := s0.tail (.start 0 (result := some (.ok ())) rfl rfl e0 hc0)
  have s2 := s1.tail (.start 1 (result := some (.ok ())) rfl rfl e1 hc1)
  have s3 := s2.tail (.call 0 (j := ⟨some (.ok ()), ws0, [], c :: rest⟩) rfl rfl)
  exact ⟨_, _, _, s3, rfl, rfl, rfl, rfl, rfl⟩

end Tokens.Props
