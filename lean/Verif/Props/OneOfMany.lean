import Verif.Proofs.OneOfMany
import Verif.Props.Resume

/-!
# Property C129: one run among others, and reading its files while it works

Read together with `Verif/Spec/Together.lean`, `Verif/Spec/Disk.lean` and C126.  `Together.Steps prog` are the
histories of any number of runs of the program on the same files.
-/

namespace Tokens.Props
open Tokens Spec TokenSet Optimize Batch Main Input Disk

set_option linter.unusedVariables false

/-- **C129**.  Consider one run, the `i`-th; let `W` be files that its command alone, on the files `d`, writes at most,
and let no other command be meant to write one of these, or a file that this command reads.  The others may read the
files of this run, and may get in the way of each other as much as they like.  Then at every moment this run is as if it
were alone: it has an outcome that it has alone on `d`, and its files are what it, alone, leaves at some moment (all it
writes, if it has done all its calls). -/
theorem C129_alone (prog : Nat → Option (Machine × Command)) (i : Nat) (m : Machine) (cmd : Command)
    (hp : prog i = some (m, cmd)) (W : Text → Prop) (d : Files)
    (hW : ∀ ws, Running m d cmd ws → ∀ w ∈ ws, W w.1)
    (ho : ∀ k m' cmd' path, k ≠ i → prog k = some (m', cmd') → MayWrite cmd' path → ¬ W path ∧ ¬ Reads cmd path)
    (s : Together) (h : Together.Steps prog (Together.fresh d) s) :
    (∀ j, s.job i = some j → ∃ d', Begins m d cmd j.result j.writes ∧ Stopped j.writes d d' ∧
      (j.todo = [] → d' = writeAll d j.writes) ∧ ∀ path, W path → s.files.read path = d'.read path) ∧
    (s.job i = none → ∀ path, W path ∨ Reads cmd path → s.files.read path = d.read path) := by
  have ha := alone_steps hp hW ho alone_fresh h
  constructor
  · intro j hj
    obtain ⟨b1, b2, b3⟩ := ha.mine j hj
    refine ⟨applyCalls d j.done, b1, callsFor_some b2 d _ _ rfl, ?_, ?_⟩
    · intro ht
      rw [ht, List.append_nil] at b2
      exact callsFor_all b2 d
    · intro path hw
      have := ha.files path hw
      rw [hj] at this
      exact this
  · intro hn path hw
    rcases hw with hw | hw
    · have := ha.files path hw
      rw [hn] at this
      exact this
    · exact ha.reads hn path hw

/-- **C129** (looking at the files of an optimization).  While an optimization works that starts from nothing, or from a
set that the optimizer can work on, and the other runs neither write its files nor what it reads: at any moment each of
its files is as before the optimization, or reading it is an error, or it is the complete file of a valid set of the
requested type, processing and size. -/
theorem C129_seen (prog : Nat → Option (Machine × Command)) (i : Nat) (m : Machine) (hm : MachineOk m)
    (hr : RatioText m.ratio) (d : Files) (data : Text) (processed : Option Text) (dir : Text) (p : Processing)
    (ty : TokenType) (ntokens : Nat) (inputTokens : Option Text) (minSize : Option Nat)
    (hp : prog i = some (m, .optimize data processed dir p ty ntokens inputTokens minSize))
    (hg : StartsGood d p ty ntokens inputTokens)
    (hsmall : SmallEnough m d (.optimize data processed dir p ty ntokens inputTokens minSize))
    (ho : ∀ k m' cmd' path, k ≠ i → prog k = some (m', cmd') → MayWrite cmd' path →
      (∀ n ≤ ntokens, path ≠ fileIn dir (tokenFile n p ty)) ∧
      ¬ Reads (.optimize data processed dir p ty ntokens inputTokens minSize) path)
    (s : Together) (h : Together.Steps prog (Together.fresh d) s) (n : Nat) (hn : n ≤ ntokens) :
    AfterCrash d s.files (fileIn dir (tokenFile n p ty)) (ValidSet ty p ntokens) := by
  obtain ⟨h1, h2⟩ := C129_alone prog i m _ hp (fun path => ∃ n ≤ ntokens, path = fileIn dir (tokenFile n p ty)) d
    (fun ws hw => C58_running_names m hm d data processed dir p ty ntokens inputTokens minSize hg ws hw)
    (fun k m' cmd' path hk hp' hw => by
      obtain ⟨g1, g2⟩ := ho k m' cmd' path hk hp' hw
      exact ⟨fun ⟨n, hn, e⟩ => g1 n hn e, g2⟩) s h
  cases hj : s.job i with
  | none => exact .same (h2 hj _ (.inl ⟨n, hn, rfl⟩))
  | some j =>
    obtain ⟨d', g1, g2, _, g4⟩ := h1 j hj
    have e := g4 _ ⟨n, hn, rfl⟩
    cases C57_running_killed m hm hr d data processed dir p ty ntokens inputTokens minSize hg hsmall j.writes
        (begins_running g1) d' g2 (fileIn dir (tokenFile n p ty)) with
    | same h => exact .same (e.trans h)
    | torn h hr => exact .torn (e.trans h) hr
    | saved h hf hg => exact .saved (e.trans h) hf hg

/-- **C129** (convert while it works).  A convert that starts at this moment, on one of these files, either does not
succeed, or it reads a complete set: the one that was in the file before the optimization, or a valid one that the
optimization has written. -/
theorem C129_convert (prog : Nat → Option (Machine × Command)) (i : Nat) (m : Machine) (hm : MachineOk m)
    (hr : RatioText m.ratio) (d : Files) (data : Text) (processed : Option Text) (dir : Text) (p : Processing)
    (ty : TokenType) (ntokens : Nat) (inputTokens : Option Text) (minSize : Option Nat)
    (hp : prog i = some (m, .optimize data processed dir p ty ntokens inputTokens minSize))
    (hg : StartsGood d p ty ntokens inputTokens)
    (hsmall : SmallEnough m d (.optimize data processed dir p ty ntokens inputTokens minSize))
    (ho : ∀ k m' cmd' path, k ≠ i → prog k = some (m', cmd') → MayWrite cmd' path →
      (∀ n ≤ ntokens, path ≠ fileIn dir (tokenFile n p ty)) ∧
      ¬ Reads (.optimize data processed dir p ty ntokens inputTokens minSize) path)
    (s : Together) (h : Together.Steps prog (Together.fresh d) s) (n : Nat) (hn : n ≤ ntokens)
    (m' : Machine) (data' : Text) (processed' : Option Text) (dir' : Text) (ws : List (Text × Bytes))
    (hc : Exec m' s.files (.convert data' processed' (fileIn dir (tokenFile n p ty)) dir') (.ok (), ws)) :
    ∃ b ts, s.files.read (fileIn dir (tokenFile n p ty)) = some b ∧ readTokenSet b = .ok ts ∧
      (d.read (fileIn dir (tokenFile n p ty)) = some b ∨
        ∃ full, ValidSet ty p ntokens full ∧ FileOf full b) := by
  have hs := C129_seen prog i m hm hr d data processed dir p ty ntokens inputTokens minSize hp hg hsmall ho s h n hn
  generalize hq : ((.ok () : R Unit), ws) = o at hc
  have hread : ∃ b ts, s.files.read (fileIn dir (tokenFile n p ty)) = some b ∧ readTokenSet b = .ok ts := by
    cases hc with
    | convertOpen h => cases hq
    | convertFail hv hr hp h => cases hq
    | @convert _ _ _ _ v raw file f hv hr' hp' hcc =>
      generalize hz : (Except.ok f : R (Text × Text)) = z at hcc
      cases hcc with
      | load => cases hz
      | process => cases hz
      | tokenize => cases hz
      | write h1 h2 h3 =>
        obtain ⟨b, g1, g2⟩ := readJson_set hv h1
        exact ⟨b, _, g1, g2⟩
  obtain ⟨b, ts, g1, g2⟩ := hread
  refine ⟨b, ts, g1, g2, ?_⟩
  cases hs with
  | same h => exact .inl (h.symm.trans g1)
  | torn h hr =>
    have := Option.some.inj (h.symm.trans g1)
    subst this
    rw [g2] at hr; cases hr
  | saved h hf hv =>
    have := Option.some.inj (h.symm.trans g1)
    subst this
    exact .inr ⟨_, hv, hf⟩

/-- **C129** (optimize further while it works).  For type bytes or byteshuff, an optimization that starts at this moment
from such a file, for the same number of tokens or more, starts from a set that the optimizer can work on (unless
reading the file is an error), if this was so before. -/
theorem C129_optimize (prog : Nat → Option (Machine × Command)) (i : Nat) (m : Machine) (hm : MachineOk m)
    (hr : RatioText m.ratio) (d : Files) (data : Text) (processed : Option Text) (dir : Text) (p : Processing)
    (ty : TokenType) (hty : ty = .bytes ∨ ty = .bytesHuff) (ntokens : Nat) (inputTokens : Option Text)
    (minSize : Option Nat)
    (hp : prog i = some (m, .optimize data processed dir p ty ntokens inputTokens minSize))
    (hg : StartsGood d p ty ntokens inputTokens)
    (hsmall : SmallEnough m d (.optimize data processed dir p ty ntokens inputTokens minSize))
    (ho : ∀ k m' cmd' path, k ≠ i → prog k = some (m', cmd') → MayWrite cmd' path →
      (∀ n ≤ ntokens, path ≠ fileIn dir (tokenFile n p ty)) ∧
      ¬ Reads (.optimize data processed dir p ty ntokens inputTokens minSize) path)
    (s : Together) (h : Together.Steps prog (Together.fresh d) s) (n : Nat) (hn : n ≤ ntokens) (n' : Nat)
    (hn' : ntokens ≤ n') (hbefore : StartsGood d p ty n' (some (fileIn dir (tokenFile n p ty)))) :
    StartsGood s.files p ty n' (some (fileIn dir (tokenFile n p ty))) := by
  by_cases hsame : s.files.read (fileIn dir (tokenFile n p ty)) = d.read (fileIn dir (tokenFile n p ty))
  · intro b ts hb hts
    exact hbefore b ts (hsame.symm.trans hb) hts
  obtain ⟨h1, h2⟩ := C129_alone prog i m _ hp (fun path => ∃ n ≤ ntokens, path = fileIn dir (tokenFile n p ty)) d
    (fun ws hw => C58_running_names m hm d data processed dir p ty ntokens inputTokens minSize hg ws hw)
    (fun k m' cmd' path hk hp' hw => by
      obtain ⟨g1, g2⟩ := ho k m' cmd' path hk hp' hw
      exact ⟨fun ⟨n, hn, e⟩ => g1 n hn e, g2⟩) s h
  cases hj : s.job i with
  | none => exact absurd (h2 hj _ (.inl ⟨n, hn, rfl⟩)) hsame
  | some j =>
    obtain ⟨d', g1, g2, _, g4⟩ := h1 j hj
    have e := g4 _ ⟨n, hn, rfl⟩
    have := C123_left_usable m hm hr d data processed dir p ty hty ntokens inputTokens minSize hg hsmall j.writes
      (begins_running g1) d' g2 (fileIn dir (tokenFile n p ty)) (fun h => hsame (e.trans h)) n' hn'
    intro b ts hb hts
    exact this b ts (e.symm.trans hb) hts

/-! ### Examples -/

/-- An optimization, and converts into another directory of what it writes. -/
def watched (i : Nat) : Option (Machine × Command) :=
  if i = 0 then some (aMachine, .optimize "data".toList none "dir".toList .raw .bytes 300 none none) else
  some (aMachine, .convert "data".toList none (fileIn "dir".toList (tokenFile (256 + i) .raw .bytes)) "out".toList)

-- the hypotheses are met, and the optimization can be started and create its first file
example : MachineOk aMachine ∧ RatioText aMachine.ratio ∧ StartsGood someFiles .raw .bytes 300 none ∧
    SmallEnough aMachine someFiles (.optimize "data".toList none "dir".toList .raw .bytes 300 none none) ∧
    (∀ k m' cmd' path, k ≠ 0 → watched k = some (m', cmd') → MayWrite cmd' path →
      (∀ n ≤ 300, path ≠ fileIn "dir".toList (tokenFile n .raw .bytes)) ∧
      ¬ Reads (.optimize "data".toList none "dir".toList .raw .bytes 300 none none) path) ∧
    ∃ s j, Together.Steps watched (Together.fresh someFiles) s ∧ s.job 0 = some j ∧ j.done.length = 1 := by
  refine ⟨aMachine_ok, fun _ _ => .inl rfl, by show 256 ≤ 300; decide, ?_, ?_, ?_⟩
  · exact someFiles_small "dir".toList .bytes 300 (by decide) none
  · intro k m' cmd' path hk hp hw
    unfold watched at hp
    rw [if_neg hk] at hp
    have := Option.some.inj hp
    rw [Prod.mk.injEq] at this
    obtain ⟨_, rfl⟩ := this
    obtain ⟨n, p, ty, rfl⟩ := hw
    have e : ∀ n p ty, fileIn "out".toList (tokenFile n p ty) = ['o', 'u', 't'] ++ ['/'] ++ tokenFile n p ty :=
      fun _ _ _ => rfl
    have e' : ∀ n p ty, fileIn "dir".toList (tokenFile n p ty) = ['d', 'i', 'r'] ++ ['/'] ++ tokenFile n p ty :=
      fun _ _ _ => rfl
    refine ⟨?_, ?_⟩
    · intro n' _ h
      rw [e, e'] at h
      simp at h
    · rintro (h | h | h)
      · rw [e] at h
        have h' : ['o', 'u', 't'] ++ ['/'] ++ tokenFile n p ty = ['d', 'a', 't', 'a'] := h
        simp at h'
      · cases h
      · cases h
  · obtain ⟨⟨⟨r, ws⟩, he⟩, hall⟩ := C59_optimize_succeeds aMachine aMachine_ok someFiles "data".toList none "dir".toList
      .raw .bytes 300 none (by show 256 ≤ 300; decide) [97, 98, 10] [97, 98, 10] (.raw rfl) (fun f hf => by cases hf)
      (by decide) (fun _ _ => rfl)
    have : r = .ok () := hall _ he
    subst this
    have hne : ws ≠ [] := by
      rintro rfl
      generalize ho : ((.ok (), []) : R Unit × List (Text × Bytes)) = o' at he
      cases he with
      | optimizeOpen h => rw [Prod.mk.injEq] at ho; cases ho.1
      | optimizePrepare hr hp hi h => rw [Prod.mk.injEq] at ho; cases ho.1
      | optimizeFail hr hp hi hd ht ho' h => cases (attempt_ok ho.symm).2.1
      | optimize hr hp hi hd ht ho' h =>
        have := (attempt_ok ho.symm).1
        simp [inDir] at this
    obtain ⟨c, rest, hc⟩ : ∃ c rest, CallsFor ws (c :: rest) := by
      cases ws with
      | nil => exact absurd rfl hne
      | cons w ws =>
        obtain ⟨cs, hcs⟩ := calls_exist ws
        exact ⟨_, _, .cons (path := w.1) [w.2] (by simp) hcs⟩
    have s0 : Together.Steps watched (Together.fresh someFiles) _ := .refl
    have s1 := s0.tail (.start 0 (result := some (.ok ())) rfl rfl he hc)
    have s2 := s1.tail (.call 0 (j := ⟨some (.ok ()), ws, [], c :: rest⟩) rfl rfl)
    exact ⟨_, _, s2, rfl, rfl⟩

end Tokens.Props
