import Verif.Proofs.Beginnings

/-!
# Property C131: a run that is stopped is the beginning of a complete one

Read together with `Verif/Spec/Disk.lean`.  `Exec m d cmd (r, ws)`: the command may end with the result
`r`, having written the files `ws` in this order.  `Running m d cmd ws`: at some moment the command may
have written `ws`.  `Stopped ws d d'`: `d'` may be left if the writing of `ws` is stopped anywhere, also
in the middle of a file.
-/

namespace Tokens.Props
open Tokens Spec TokenSet Optimize Batch Main Input Disk

/-- **C131**.  What an optimize command with good input, and with a minimum size that is not zero, may have
written at any moment, are exactly the beginnings of what it may write when it is left alone to its end:
at no moment is it on a way that has no end, and it passes every point on the way to any of its ends. -/
theorem C131_beginnings (m : Machine) (hm : MachineOk m) (d : Files) (data : Text) (processed : Option Text)
    (dir : Text) (p : Processing) (ty : TokenType) (ntokens : Nat) (inputTokens : Option Text)
    (minSize : Option Nat) (hg : StartsGood d p ty ntokens inputTokens) (h0 : minSize ≠ some 0)
    (ws : List (Text × Bytes)) :
    Running m d (.optimize data processed dir p ty ntokens inputTokens minSize) ws ↔
      ∃ r ws', Exec m d (.optimize data processed dir p ty ntokens inputTokens minSize) (r, ws') ∧
        ws <+: ws' := by
  constructor
  · intro h
    have finish : ∀ {raw file v bytes ts saved r}, openFile d data = .ok raw →
        openProcessed d processed p = .ok file → openInput d inputTokens = .ok v →
        maybeProcessFile m raw file p = .ok bytes → readInput v = .ok ts →
        Optimized m bytes ntokens p ty raw.length ts minSize r saved →
        ∃ r' ws', Exec m d (.optimize data processed dir p ty ntokens inputTokens minSize) (r', ws') ∧
          (inDir dir saved).takeWhile (fun w => d.creatable w.1) <+: ws' := by
      intro raw file v bytes ts saved r g1 g2 g3 g4 g5 g6
      have done : ∀ {ws2 : List (Text × Text)} {r2 : R Unit}, saved <+: ws2 →
          Exec m d (.optimize data processed dir p ty ntokens inputTokens minSize)
            (attempt d (inDir dir ws2) r2) →
          ∃ r' ws', Exec m d (.optimize data processed dir p ty ntokens inputTokens minSize) (r', ws') ∧
            (inDir dir saved).takeWhile (fun w => d.creatable w.1) <+: ws' := by
        intro ws2 r2 k1 k2
        refine ⟨(attempt d (inDir dir ws2) r2).1, (attempt d (inDir dir ws2) r2).2, k2, ?_⟩
        rw [attempt_snd]
        exact takeWhile_mono (inDir_prefix k1)
      cases r with
      | error e => exact done (List.prefix_refl _) (.optimizeFail g1 g2 g3 g4 g5 g6 rfl)
      | ok st =>
        cases hf : statsFile m st with
        | error e => exact done (List.prefix_refl _) (.optimizeFail g1 g2 g3 g4 g5 g6 hf)
        | ok f => exact done (List.prefix_append _ _) (.optimize g1 g2 g3 g4 g5 g6 hf)
    cases h with
    | ended h => exact ⟨_, _, h, List.prefix_refl _⟩
    | @optimize _ _ _ _ _ _ _ _ raw file v bytes ts saved hr hp hi hd ht ho =>
      obtain ⟨r, saved', k1, k2⟩ := partOptimized_complete hm (starts_input hg hi ht) h0 ho
      obtain ⟨r', ws', k3, k4⟩ := finish hr hp hi hd ht k1
      refine ⟨r', ws', k3, ?_⟩
      rw [attempt_snd]
      exact (takeWhile_mono (inDir_prefix k2)).trans k4
    | nothing =>
      have opening : ∀ e, (openFile d data = .error e ∨ openProcessed d processed p = .error e ∨
          openInput d inputTokens = .error e) → ∃ r ws',
          Exec m d (.optimize data processed dir p ty ntokens inputTokens minSize) (r, ws') ∧ [] <+: ws' :=
        fun e h => ⟨_, _, .optimizeOpen h, List.prefix_refl _⟩
      cases hr : openFile d data with
      | error e => exact opening e (.inl hr)
      | ok raw =>
        cases hp : openProcessed d processed p with
        | error e => exact opening e (.inr (.inl hp))
        | ok file =>
          cases hi : openInput d inputTokens with
          | error e => exact opening e (.inr (.inr hi))
          | ok v =>
            cases hd : maybeProcessFile m raw file p with
            | error e => exact ⟨_, _, .optimizePrepare hr hp hi (.inl hd), List.prefix_refl _⟩
            | ok bytes =>
              cases ht : readInput v with
              | error e => exact ⟨_, _, .optimizePrepare hr hp hi (.inr ht), List.prefix_refl _⟩
              | ok ts =>
                obtain ⟨r, saved, k⟩ := optimized_total (file := bytes) hm raw.length (starts_input hg hi ht) minSize h0
                obtain ⟨r', ws', k3, k4⟩ := finish hr hp hi hd ht k
                exact ⟨r', ws', k3, List.nil_prefix⟩
  · rintro ⟨r, ws', h, hl⟩
    have part : ∀ {raw file v bytes ts saved r}, openFile d data = .ok raw →
        openProcessed d processed p = .ok file → openInput d inputTokens = .ok v →
        maybeProcessFile m raw file p = .ok bytes → readInput v = .ok ts →
        Optimized m bytes ntokens p ty raw.length ts minSize r saved →
        ws <+: (inDir dir saved).takeWhile (fun w => d.creatable w.1) →
        Running m d (.optimize data processed dir p ty ntokens inputTokens minSize) ws := by
      intro raw file v bytes ts saved r g1 g2 g3 g4 g5 g6 g7
      have hself := takeWhile_prefix_self g7
      have h1 : ws <+: inDir dir saved := g7.trans (List.takeWhile_prefix _)
      have h2 : ws = inDir dir (saved.take ws.length) := by
        conv_lhs => rw [List.prefix_iff_eq_take.1 h1]
        exact (List.map_take ..).symm
      rcases optimized_part g6 (saved.take ws.length) (List.take_prefix _ _) with e | h3
      · rw [e] at h2
        subst h2
        exact .nothing
      · have h4 := Running.optimize (d := d) (data := data) (processed := processed) (tokensDir := dir)
          (inputTokens := inputTokens) g1 g2 g3 g4 g5 h3
        rw [attempt_snd, ← h2, hself] at h4
        exact h4
    generalize hc : Command.optimize data processed dir p ty ntokens inputTokens minSize = cmd at h
    generalize ho : (r, ws') = o at h
    have nothing : ws' = [] → Running m d cmd ws := by
      rintro rfl
      obtain rfl := List.prefix_nil.1 hl
      exact .nothing
    cases h with
    | optimizeOpen => exact nothing (congrArg Prod.snd ho)
    | optimizePrepare => exact nothing (congrArg Prod.snd ho)
    | optimizeFail hr hp hi hd ht ho' h =>
      cases hc
      have e := congrArg Prod.snd ho
      rw [attempt_snd] at e
      subst e
      exact part hr hp hi hd ht ho' hl
    | @optimize _ _ _ _ _ _ _ _ raw file v bytes ts st saved f hr hp hi hd ht ho' h =>
      cases hc
      have hex := Exec.optimize (tokensDir := dir) (data := data) (processed := processed)
        (inputTokens := inputTokens) (d := d) hr hp hi hd ht ho' h
      rw [← ho] at hex
      have e := congrArg Prod.snd ho
      rw [attempt_snd] at e
      subst e
      have h1 : (inDir dir saved).takeWhile (fun w => d.creatable w.1) <+:
          (inDir dir (saved ++ [f])).takeWhile (fun w => d.creatable w.1) :=
        takeWhile_mono (inDir_prefix (List.prefix_append _ _))
      rcases List.prefix_or_prefix_of_prefix hl h1 with h2 | h2
      · exact part hr hp hi hd ht ho' h2
      · -- at most one file more
        have h3 : (inDir dir (saved ++ [f])).takeWhile (fun w => d.creatable w.1) <+:
            (inDir dir saved).takeWhile (fun w => d.creatable w.1) ++ inDir dir [f] := by
          have e : inDir dir (saved ++ [f]) = inDir dir saved ++ inDir dir [f] := List.map_append
          rw [e, List.takeWhile_append]
          split
          · rename_i hall
            have := (List.takeWhile_prefix (p := fun w : Text × Bytes => d.creatable w.1) (l := inDir dir saved)).eq_of_length hall
            rw [this]
            exact (List.prefix_append_right_inj _).2 (List.takeWhile_prefix _)
          · exact List.prefix_append _ _
        have h4 := hl.trans h3
        rcases List.prefix_concat_iff.1 h4 with h5 | h5
        · have : ws = (inDir dir (saved ++ [f])).takeWhile (fun w => d.creatable w.1) := by
            refine hl.eq_of_length (Nat.le_antisymm hl.length_le ?_)
            rw [h5]
            exact h3.length_le
          subst this
          exact .ended hex
        · exact part hr hp hi hd ht ho' h5
    | processOpen => cases hc
    | process => cases hc
    | processPanic => cases hc
    | countChars => cases hc
    | convertOpen => cases hc
    | convertFail => cases hc
    | convert => cases hc

theorem stopped_mono {ws ws' : List (Text × Bytes)} {d d' : Files} (h : Stopped ws d d') (hp : ws <+: ws') :
    Stopped ws' d d' := by
  obtain ⟨l, rfl⟩ := hp
  induction h with
  | before => exact .before
  | during h => exact .during h
  | after _ ih => exact .after ih

/-- **C131** (the files).  The files that such a command may leave if it is killed at any moment are exactly
those that are left if an execution that would have come to its end is stopped while it writes. -/
theorem C131_killed (m : Machine) (hm : MachineOk m) (d : Files) (data : Text) (processed : Option Text)
    (dir : Text) (p : Processing) (ty : TokenType) (ntokens : Nat) (inputTokens : Option Text)
    (minSize : Option Nat) (hg : StartsGood d p ty ntokens inputTokens) (h0 : minSize ≠ some 0) (d' : Files) :
    (∃ ws, Running m d (.optimize data processed dir p ty ntokens inputTokens minSize) ws ∧ Stopped ws d d') ↔
      ∃ r ws, Exec m d (.optimize data processed dir p ty ntokens inputTokens minSize) (r, ws) ∧
        Stopped ws d d' := by
  constructor
  · rintro ⟨ws, h1, h2⟩
    obtain ⟨r, ws', h3, h4⟩ :=
      (C131_beginnings m hm d data processed dir p ty ntokens inputTokens minSize hg h0 ws).1 h1
    exact ⟨r, ws', h3, stopped_mono h2 h4⟩
  · rintro ⟨r, ws, h1, h2⟩
    exact ⟨ws, .ended h1, h2⟩

/-- **C131** (other commands).  The other commands write one file at most: at any moment they have written
nothing, or all that they write. -/
theorem C131_one_file (m : Machine) (d : Files) (cmd : Command)
    (hc : ∀ data processed dir p ty ntokens inputTokens minSize,
      cmd ≠ .optimize data processed dir p ty ntokens inputTokens minSize)
    (ws : List (Text × Bytes)) :
    (Running m d cmd ws ↔ ws = [] ∨ ∃ r, Exec m d cmd (r, ws)) ∧
      ∀ r, Exec m d cmd (r, ws) → ws.length ≤ 1 := by
  have one : ∀ (w : Text × Bytes) (r : R Unit), (attempt d [w] r).2.length ≤ 1 := by
    intro w r
    rw [attempt_snd]
    exact (List.takeWhile_prefix _).length_le
  refine ⟨⟨fun h => ?_, ?_⟩, fun r h => ?_⟩
  · cases h with
    | nothing => exact .inl rfl
    | optimize => exact (hc _ _ _ _ _ _ _ _ rfl).elim
    | ended h => exact .inr ⟨_, h⟩
  · rintro (rfl | ⟨r, h⟩)
    · exact .nothing
    · exact .ended h
  · generalize ho : (r, ws) = o at h
    have e : ws = o.2 := congrArg Prod.snd ho
    subst e
    cases h with
    | processOpen => exact Nat.zero_le _
    | process => exact one _ _
    | processPanic => exact one _ _
    | countChars => exact Nat.zero_le _
    | convertOpen => exact Nat.zero_le _
    | convertFail => exact Nat.zero_le _
    | convert => exact one _ _
    | optimizeOpen => exact (hc _ _ _ _ _ _ _ _ rfl).elim
    | optimizePrepare => exact (hc _ _ _ _ _ _ _ _ rfl).elim
    | optimizeFail => exact (hc _ _ _ _ _ _ _ _ rfl).elim
    | optimize => exact (hc _ _ _ _ _ _ _ _ rfl).elim

/-! ## Examples -/

-- the hypotheses are met, and there is a moment when a file has been written
example : ∃ ws, ws ≠ [] ∧ StartsGood someFiles .raw .bytes 300 none ∧
    Running aMachine someFiles (.optimize "data".toList none "dir".toList .raw .bytes 300 none none) ws := by
  have hg := someFiles_start .raw .bytes 300 (by show 256 ≤ 300; decide)
  obtain ⟨⟨o, ho⟩, hall⟩ := C59_optimize_succeeds aMachine aMachine_ok someFiles "data".toList none
    "dir".toList .raw .bytes 300 none hg [97, 98, 10] [97, 98, 10] (.raw rfl) (fun _ h => by cases h)
    (by decide) (fun _ _ => rfl)
  have h := hall o ho
  obtain ⟨r, ws⟩ := o
  have h' : r = .ok () := h
  subst h'
  obtain ⟨ts, b, h1, h2, _, h3⟩ := C59_result_on_disk aMachine aMachine_ok (fun _ _ => .inl rfl) someFiles
    "data".toList none "dir".toList .raw .bytes 300 none none hg
    (someFiles_small _ _ _ (by decide) _) ws ho
  refine ⟨ws, ?_, hg, (C131_beginnings aMachine aMachine_ok _ _ _ _ _ _ _ _ _ hg (by simp) ws).2
    ⟨_, ws, ho, List.prefix_refl _⟩⟩
  rintro rfl
  have hne : fileIn "dir".toList (tokenFile ts.tokens.length .raw .bytes) ≠ "data".toList := by
    intro e
    exact absurd (congrArg (fun l : Text => l[1]?) e) (by
      show ¬ ((some 'i' : Option Char) = some 'a')
      decide)
  have h2 : (if fileIn "dir".toList (tokenFile ts.tokens.length .raw .bytes) = "data".toList then
      some [97, 98, 10] else none) = some b := h2
  rw [if_neg hne] at h2
  cases h2

-- the hypothesis on the minimum size is needed: with 0 the command starts, and has no end (C40)
example : Running aMachine someFiles (.optimize "data".toList none "dir".toList .raw .bits4 20 none (some 0)) [] ∧
    ¬ ∃ r ws, Exec aMachine someFiles
      (.optimize "data".toList none "dir".toList .raw .bits4 20 none (some 0)) (r, ws) := by
  refine ⟨.nothing, ?_⟩
  rintro ⟨r, ws, h⟩
  have hno : ∀ r saved, ¬ Optimized aMachine [97, 98, 10] 20 .raw .bits4 3 none (some 0) r saved := by
    intro r saved h
    cases h with
    | increasing h =>
      refine C40_violated_zero aMachine aMachine_ok [97, 98, 10] (by simp) 20 .raw .bits4 (some 3) none
        (by show 16 ≤ 20 ∧ 20 ≤ 16 + 256; decide) (fun short => ?_) _ _ h
      obtain ⟨_, s, h, _⟩ := C25_ascii_exact_partial [97, 98, 10] (by decide) (2 ^ 24) (by decide) short
      exact ⟨_, h⟩
  have hb : openFile someFiles "data".toList = .ok [97, 98, 10] := rfl
  have same : ∀ {raw file v bytes ts} (hr : openFile someFiles "data".toList = .ok raw)
      (hp : openProcessed someFiles none .raw = .ok file) (hi : openInput someFiles none = .ok v)
      (hd : maybeProcessFile aMachine raw file .raw = .ok bytes) (ht : readInput v = .ok ts),
      raw = [97, 98, 10] ∧ bytes = [97, 98, 10] ∧ ts = none := by
    intro raw file v bytes ts hr hp hi hd ht
    have e1 := Except.ok.inj (hb.symm.trans hr)
    have e3 : (none : Option Json) = v := Except.ok.inj hi
    subst e1 e3
    exact ⟨rfl, (Except.ok.inj hd).symm, (Except.ok.inj ht).symm⟩
  generalize ho : (r, ws) = o at h
  cases h with
  | optimizeOpen h =>
    rcases h with h | h | h
    · rw [hb] at h; cases h
    · cases h
    · cases h
  | optimizePrepare hr hp hi h =>
    have e3 : (none : Option Json) = _ := Except.ok.inj hi
    subst e3
    rcases h with h | h
    · cases h
    · cases h
  | optimizeFail hr hp hi hd ht ho' h =>
    obtain ⟨rfl, rfl, rfl⟩ := same hr hp hi hd ht
    exact hno _ _ ho'
  | optimize hr hp hi hd ht ho' h =>
    obtain ⟨rfl, rfl, rfl⟩ := same hr hp hi hd ht
    exact hno _ _ ho'

end Tokens.Props
