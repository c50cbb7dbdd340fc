import Verif.Proofs.Resume
import Verif.Props.Cuts

/-!
# Property C123: an interrupted optimization can be resumed

Read together with `Verif/Spec/Disk.lean`.  `Running m d cmd ws`: the command, started with the files `d`,
may have written `ws` so far; `Stopped ws d d'`: killed at that moment, perhaps in the middle of a write,
it leaves the files `d'`; `Exec m d cmd (r, ws)`: the command may end with result `r`, having written `ws`.
-/

namespace Tokens.Props
open Tokens Spec TokenSet Batch Input Main Optimize Disk

set_option linter.unusedVariables false

/-- **C123** (what is left can be used).  An optimize command for type bytes or byteshuff, from nothing or
from a set that the optimizer can work on, is killed at any moment.  If a file that it changed can be read
as a token set, the optimizer can be started with this set, for the same number of tokens or more. -/
theorem C123_left_usable (m : Machine) (hm : MachineOk m) (hr : RatioText m.ratio) (d : Files)
    (data : Text) (processed : Option Text) (dir : Text) (p : Processing) (ty : TokenType)
    (hty : ty = .bytes ∨ ty = .bytesHuff) (ntokens : Nat) (inputTokens : Option Text) (minSize : Option Nat)
    (hg : StartsGood d p ty ntokens inputTokens)
    (hsmall : SmallEnough m d (.optimize data processed dir p ty ntokens inputTokens minSize))
    (ws : List (Text × Bytes))
    (h : Running m d (.optimize data processed dir p ty ntokens inputTokens minSize) ws)
    (d' : Files) (hs : Stopped ws d d') (path : Text) (hnew : d'.read path ≠ d.read path)
    (n' : Nat) (hn : ntokens ≤ n') : StartsGood d' p ty n' (some path) := by
  intro b ts hb hts
  cases killed_again hm hr hg hsmall h hs path with
  | same h => exact absurd h hnew
  | torn h h1 =>
    have := Option.some.inj (h.symm.trans hb)
    subst this
    rw [h1] at hts; cases hts
  | @saved b' ts' h hf hag =>
    have := Option.some.inj (h.symm.trans hb)
    subst this
    obtain ⟨v, v1, v2⟩ := hf
    obtain ⟨g1, g2⟩ := C48_reuse_partial m ty p ntokens n' hn ts' hag.work hag.valid.sorted hty v (.inl v1)
    rw [v2] at hts
    simp only [readInput, hts, R.ok_bind] at g1
    have := Option.some.inj (Except.ok.inj g1)
    rw [this]
    exact g2

/-- What a resumed run is worth: the set of the last file has no fewer tokens than the one it started
with, and needs no more tokens for the samples of the data. -/
structure Resumed (m : Machine) (d : Files) (dir : Text) (p : Processing) (ty : TokenType) (n : Nat)
    (start : TokenSet) (raw bytes : Bytes) (ws : List (Text × Bytes)) : Prop where
  result : ∃ (st : TokenStats) (sd : SamplerData) (b : Bytes),
    memorySampler ⟨bytes, 2 ^ 20⟩ = .ok sd ∧
    (writeAll d ws).read (fileIn dir (tokenFile st.tokenSet.tokens.length p ty)) = some b ∧
    readTokenSet b = .ok { st.tokenSet with splitParagraphs := false } ∧
    (∃ full, tokenizeFileSync st.tokenSet sd.samples (some raw.length) = .ok full ∧
      full.totalTokens = st.totalTokens) ∧
    start.tokens.length ≤ st.tokenSet.tokens.length ∧
    (ty = .bytes ∨ shortCount start = 258 ∨ start.tokens.length = n →
      ∀ before, tokenizeFileSync start sd.samples (some raw.length) = .ok before →
        st.totalTokens ≤ before.totalTokens)

theorem resume_good (m : Machine) (hm : MachineOk m) (hr : RatioText m.ratio) (d : Files)
    (data : Text) (processed : Option Text) (dir : Text) (p : Processing) (ty : TokenType)
    (hty : ty = .bytes ∨ ty = .bytesHuff) (n : Nat) (path : Text) (hg : StartsGood d p ty n (some path))
    (b : Bytes) (start : TokenSet) (hb : d.read path = some b) (hstart : readTokenSet b = .ok start)
    (raw bytes : Bytes) (hdata : DataRead m d data processed p raw bytes) (hsize : raw.length < 2 ^ 34)
    (hbytes : bytes.length < 2 ^ 54) (hn : n < 2 ^ 64)
    (hc : ∀ k ≤ n, d.creatable (fileIn dir (tokenFile k p ty)) = true) :
    (∃ o, Exec m d (.optimize data processed dir p ty n (some path) none) o) ∧
    ∀ o, Exec m d (.optimize data processed dir p ty n (some path) none) o →
      o.1 = .ok () ∧ Resumed m d dir p ty n start raw bytes o.2 := by
  have hsz : raw.length < 1 <<< 34 := by simpa using hsize
  obtain ⟨h1, h2⟩ := C59_optimize_succeeds m hm d data processed dir p ty n (some path) hg raw bytes hdata
    (fun f e => by cases e; exact ⟨b, start, hb, hstart⟩) hsize hc
  refine ⟨h1, fun o ho => ⟨h2 o ho, ?_⟩⟩
  have hone : ∀ raw' bytes', DataRead m d data processed p raw' bytes' → raw' = raw ∧ bytes' = bytes := by
    intro raw' bytes' h
    obtain ⟨f1, a1, a2, a3⟩ := dataRead_iff.1 h
    obtain ⟨f2, b1, b2, b3⟩ := dataRead_iff.1 hdata
    have e1 := Except.ok.inj (a1.symm.trans b1)
    have e2 := Except.ok.inj (a2.symm.trans b2)
    subst e1; subst e2
    exact ⟨rfl, Except.ok.inj (a3.symm.trans b3)⟩
  have hsmall : SmallEnough m d (.optimize data processed dir p ty n (some path) none) := by
    refine ⟨hn, fun raw' bytes' h => ?_⟩
    obtain ⟨e1, e2⟩ := hone raw' bytes' h
    subst e1; subst e2
    exact ⟨by omega, hbytes⟩
  have hfit := saves_fit_optimize hm hg hsmall
  obtain ⟨r, ws⟩ := o
  have hrok := h2 _ ho
  simp only at hrok
  subst hrok
  generalize hoo : (Except.ok (), ws) = o at ho
  cases ho with
  | optimizeOpen h => cases hoo
  | optimizePrepare hr hp hi h => cases hoo
  | optimizeFail hr' hp hi hd ht hopt h =>
    obtain ⟨_, e, _⟩ := attempt_ok hoo.symm
    cases e
  | @optimize _ _ _ _ _ _ _ _ raw' file v bytes' ts st saved f hr' hp hi hd ht hopt h =>
    obtain ⟨e1, e2⟩ := hone raw' bytes' (dataRead_iff.2 ⟨file, hr', hp, hd⟩)
    subst e1; subst e2
    obtain ⟨e, _, _⟩ := attempt_ok hoo.symm
    have hw : ws = saved.map (fun f => (fileIn dir f.1, utf8Encode f.2)) ++
        [(fileIn dir f.1, utf8Encode f.2)] := by
      rw [e]; simp [inDir, joinPath_eq]
    have hts : ts = some start := by
      obtain ⟨v', g1, g2⟩ := readJson_of hb hstart
      simp only [openInput, g1, R.ok_bind] at hi
      have := Except.ok.inj hi
      subst this
      simp only [readInput, g2, R.ok_bind] at ht
      exact (Except.ok.inj ht).symm
    subst hts
    have hgood : Workable ty p n start := starts_input hg hi ht
    obtain ⟨k1, k2⟩ := (optimized_good hm (starts_input hg hi ht) hopt).result _ rfl
    have hf := hfit _ (.optimize hr' hp hi hd ht hopt)
    obtain ⟨n1, n2⟩ := written_stats hr hf k1.regular.inRange h
    have hpath : fileIn dir f.1 = fileIn dir (tokenFile st.tokenSet.tokens.length p ty) := by
      rw [n1, tokenFile_name, k1.processing, k1.type]
    cases hopt with
    | file hsize' => exact absurd hsz hsize'
    | @memory env _ w _ he hrun =>
      obtain ⟨env', q1, q2, q3, _⟩ := memoryEnv_ok hm bytes' (some raw'.length)
      have := Except.ok.inj (q1.symm.trans he)
      subst this
      have hsd : memorySampler ⟨bytes', 2 ^ 20⟩ = .ok env'.sampler := by
        unfold memoryEnv at he
        obtain ⟨sd, a1, a2⟩ := ok_bind_inv he
        have := (Except.ok.inj a2).symm
        subst this
        simpa using a1
      refine ⟨st, env'.sampler, utf8Encode f.2, hsd, ?_, ?_, ?_, ?_, ?_⟩
      · have e3 : ws = _ := congrArg Prod.snd hoo
        rw [← e3, ← hpath, hw]; exact writeAll_last _ _ _ _
      · obtain ⟨v, v1, v2⟩ := n2.whole
        rw [v2]
        exact saved_loads m k2.family k1.sorted (by rw [k1.type]; tauto) (.inl v1)
      · obtain ⟨st', e', hres, _⟩ := optimize_good q2 (input := some start) hgood hrun
        have := Except.ok.inj e'
        subst this
        obtain ⟨full, f1, f2⟩ := hres.stats
        rw [q3] at f1
        exact ⟨full, f1, by rw [f2]; rfl⟩
      · rcases hty with rfl | rfl
        · obtain ⟨st', e', _, g, _⟩ := C38_pretrained env' q2 .bytes (by simp) p n start hgood _ _ hrun
          have := Except.ok.inj e'
          subst this
          exact g
        · obtain ⟨st', e', _, g, _⟩ := C38_pretrained_huff_partial env' q2 p n start hgood _ _ hrun
          have := Except.ok.inj e'
          subst this
          exact g
      · intro hcase before hbefore
        rw [← q3] at hbefore
        have ht0 := tot_sync hgood.family hbefore
        have key : ∃ st0, Fresh env' start st0 ∧ st.totalTokens ≤ st0.totalTokens := by
          rcases hty with rfl | rfl
          · obtain ⟨st', e', _, _, g⟩ := C38_pretrained env' q2 .bytes (by simp) p n start hgood _ _ hrun
            have := Except.ok.inj e'
            subst this
            exact g
          · obtain ⟨st', e', _, _, g⟩ := C38_pretrained_huff_partial env' q2 p n start hgood _ _ hrun
            have := Except.ok.inj e'
            subst this
            exact g (hcase.resolve_left (by simp))
        obtain ⟨st0, a1, a2⟩ := key
        rw [← ht0, fresh_tot a1]
        exact a2

/-- **C123** (resuming).  So the optimization can be resumed from any readable file that the killed command
wrote, for the same number of tokens or more (the data still readable and below 2^34 bytes, files can be
created): it has an outcome, every outcome is a success, and nothing is lost: the set of the last file has
no fewer tokens, and for type bytes (for byteshuff: from a set with all tokens, or with all 258 short
tokens) it needs no more tokens for the data than the set it was resumed from. -/
theorem C123_resume (m : Machine) (hm : MachineOk m) (hr : RatioText m.ratio) (d : Files)
    (data : Text) (processed : Option Text) (dir : Text) (p : Processing) (ty : TokenType)
    (hty : ty = .bytes ∨ ty = .bytesHuff) (ntokens : Nat) (inputTokens : Option Text) (minSize : Option Nat)
    (hg : StartsGood d p ty ntokens inputTokens)
    (hsmall : SmallEnough m d (.optimize data processed dir p ty ntokens inputTokens minSize))
    (ws : List (Text × Bytes))
    (h : Running m d (.optimize data processed dir p ty ntokens inputTokens minSize) ws)
    (d' : Files) (hs : Stopped ws d d') (path : Text) (hnew : d'.read path ≠ d.read path)
    (b : Bytes) (start : TokenSet) (hb : d'.read path = some b) (hstart : readTokenSet b = .ok start)
    (n' : Nat) (hn : ntokens ≤ n') (hn' : n' < 2 ^ 64)
    (raw bytes : Bytes) (hdata : DataRead m d' data processed p raw bytes) (hsize : raw.length < 2 ^ 34)
    (hbytes : bytes.length < 2 ^ 54)
    (hc : ∀ k ≤ n', d'.creatable (fileIn dir (tokenFile k p ty)) = true) :
    (∃ o, Exec m d' (.optimize data processed dir p ty n' (some path) none) o) ∧
    ∀ o, Exec m d' (.optimize data processed dir p ty n' (some path) none) o →
      o.1 = .ok () ∧ Resumed m d' dir p ty n' start raw bytes o.2 :=
  resume_good m hm hr d' data processed dir p ty hty n' path
    (C123_left_usable m hm hr d data processed dir p ty hty ntokens inputTokens minSize hg hsmall ws h d' hs
      path hnew n' hn)
    b start hb hstart raw bytes hdata hsize hbytes hn' hc

-- the hypotheses are met: a run on a small file, killed when it had just written its result, leaves a file
-- from which optimizing can be resumed, here for 50 tokens more
example : ∃ ws d' path b start, Running aMachine someFiles
      (.optimize "data".toList none "dir".toList .raw .bytes 300 none none) ws ∧
    Stopped ws someFiles d' ∧ d'.read path ≠ someFiles.read path ∧ d'.read path = some b ∧
    readTokenSet b = .ok start ∧ StartsGood someFiles .raw .bytes 300 none ∧
    SmallEnough aMachine someFiles (.optimize "data".toList none "dir".toList .raw .bytes 300 none none) ∧
    ∃ o, Exec aMachine d' (.optimize "data".toList none "dir".toList .raw .bytes 350 (some path) none) o := by
  have hg := someFiles_start .raw .bytes 300 (by show 256 ≤ 300; decide)
  have hsm := someFiles_small "dir".toList .bytes 300 (by decide) none
  obtain ⟨⟨o, ho⟩, hall⟩ := C59_optimize_succeeds aMachine aMachine_ok someFiles "data".toList none
    "dir".toList .raw .bytes 300 none hg [97, 98, 10] [97, 98, 10] (.raw rfl) (fun _ h => by cases h)
    (by decide) (fun _ _ => rfl)
  have h := hall o ho
  obtain ⟨r, ws⟩ := o
  have h' : r = .ok () := h
  subst h'
  obtain ⟨ts, b, h1, h2, _, h3⟩ := C59_result_on_disk aMachine aMachine_ok (fun _ _ => .inl rfl) someFiles
    "data".toList none "dir".toList .raw .bytes 300 none none hg hsm ws ho
  have hstop := writeAll_stopped
  have hread := h3 (.inl rfl)
  have hp : ∀ k, fileIn "dir".toList (tokenFile k .raw .bytes) ≠ "data".toList := by
    intro k e
    have : (fileIn "dir".toList (tokenFile k .raw .bytes)).take 2 = ['d', 'i'] := rfl
    rw [e] at this
    exact absurd this (by decide)
  have hnone : someFiles.read (fileIn "dir".toList (tokenFile ts.tokens.length .raw .bytes)) = none := by
    simp only [someFiles]
    rw [if_neg (hp ts.tokens.length)]
  have hnew : (writeAll someFiles ws).read (fileIn "dir".toList (tokenFile ts.tokens.length .raw .bytes)) ≠
      someFiles.read (fileIn "dir".toList (tokenFile ts.tokens.length .raw .bytes)) := by
    rw [h2, hnone]; simp
  have hrun : Running aMachine someFiles (.optimize "data".toList none "dir".toList .raw .bytes 300 none none) ws :=
    .ended ho
  have hdat : (writeAll someFiles ws).read "data".toList = some [97, 98, 10] := by
    rw [C58_running_nothing_else aMachine someFiles _ ws hrun _ (hstop ws _) "data".toList]
    · rfl
    · rintro ⟨n, p, ty, e⟩
      have : (fileIn "dir".toList (tokenFile n p ty)).take 2 = ['d', 'i'] := rfl
      rw [← e] at this
      exact absurd this (by decide)
  have hcr : ∀ (ws : List (Text × Bytes)) (d : Files), (writeAll d ws).creatable = d.creatable := by
    intro ws
    induction ws with
    | nil => exact fun d => rfl
    | cons w ws ih => exact fun d => ih _
  refine ⟨ws, _, _, b, _, hrun, hstop ws _, hnew, h2, hread, hg, hsm, ?_⟩
  exact (C123_resume aMachine aMachine_ok (fun _ _ => .inl rfl) someFiles "data".toList none "dir".toList .raw
    .bytes (.inl rfl) 300 none none hg hsm ws hrun _ (hstop ws _) _ hnew b _ h2 hread 350 (by decide) (by decide)
    [97, 98, 10] [97, 98, 10] (.raw hdat) (by decide) (by decide) (fun k _ => by rw [hcr]; rfl)).1

end Tokens.Props
