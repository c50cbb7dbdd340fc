import Verif.Proofs.SavedSizes
import Verif.Proofs.Together
import Verif.Props.Disk
import Verif.Props.Optimum
import Verif.Props.Resume

/-!
# Property C127: which sizes an optimization writes files for

Read together with `Verif/Spec/Disk.lean` (`tokenFile`, `fileIn`) and `Verif/Spec/Optimizing.lean`.
`Running m d cmd ws`: the command, started with the files `d`, may have written `ws` so far; `Stopped ws d d'`:
killed at that moment it leaves the files `d'`; `Exec m d cmd (r, ws)`: the command may end so.
-/

namespace Tokens.Props
open Tokens Spec TokenSet Batch Input Main Optimize Disk

set_option linter.unusedVariables false

/-- **C127** (no other sizes).  An optimize command that starts from the set in the file `f` writes, at any
moment, only files for sets with at least as many tokens as that set has and at most as many as were asked
for. -/
theorem C127_sizes (m : Machine) (hm : MachineOk m) (d : Files) (data : Text) (processed : Option Text)
    (dir : Text) (p : Processing) (ty : TokenType) (ntokens : Nat) (f : Text) (minSize : Option Nat)
    (hg : StartsGood d p ty ntokens (some f)) (b : Bytes) (start : TokenSet) (hb : d.read f = some b)
    (hstart : readTokenSet b = .ok start) (ws : List (Text × Bytes))
    (h : Running m d (.optimize data processed dir p ty ntokens (some f) minSize) ws) :
    ∀ w ∈ ws, ∃ n, start.tokens.length ≤ n ∧ n ≤ ntokens ∧ w.1 = fileIn dir (tokenFile n p ty) := by
  have hts : ∀ {v ts}, openInput d (some f) = .ok v → readInput v = .ok ts → ts = some start := by
    intro v ts hi ht
    obtain ⟨v', g1, g2⟩ := readJson_of hb hstart
    simp only [openInput, g1, R.ok_bind] at hi
    have := Except.ok.inj hi
    subst this
    simp only [readInput, g2, R.ok_bind] at ht
    exact (Except.ok.inj ht).symm
  have dirs : ∀ {fs : List (Text × Text)} {r : R Unit}, Sized ty p start.tokens.length ntokens fs →
      ∀ w ∈ (attempt d (inDir dir fs) r).2,
        ∃ n, start.tokens.length ≤ n ∧ n ≤ ntokens ∧ w.1 = fileIn dir (tokenFile n p ty) := by
    intro fs r hs w hw
    obtain ⟨x, hx, rfl⟩ := List.mem_map.1 (attempt_sub rfl w hw)
    obtain ⟨n, h1, h2, h3⟩ := hs x hx
    exact ⟨n, h1, h2, by show joinPath dir x.1 = _; rw [h3, joinPath_eq]⟩
  cases h with
  | nothing => simp
  | optimize hr hp hi hd ht ho =>
    have hgood := starts_input hg hi ht
    have := hts hi ht
    subst this
    exact dirs (partOptimized_sized hm hgood ho)
  | @ended _ r ws h =>
    have e : ws = ((r, ws) : R Unit × List (Text × Bytes)).2 := rfl
    rw [e]
    generalize ((r, ws) : R Unit × List (Text × Bytes)) = o at h ⊢
    clear e
    cases h with
    | optimizeOpen h => simp
    | optimizePrepare hr hp hi h => simp
    | optimizeFail hr hp hi hd ht ho h =>
      have hgood := starts_input hg hi ht
      have := hts hi ht
      subst this
      exact dirs (optimized_sized hm hgood ho).saved
    | @optimize _ _ _ _ _ _ _ _ raw file v bytes ts st saved f hr hp hi hd ht ho h =>
      have hgood := starts_input hg hi ht
      have := hts hi ht
      subst this
      have hse := optimized_sized hm hgood ho
      obtain ⟨k1, k2⟩ := (optimized_good hm hgood ho).result st rfl
      refine dirs ?_
      intro x hx
      rcases List.mem_append.1 hx with hx | hx
      · exact hse.saved x hx
      · rw [List.mem_singleton] at hx
        subst hx
        obtain ⟨v, hv1, hv2, _⟩ := toJson_stats_ok m k1.regular.inRange
        refine ⟨_, hse.result st rfl, k1.budget, ?_⟩
        unfold statsFile at h
        cases hv : st.toJson m.ratio with
        | error e => rw [hv] at h; cases h
        | ok v =>
          rw [hv] at h
          have := Except.ok.inj h
          subst this
          rw [← k1.type, ← k1.processing]
          exact tokenFile_name st.tokenSet

/-- **C127** (smaller sets are safe).  So wherever such a command is killed, the files of this directory for
sets with fewer tokens than the set it started from, or with more than were asked for, or of another type or
processing, are as they were. -/
theorem C127_others_kept (m : Machine) (hm : MachineOk m) (d : Files) (data : Text) (processed : Option Text)
    (dir : Text) (p : Processing) (ty : TokenType) (ntokens : Nat) (f : Text) (minSize : Option Nat)
    (hg : StartsGood d p ty ntokens (some f)) (b : Bytes) (start : TokenSet) (hb : d.read f = some b)
    (hstart : readTokenSet b = .ok start) (ws : List (Text × Bytes))
    (h : Running m d (.optimize data processed dir p ty ntokens (some f) minSize) ws)
    (d' : Files) (hs : Stopped ws d d') (k : Nat) (p' : Processing) (ty' : TokenType)
    (hk : k < start.tokens.length ∨ ntokens < k ∨ p' ≠ p ∨ ty' ≠ ty) :
    d'.read (fileIn dir (tokenFile k p' ty')) = d.read (fileIn dir (tokenFile k p' ty')) := by
  rcases stopped_read hs (fileIn dir (tokenFile k p' ty')) with h1 | ⟨b', _, _, h1, _⟩
  · exact h1
  · exfalso
    obtain ⟨n, h2, h3, h4⟩ := C127_sizes m hm d data processed dir p ty ntokens f minSize hg b start hb hstart ws h
      _ h1
    obtain ⟨e1, e2, e3⟩ := tokenFile_inj (fileIn_inj h4)
    subst e1 e2 e3
    rcases hk with hk | hk | hk | hk
    · omega
    · omega
    · exact hk rfl
    · exact hk rfl

/-- **C127** (all sizes between).  The optimizer for type bytes, or for type byteshuff from scratch or from a
set with all ext tokens and bytes, has a run in which it writes, before its result, a set of every size
between that of the set it starts with and that of its result. -/
theorem C127_all_sizes (env : Env) (he : EnvOk env) (ty : TokenType) (p : Processing) (ntokens : Nat)
    (pre : Option TokenSet) (hp : CanStart ty p ntokens pre) (start : TokenSet)
    (hs : StartsWith env ntokens p ty pre start)
    (hty : ty = .bytes ∨ ty = .bytesHuff ∧ (pre = none ∨ shortCount start = 258)) :
    ∃ st w, OptimizeTokenset env ntokens p ty pre (.ok st) w ∧
      ∀ n, start.tokens.length < n → n ≤ st.tokenSet.tokens.length →
        ∃ text, (tokenFile n p ty, text) ∈ w.saved := by
  obtain ⟨w0, hrun⟩ := hs
  have key : Workable ty p ntokens start ∧ Reached env w0 ∧
      (ty = .bytesHuff → pre = none → shortCount start = 258 ∨ start.tokens.length = ntokens) := by
    cases pre with
    | none =>
      obtain ⟨ts, e, h1, h2, h3⟩ := start_run he hp hrun
      have := Except.ok.inj e
      subst this
      exact ⟨h1.work, h2, fun e _ => h1.full e⟩
    | some t =>
      cases hrun
      exact ⟨hp, reached_new env [], fun _ h => nomatch h⟩
  obtain ⟨hw, hr, hh⟩ := key
  have hfull : Full (fullShort ty) ntokens start := by
    rcases hty with rfl | ⟨rfl, h⟩
    · left
      rcases hw.family with h | h | h
      · obtain ⟨_, hp, _⟩ := h.params; rw [hw.type] at hp; simp [bitsParams] at hp
      · exact bytes_all h
      · have := h.type; rw [hw.type] at this; cases this
    · rcases h with h | h
      · exact hh rfl h
      · exact .inl h
  obtain ⟨st, w, h1, h2⟩ := every_impl he hw hr hfull
  refine ⟨st, w, .run hrun h1, ?_⟩
  intro n n1 n2
  obtain ⟨x, hx, rfl, f, hf, hsv⟩ := h2 n n1 n2
  exact ⟨f.2, by rw [← workable_file hx hsv]; exact hf⟩

/-- The number of tokens that an optimization for type bytes starts with. -/
def StartSize (d : Files) : Option Text → Nat → Prop
  | none, k => k = 256
  | some f, k => ∃ b ts, d.read f = some b ∧ readTokenSet b = .ok ts ∧ ts.tokens.length = k

/-- **C127** (results of other runs are overwritten).  An optimize command for type bytes, with good input,
data below 2^34 bytes and no `--min-data-size`, can succeed so that it has written the file of every size
between the one it starts with and the one of its result, which has `ntokens` tokens unless the data has
nothing left to join: results for smaller sizes from earlier runs are gone. -/
theorem C127_overwrites (m : Machine) (hm : MachineOk m) (d : Files) (data : Text) (processed : Option Text)
    (dir : Text) (p : Processing) (ntokens : Nat) (inputTokens : Option Text) (k : Nat)
    (hg : StartsGood d p .bytes ntokens inputTokens) (hk : StartSize d inputTokens k)
    (raw bytes : Bytes) (hdata : DataRead m d data processed p raw bytes) (hsize : raw.length < 2 ^ 34)
    (hc : ∀ n ≤ ntokens, d.creatable (fileIn dir (tokenFile n p .bytes)) = true) :
    ∃ ws N, Exec m d (.optimize data processed dir p .bytes ntokens inputTokens none) (.ok (), ws) ∧
      (∃ ts, Workable .bytes p ntokens ts ∧ ts.tokens.length = N ∧
        (N = ntokens ∨ ∃ sd, memorySampler ⟨bytes, 2 ^ 20⟩ = .ok sd ∧
          ∀ x ∈ sd.samples, x ≠ [] → Token.str x ∈ ts.tokens)) ∧
      ∀ n, k < n → n ≤ N → ∃ b, (fileIn dir (tokenFile n p .bytes), b) ∈ ws := by
  obtain ⟨file, hr, hp, hd⟩ := dataRead_iff.1 hdata
  obtain ⟨v, ts, hi, ht, hts⟩ : ∃ v ts, openInput d inputTokens = .ok v ∧ readInput v = .ok ts ∧
      (match ts with | none => k = 256 | some t => t.tokens.length = k) := by
    cases inputTokens with
    | none => exact ⟨none, none, rfl, rfl, hk⟩
    | some f =>
      obtain ⟨b, ts, g1, g2, g3⟩ := hk
      obtain ⟨v, g4, g5⟩ := readJson_of g1 g2
      exact ⟨some v, some ts, by simp only [openInput, g4, R.ok_bind], by simp only [readInput, g5, R.ok_bind], g3⟩
  have hgood := starts_input hg hi ht
  have hcan : CanStart .bytes p ntokens ts := by cases ts <;> exact hgood
  have hsz : raw.length < 1 <<< 34 := by simpa using hsize
  obtain ⟨env, h1, h2, h3, _⟩ := memoryEnv_ok hm bytes (some raw.length)
  obtain ⟨start, hs, hlen⟩ : ∃ start, StartsWith env ntokens p .bytes ts start ∧ start.tokens.length = k := by
    cases ts with
    | none =>
      refine ⟨bytesSet p, ⟨⟨fun _ => none, []⟩, ?_⟩, by rw [bytesSet_size]; exact hts.symm⟩
      unfold Optimize.startSet
      simp only []
      rw [newBytes_eq]
      exact .pure
    | some t => exact ⟨t, ⟨_, .pure⟩, hts⟩
  obtain ⟨st, w, hrun, hev⟩ := C127_all_sizes env h2 .bytes p ntokens ts hcan start hs (.inl rfl)
  have ho : Optimized m bytes ntokens p .bytes raw.length ts none (.ok st) w.saved := .memory hsz h1 hrun
  obtain ⟨k1, k2⟩ := (optimized_good hm hgood ho).result st rfl
  obtain ⟨v, _, hf, _⟩ := toJson_stats_ok m k1.regular.inRange
  have hsd : memorySampler ⟨bytes, 2 ^ 20⟩ = .ok env.sampler := by
    unfold memoryEnv at h1
    obtain ⟨sd, a1, a2⟩ := ok_bind_inv h1
    have := (Except.ok.inj a2).symm
    subst this
    simpa using a1
  have hex := Exec.optimize (processed := processed) (tokensDir := dir) hr hp hi hd ht ho hf
  have hall := (C59_optimize_succeeds m hm d data processed dir p .bytes ntokens inputTokens hg raw bytes hdata
    (fun f e => by subst e; obtain ⟨b, ts, g1, g2, _⟩ := hk; exact ⟨b, ts, g1, g2⟩) hsize hc).2 _ hex
  generalize ha : attempt d (inDir dir (w.saved ++ _)) (.ok ()) = o at hex hall
  obtain ⟨r, ws⟩ := o
  simp only at hall
  subst hall
  obtain ⟨e, _, _⟩ := attempt_ok ha
  refine ⟨ws, _, hex, ⟨st.tokenSet, k2, rfl, ?_⟩, ?_⟩
  · rcases C49_budget_used env h2 .bytes p ntokens ts hcan st w hrun with h | ⟨_, h⟩ | ⟨h, _⟩
    · exact .inl h
    · exact .inr ⟨_, hsd, h⟩
    · cases h
  · intro n n1 n2
    obtain ⟨text, hx⟩ := hev n (by omega) n2
    refine ⟨utf8Encode text, ?_⟩
    rw [e]
    exact List.mem_map.2 ⟨(tokenFile n p .bytes, text), by simp [hx], by rw [joinPath_eq]⟩

theorem three_bytes (c : Nat) (hc : 3 ≤ c) : memorySampler ⟨[97, 98, 10], c⟩ = .ok ⟨[[97, 98, 10]], 3⟩ := by
  have hm : min (0 + c) 3 = 3 := by omega
  have e1 : memNext ⟨[97, 98, 10], c⟩ 0 = .ok (some ([97, 98, 10], 3)) := by
    unfold memNext
    simp only [List.length_cons, List.length_nil]
    rw [hm]
    rfl
  have e2 : memNext ⟨[97, 98, 10], c⟩ 3 = .ok none := rfl
  unfold memorySampler
  rw [show ([97, 98, 10] : Bytes).length + 1 = 4 from rfl, memSlices, e1]
  simp only [R.ok_bind]
  rw [memSlices, e2]
  have h := lossy_text ['a', 'b', '\n'] []
  rw [lossy_nil, List.append_nil] at h
  have e : utf8Encode ['a', 'b', '\n'] = [97, 98, 10] := rfl
  rw [e] at h
  simp only [R.ok_bind, List.map_cons, List.map_nil, fromBytes, h]
  rfl

-- "ab\n", up to 300 tokens: in one of the runs the files of several sizes are written, from 257 on
example : ∃ ws N, Exec aMachine someFiles (.optimize "data".toList none "dir".toList .raw .bytes 300 none none)
      (.ok (), ws) ∧ 256 < N ∧
    ∀ n, 256 < n → n ≤ N → ∃ b, (fileIn "dir".toList (tokenFile n .raw .bytes), b) ∈ ws := by
  obtain ⟨ws, N, h1, ⟨ts, h2, h3, h4⟩, h5⟩ := C127_overwrites aMachine aMachine_ok someFiles "data".toList none
    "dir".toList .raw 300 none 256 (someFiles_start .raw .bytes 300 (by show 256 ≤ 300; decide)) rfl
    [97, 98, 10] [97, 98, 10] (.raw rfl) (by decide) (fun _ _ => rfl)
  refine ⟨ws, N, h1, ?_, h5⟩
  rcases h4 with h4 | ⟨sd, h6, h7⟩
  · omega
  · rw [three_bytes _ (by norm_num)] at h6
    have e := Except.ok.inj h6
    subst e
    have h8 := h7 [97, 98, 10] (by simp) (by simp)
    have hl : [97, 98, 10] ∈ longTokens ts := mem_longTokens.2 ⟨h8, by simp⟩
    have hpos := List.length_pos_of_mem hl
    have hfam : BytesFamily ts := by
      rcases h2.family with h | h | h
      · obtain ⟨_, hp, _⟩ := h.params; rw [h2.type] at hp; simp [bitsParams] at hp
      · exact h
      · have := h.type; rw [h2.type] at this; cases this
    have := size_split hfam.toUsable
    rw [bytes_all hfam] at this
    omega

-- and the hypotheses of C127_sizes are met: the file that such a run leaves is the start of another run
example : ∃ (d : Files) (f : Text) (b : Bytes) (start : TokenSet), d.read f = some b ∧ readTokenSet b = .ok start ∧
    StartsGood d .raw .bytes 350 (some f) ∧ 256 ≤ start.tokens.length ∧
    ∃ ws, Running aMachine d (.optimize "data".toList none "dir".toList .raw .bytes 350 (some f) none) ws ∧ ws ≠ [] := by
  have hg := someFiles_start .raw .bytes 300 (by show 256 ≤ 300; decide)
  have hsm := someFiles_small "dir".toList .bytes 300 (by decide) none
  obtain ⟨⟨o, ho⟩, hall⟩ := C59_optimize_succeeds aMachine aMachine_ok someFiles "data".toList none
    "dir".toList .raw .bytes 300 none hg [97, 98, 10] [97, 98, 10] (.raw rfl) (fun _ h => by cases h)
    (by decide) (fun _ _ => rfl)
  have h := hall o ho
  obtain ⟨r, ws⟩ := o
  have h' : r = .ok () := h
  subst h'
  obtain ⟨ts, b, h1, h2, _, h3⟩ := C59_result_on_disk aMachine aMachine_ok (fun _ _ => .inl rfl) someFiles
    "data".toList none "dir".toList .raw .bytes 300 none none hg hsm ws ho
  have hread := h3 (.inl rfl)
  have hstop := writeAll_stopped
  have hp : ∀ k, fileIn "dir".toList (tokenFile k .raw .bytes) ≠ "data".toList := by
    intro k e
    have : (fileIn "dir".toList (tokenFile k .raw .bytes)).take 2 = ['d', 'i'] := rfl
    rw [e] at this
    exact absurd this (by decide)
  have hnone : someFiles.read (fileIn "dir".toList (tokenFile ts.tokens.length .raw .bytes)) = none := by
    simp only [someFiles]
    rw [if_neg (hp ts.tokens.length)]
  have hnew : (writeAll someFiles ws).read (fileIn "dir".toList (tokenFile ts.tokens.length .raw .bytes)) ≠
      someFiles.read (fileIn "dir".toList (tokenFile ts.tokens.length .raw .bytes)) := by
    rw [h2, hnone]; simp
  have hdat : (writeAll someFiles ws).read "data".toList = some [97, 98, 10] := by
    rw [C58_running_nothing_else aMachine someFiles _ ws (.ended ho) _ (hstop ws _) "data".toList]
    · rfl
    · rintro ⟨n, p, ty, e⟩
      have : (fileIn "dir".toList (tokenFile n p ty)).take 2 = ['d', 'i'] := rfl
      rw [← e] at this
      exact absurd this (by decide)
  have hg2 : StartsGood (writeAll someFiles ws) .raw .bytes 350
      (some (fileIn "dir".toList (tokenFile ts.tokens.length .raw .bytes))) :=
    C123_left_usable aMachine aMachine_ok (fun _ _ => .inl rfl) someFiles "data".toList none "dir".toList .raw
      .bytes (.inl rfl) 300 none none hg hsm ws (.ended ho) _ (hstop ws _) _ hnew 350 (by decide)
  have hgood := hg2 b _ h2 hread
  obtain ⟨⟨o2, ho2⟩, hall2⟩ := C59_optimize_succeeds aMachine aMachine_ok (writeAll someFiles ws) "data".toList none
    "dir".toList .raw .bytes 350 _ hg2 [97, 98, 10] [97, 98, 10] (.raw hdat)
    (fun f e => by cases e; exact ⟨b, _, h2, hread⟩) (by decide) (fun _ _ => by rw [writeAll_creatable]; rfl)
  have hr2 := hall2 _ ho2
  obtain ⟨r2, ws2⟩ := o2
  simp only at hr2
  subst hr2
  refine ⟨_, _, b, _, h2, hread, hg2, ?_, ws2, .ended ho2, ?_⟩
  · have hfam : BytesFamily { ts with splitParagraphs := false } := by
      rcases hgood.family with h | h | h
      · obtain ⟨_, hp, _⟩ := h.params; rw [hgood.type] at hp; simp [bitsParams] at hp
      · exact h
      · have := h.type; rw [hgood.type] at this; cases this
    have := size_split hfam.toUsable
    rw [bytes_all hfam] at this
    omega
  · rintro rfl
    generalize hoo : ((.ok (), []) : R Unit × List (Text × Bytes)) = o at ho2
    cases ho2 with
    | optimizeOpen h => cases hoo
    | optimizePrepare hr hp hi h => cases hoo
    | optimizeFail hr hp hi hd ht hopt h =>
      obtain ⟨_, e, _⟩ := attempt_ok hoo.symm
      cases e
    | optimize hr hp hi hd ht hopt h =>
      obtain ⟨e, _, _⟩ := attempt_ok hoo.symm
      simp [inDir] at e

end Tokens.Props
