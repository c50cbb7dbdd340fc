import Verif.Props.Reported
import Verif.Props.FileEnough

/-!
# Property C137: the reported compression is real

Read together with `Verif/Spec/Reported.lean` (what a saved file reports) and `Verif/Spec/Disk.lean`.  `Exec` is the
model of the commands on files (`Verif/Model/Disk.lean`); reads may be short, threads, their schedule and the clock are
free.  A token is given by its place in the list of tokens.
-/

namespace Tokens.Props
open Tokens Spec TokenSet Optimize Batch Main Input Disk

set_option linter.unusedVariables false

/-! ### Proofs -/

/-- The number of tokens that is reported is the length of a list of tokens that the decoder of the file takes back
to the data. -/
theorem reported_decodes {ratio : Nat → Nat → Json} {v : Json} {ts : TokenSet} {raw : Nat} {samples : List Bytes}
    (h : Reported ratio v ts raw samples) (hr : Regular ts) (hl : Lossless ts)
    (ha : Tokenizable ts) {b : Bytes} (hb : FileOf ts b) :
    ∃ s tokens, v.get? "stats" = some s ∧ s.get? "total_tokens" = some (.num (tokens.length : Nat)) ∧
      (∀ i ∈ tokens, i < ts.tokens.length) ∧ fileDecode b tokens = samples.flatten := by
  obtain ⟨s, h1, _, _, _, total, h2, _, seg, h3, h4⟩ := h.stats
  obtain ⟨full, hf⟩ := sync_exists ha hr.inRange samples none
  obtain ⟨tokens, t1, t2, t3⟩ := fileDecode_counts hr hl hb hf
  obtain ⟨_, _, _, seg', g1, g2⟩ := C05_accounting ts hr.inRange samples none full hf
  obtain ⟨_, _, _, _, _, sh, _⟩ := sync_inv hr.inRange hf
  refine ⟨s, tokens, h1, ?_, ?_, t3⟩
  rotate_left
  · intro i hi
    by_contra hlt
    have h0 := t1 i
    rw [List.getD_eq_getElem?_getD, List.getElem?_eq_none (by rw [sh.tokenCounts]; omega)] at h0
    have := List.count_pos_iff.2 hi
    simp only [Option.getD_none] at h0
    omega
  have : tokens.length = total := by
    rw [← t2, g2, h4]
    congr 1
    apply List.map_congr_left
    intro x hx
    exact Nat.le_antisymm ((g1 x hx).2 _ (h3 x hx).1) ((h3 x hx).2 _ (g1 x hx).1)
  rw [this]; exact h2

/-! ### Theorems -/

/-- **C137**.  There is one decoder, for all runs.  When optimize with good input succeeds, its last file reports a
number of tokens under "total_tokens"; and there are exactly that many tokens of its set from which, and from the bytes of this file
and nothing else, the decoder makes the data (with --min-size, from 2^34 bytes on, and for text of at most 2^20
bytes; otherwise the data as the samples have it, what is not text in a slice having been replaced). -/
theorem C137_optimize_is_real :
    ∃ decode : Bytes → List Nat → Bytes,
    ∀ (m : Machine) (hm : MachineOk m) (hr : RatioText m.ratio) (d : Files)
    (data : Text) (processed : Option Text) (dir : Text) (p : Processing) (ty : TokenType) (ntokens : Nat)
    (inputTokens : Option Text) (minSize : Option Nat) (hg : StartsGood d p ty ntokens inputTokens)
    (hsmall : SmallEnough m d (.optimize data processed dir p ty ntokens inputTokens minSize))
    (ws : List (Text × Bytes))
    (h : Exec m d (.optimize data processed dir p ty ntokens inputTokens minSize) (.ok (), ws))
    (raw bytes : Bytes) (hdata : DataRead m d data processed p raw bytes),
    ∃ n path b v s tokens, n ≤ ntokens ∧ path = fileIn dir (tokenFile n p ty) ∧
      (writeAll d ws).read path = some b ∧ readJson (writeAll d ws) path = .ok v ∧
      v.get? "stats" = some s ∧ s.get? "total_tokens" = some (.num (tokens.length : Nat)) ∧
      (∀ i ∈ tokens, i < n) ∧
      (∃ slices : List Bytes, slices.flatten = bytes ∧
        (decode b tokens = bytes ∨ decode b tokens = (slices.map fromUtf8Lossy).flatten)) ∧
      (minSize ≠ none ∨ 2 ^ 34 ≤ raw.length ∨ (bytes.length ≤ 2 ^ 20 ∧ ∃ text, bytes = utf8Encode text) →
        decode b tokens = bytes) := by
  refine ⟨fileDecode, ?_⟩
  intro m hm hr d data processed dir p ty ntokens inputTokens minSize hg hsmall ws h raw bytes hdata
  obtain ⟨ts, path, b, v, slices, samples, k, h1, h2, h3, h4, h5, h6, h8, h7⟩ := C135_optimize_numbers m hm hr d data
    processed dir p ty ntokens inputTokens minSize hg hsmall ws h raw bytes hdata
  obtain ⟨tk, htk⟩ := k.accepted
  obtain ⟨_, ht⟩ := FragmentTokenizer.ok_of_new htk
  obtain ⟨s, tokens, e1, e2, e4, e3⟩ := reported_decodes h7 k.regular k.lossless ht h3
  refine ⟨_, path, b, v, s, tokens, k.budget, h1, h2, h4, e1, e2, e4, ⟨slices, h5, ?_⟩, ?_⟩
  · rcases h6 with h6 | ⟨_, _, h6⟩
    · left; rw [e3, h6, h5]
    · right; rw [e3, h6]
  · intro hw
    rcases h6 with h6 | ⟨g1, g2, _⟩
    · rw [e3, h6, h5]
    · rcases hw with hw | hw | hw
      · exact absurd g1 hw
      · omega
      · rw [e3, h8 hw.1 hw.2]

/-- **C137** (convert).  The same for convert, for a set that can be saved and decoded (`Regular`, `Lossless`, as
all sets that optimize saves): the tokens, as many as its file reports, and the bytes of this
file give the data back. -/
theorem C137_convert_is_real :
    ∃ decode : Bytes → List Nat → Bytes,
    ∀ (m : Machine) (hm : MachineOk m) (hr : RatioText m.ratio) (d : Files) (data : Text)
    (processed : Option Text) (inputTokens dir : Text)
    (hsmall : SmallEnough m d (.convert data processed inputTokens dir)) (ws : List (Text × Bytes))
    (h : Exec m d (.convert data processed inputTokens dir) (.ok (), ws)) (b : Bytes) (ts : TokenSet)
    (hb : d.read inputTokens = some b) (hts : readTokenSet b = .ok ts) (hreg : Regular ts) (hlos : Lossless ts)
    (raw bytes : Bytes) (hdata : DataRead m d data processed ts.processing raw bytes),
    ∃ path b' v s tokens, ws = [(path, b')] ∧ readJson (writeAll d ws) path = .ok v ∧
      v.get? "stats" = some s ∧ s.get? "total_tokens" = some (.num (tokens.length : Nat)) ∧
      (∀ i ∈ tokens, i < ts.tokens.length) ∧ decode b' tokens = bytes := by
  refine ⟨fileDecode, ?_⟩
  intro m hm hr d data processed inputTokens dir hsmall ws h b ts hb hts hreg hlos raw bytes hdata
  obtain ⟨path, b', v, samples, hw, _, h2, h3, h4⟩ := C135_convert_numbers m hm hr d data processed inputTokens dir
    hsmall ws h b ts hb hts raw bytes hdata
  obtain ⟨b'', hw', hf, ht, _⟩ := convert_written hm hr hsmall h hb hts
  have : b'' = b' := by
    have := hw'.symm.trans hw
    simp only [List.cons.injEq, Prod.mk.injEq] at this
    exact this.1.2
  subst this
  obtain ⟨s, tokens, e1, e2, e4, e3⟩ := reported_decodes h4 hreg hlos ht hf
  exact ⟨path, b'', v, s, tokens, hw, h2, e1, e2, e4, e3.trans h3⟩

/-! ### Examples -/

-- an optimize that succeeds, the data made from its file and as many tokens as it reports; then the same for the
-- convert of its file
example : ∃ (decode : Bytes → List Nat → Bytes) (ws : List (Text × Bytes)) (path : Text) (b : Bytes) (v s : Json)
    (tokens : List Nat),
    Exec aMachine someFiles (.optimize "data".toList none "dir".toList .raw .bytes 300 none none) (.ok (), ws) ∧
    (writeAll someFiles ws).read path = some b ∧ readJson (writeAll someFiles ws) path = .ok v ∧
    v.get? "stats" = some s ∧ s.get? "total_tokens" = some (.num (tokens.length : Nat)) ∧
    decode b tokens = [97, 98, 10] := by
  have hg := someFiles_start .raw .bytes 300 (by show 256 ≤ 300; decide)
  have hsm := someFiles_small "dir".toList .bytes 300 (by decide) none
  obtain ⟨ws, h1⟩ := C125_optimize_exists _ stable_sorts aMachine aMachine_ok someFiles "data".toList none
    "dir".toList .raw .bytes 300 none hg [97, 98, 10] [97, 98, 10] (.raw rfl) (fun _ h => by cases h) (by decide)
    (fun _ _ => rfl)
  have h := ExecBy.exec stable_sorts h1
  obtain ⟨decode, hall⟩ := C137_optimize_is_real
  obtain ⟨n, path, b, v, s, tokens, _, _, g1, g2, g3, g4, _, _, g5⟩ := hall aMachine aMachine_ok
    (fun _ _ => .inl rfl) someFiles "data".toList none "dir".toList .raw .bytes 300 none none hg hsm ws h
    [97, 98, 10] [97, 98, 10] (.raw rfl)
  exact ⟨decode, ws, path, b, v, s, tokens, h, g1, g2, g3, g4,
    g5 (.inr (.inr ⟨by decide, ['a', 'b', '\n'], by decide⟩))⟩

example : ∃ (d : Files) (path : Text) (decode : Bytes → List Nat → Bytes) (b' : Bytes) (v s : Json)
    (tokens : List Nat), Exec aMachine d (.convert "data".toList none path "dir".toList)
      (.ok (), [(path, b')]) ∧
    readJson (writeAll d [(path, b')]) path = .ok v ∧
    v.get? "stats" = some s ∧ s.get? "total_tokens" = some (.num (tokens.length : Nat)) ∧
    decode b' tokens = [97, 98, 10] := by
  have hg := someFiles_start .raw .bytes 300 (by show 256 ≤ 300; decide)
  have hsm := someFiles_small "dir".toList .bytes 300 (by decide) none
  obtain ⟨ws, h1⟩ := C125_optimize_exists _ stable_sorts aMachine aMachine_ok someFiles "data".toList none
    "dir".toList .raw .bytes 300 none hg [97, 98, 10] [97, 98, 10] (.raw rfl) (fun _ h => by cases h) (by decide)
    (fun _ _ => rfl)
  have hrun : Running aMachine someFiles (.optimize "data".toList none "dir".toList .raw .bytes 300 none none) ws :=
    .ended (C125_is_a_run _ stable_sorts _ _ _ _ h1)
  have hdat : (writeAll someFiles ws).read "data".toList = some [97, 98, 10] := by
    rw [C58_running_nothing_else aMachine someFiles _ ws hrun _ (writeAll_stopped ws _) "data".toList]
    · rfl
    · rintro ⟨n, p, ty, e⟩
      have : (fileIn "dir".toList (tokenFile n p ty)).take 2 = ['d', 'i'] := rfl
      rw [← e] at this
      exact absurd this (by decide)
  obtain ⟨st, f, path, k1, k2, _, _, kp, _, k3, kc, kw⟩ := optimize_disk aMachine_ok (fun _ _ => .inl rfl) hg
    (saves_fit_optimize aMachine_ok hg hsm) (ExecBy.exec stable_sorts h1)
  have hseq : st.tokenSet.sequences = [] := by
    rcases k2.family with q | q | q
    · obtain ⟨len, q1, _⟩ := q.params
      rw [k1.type] at q1
      cases q1
    · exact q.noSeq
    · have := q.type
      rw [k1.type] at this
      cases this
  obtain ⟨w, w1, w2⟩ := kw.whole
  have hload : readTokenSet (utf8Encode f.2) = .ok (noFlag st.tokenSet) := by
    rw [w2]
    exact saved_loads aMachine k2.family k1.sorted (.inl k1.type) (.inl w1)
  obtain ⟨tk, htk⟩ := k1.accepted
  obtain ⟨_, t1⟩ := FragmentTokenizer.ok_of_new htk
  have t2 : Tokenizable (noFlag st.tokenSet) := ⟨t1.nodup, t1.nonempty, t1.bytes⟩
  have hreg : Regular (noFlag st.tokenSet) := by
    have q := k1.regular
    exact ⟨q.tokens, q.few, q.required, q.distinct, q.nonempty, q.inRange, q.long⟩
  obtain ⟨sd, hs, _⟩ := file_one (data := [97, 98, 10]) (by decide) (by decide)
  obtain ⟨st2, hst2⟩ := sync_exists t2 hreg.inRange sd.samples (some [97, 98, 10].length)
  obtain ⟨_, _, _, _, _, sh, _⟩ := sync_inv hreg.inRange hst2
  obtain ⟨x, hx, _⟩ := toJson_stats_ok aMachine (st := st2) (by rw [sh.tokenSet]; exact hreg.inRange)
  have hpath : fileIn "dir".toList (tokenFile (noFlag st.tokenSet).tokens.length (noFlag st.tokenSet).processing
      (noFlag st.tokenSet).tokenType) = path := by
    rw [kp]
    show fileIn _ (tokenFile st.tokenSet.tokens.length st.tokenSet.processing st.tokenSet.tokenType) = _
    rw [k1.processing, k1.type]
  have hproc : (noFlag st.tokenSet).processing = .raw := k1.processing
  have hdata : DataRead aMachine (writeAll someFiles ws) "data".toList none (noFlag st.tokenSet).processing
      [97, 98, 10] [97, 98, 10] := by rw [hproc]; exact .raw hdat
  obtain ⟨⟨o, ho⟩, hall⟩ := convert_writes (sort := fun key l => l.mergeSort (fun a b => decide (key a ≤ key b)))
    (dir := "dir".toList) aMachine_ok k3 hload hdata hs hst2 hx (by rw [hpath, writeAll_creatable]; exact kc)
  have e := hall aMachine aMachine_ok rfl rfl o ho
  subst e
  have ho := ExecBy.exec stable_sorts ho
  rw [hpath] at ho
  have hsm2 : SmallEnough aMachine (writeAll someFiles ws) (.convert "data".toList none path "dir".toList) := by
    intro b ts raw bytes g1 g2 g3
    have := Option.some.inj (k3.symm.trans g1)
    subst this
    have := Except.ok.inj (hload.symm.trans g2)
    subst this
    have hb : raw = [97, 98, 10] ∧ bytes = [97, 98, 10] := by
      rw [hproc] at g3
      cases g3 with
      | raw h =>
        have := Option.some.inj (hdat.symm.trans h)
        exact ⟨this.symm, this.symm⟩
    obtain ⟨rfl, rfl⟩ := hb
    refine ⟨by decide, ?_, 1, by decide, by decide, ?_⟩
    · exact Nat.lt_of_le_of_lt k1.budget (by decide)
    · intro q hq
      have hq : q ∈ st.tokenSet.sequences := hq
      rw [hseq] at hq
      cases hq
  obtain ⟨decode, hall2⟩ := C137_convert_is_real
  obtain ⟨path', b', v, s, tokens, c1, c2, c3, c4, _, c5⟩ := hall2 aMachine aMachine_ok (fun _ _ => .inl rfl) _ _ _ _ _
    hsm2 _ ho _ _ k3 hload hreg (noFlag_lossless k1.lossless) _ _ hdata
  have c6 := (List.cons.inj c1).1
  rw [Prod.mk.injEq] at c6
  obtain ⟨c7, c8⟩ := c6
  subst c7 c8
  exact ⟨_, path, decode, _, v, s, tokens, ho, c2, c3, c4, c5⟩

end Tokens.Props
