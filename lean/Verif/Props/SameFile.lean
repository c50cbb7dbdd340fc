import Verif.Proofs.SameFile
import Verif.Props.Convert

/-!
# Property C128: several runs that write the same file

Read together with `Verif/Spec/Together.lean` and C126.  `Together.Steps prog` are the histories of any number of
runs of the program on the same files: each starts at any moment, and its system calls come in between those of
the others; each file is written by a call that creates or empties it, followed by calls that write at the position
of the run's own open file (`Verif/Model/Together.lean`).
-/

namespace Tokens.Props
open Tokens Spec TokenSet Optimize Batch Main Input Disk

/-- **C128** (the same contents).  Let `W i` be files that the i-th command alone, on the files `d`, writes at most,
and let no command write what another one reads.  Let every command that writes the file `path` give it the
contents `b`.  Then at every moment of every history: each run that has started has an outcome that it has alone
on `d`; files that nobody may write are as they were; the file is as it was, or some of the bytes of `b`, perhaps with
zeros in between; and when all runs that write it have done so, it is `b`. -/
theorem C128_same (prog : Nat → Option (Machine × Command)) (W : Nat → Text → Prop) (d : Files)
    (hW : ∀ i m cmd ws, prog i = some (m, cmd) → Running m d cmd ws → ∀ w ∈ ws, W i w.1)
    (hwr : ∀ i j m cmd path, i ≠ j → W i path → prog j = some (m, cmd) → ¬ Reads cmd path)
    (path : Text) (b : Bytes)
    (hsame : ∀ i m cmd ws, prog i = some (m, cmd) → Running m d cmd ws → ∀ w ∈ ws, w.1 = path → w.2 = b)
    (s : Together) (h : Together.Steps prog (Together.fresh d) s) :
    (∀ i j, s.job i = some j → ∃ m cmd, prog i = some (m, cmd) ∧ Begins m d cmd j.result j.writes) ∧
    (∀ q, (∀ i, ¬ W i q) → s.files.read q = d.read q) ∧
    (s.files.read path = d.read path ∨ ∃ c, s.files.read path = some c ∧ c.length ≤ b.length ∧
      ∀ k < c.length, c[k]? = b[k]? ∨ c[k]? = some 0) ∧
    ((∃ i j, s.job i = some j ∧ ∃ w ∈ j.writes, w.1 = path) →
      (∀ i j, s.job i = some j → (∃ w ∈ j.writes, w.1 = path) → j.todo = []) → s.files.read path = some b) := by
  have hs := shared_steps (path := path) (b := b)
    (fun i m cmd ws hp hr w hw => ⟨hW i m cmd ws hp hr w hw, hsame i m cmd ws hp hr w hw⟩) hwr shared_fresh h
  refine ⟨?_, ?_, ?_, ?_⟩
  · intro i j hj
    obtain ⟨m, cmd, h1, h2, _⟩ := hs.begins i j hj
    exact ⟨m, cmd, h1, h2⟩
  · exact fun q hq => hs.idle q (fun k hk => absurd hk (hq k))
  · rcases hs.file with ⟨h1, _⟩ | ⟨_, _, c, _, _, h1, h2, _⟩
    · exact .inl h1
    · exact .inr ⟨c, h1, weak_shape h2⟩
  · rintro ⟨i, j, hj, w, hw, e⟩ hall
    exact shared_done hs ⟨i, j, w, hj, hw, e⟩ (fun i j w hj hw e => hall i j hj ⟨w, hw, e⟩)

/-- `n` runs of one command. -/
def copies (n : Nat) (m : Machine) (cmd : Command) (i : Nat) : Option (Machine × Command) :=
  if i < n then some (m, cmd) else none

/-- **C128** (process).  Any number of runs of `process` with the same data, which is text, and the same output: each
succeeds and writes what one alone does; the data is not changed; when all that have started are done, the output
is what one alone leaves there. -/
theorem C128_process (m : Machine) (hnl : m.db.isAlphabetic '\n' = false) (d : Files) (data output : Text)
    (text : Text) (hdata : d.read data = some (utf8Encode text)) (hne : output ≠ data)
    (hc : d.creatable output = true) (n : Nat) :
    ∃ out, Processing.process m.db (finalNewline (dropCR text)) = .ok out ∧
      ∀ s, Together.Steps (copies n m (.process data output)) (Together.fresh d) s →
        s.files.read data = d.read data ∧
        (∀ i j r, s.job i = some j → j.result = some r → r = .ok () ∧ j.writes = [(output, utf8Encode out)]) ∧
        ((∃ i j, s.job i = some j ∧ j.result ≠ none) → (∀ i j, s.job i = some j → j.todo = []) →
          s.files.read output = some (utf8Encode out)) := by
  obtain ⟨out, h1, h2, _⟩ := C60_process m hnl d data output text hdata hne hc
  refine ⟨out, h1, fun s hs => ?_⟩
  have inv : ∀ {i m' cmd}, copies n m (.process data output) i = some (m', cmd) →
      m' = m ∧ cmd = .process data output := by
    intro i m' cmd hp
    unfold copies at hp
    split at hp
    · have := Option.some.inj hp
      rw [Prod.mk.injEq] at this
      exact ⟨this.1.symm, this.2.symm⟩
    · cases hp
  have hrun : ∀ ws, Running m d (.process data output) ws → ∀ w ∈ ws, w = (output, utf8Encode out) := by
    intro ws hr w hw
    cases hr with
    | nothing => cases hw
    | ended he =>
      have e := (Prod.mk.inj ((h2 _).1 he)).2
      rw [e, List.mem_singleton] at hw
      exact hw
  obtain ⟨g1, g2, _, g4⟩ := C128_same (copies n m (.process data output)) (fun _ path => path = output) d
    (by
      intro i m' cmd ws hp hr w hw
      obtain ⟨rfl, rfl⟩ := inv hp
      rw [hrun ws hr w hw])
    (by
      rintro i j m' cmd path hij rfl hp hr
      obtain ⟨rfl, rfl⟩ := inv hp
      exact hne hr)
    output (utf8Encode out)
    (by
      intro i m' cmd ws hp hr w hw _
      obtain ⟨rfl, rfl⟩ := inv hp
      rw [hrun ws hr w hw]) s hs
  have hres : ∀ i j r, s.job i = some j → j.result = some r → r = .ok () ∧ j.writes = [(output, utf8Encode out)] := by
    intro i j r hj hr
    obtain ⟨m', cmd, e1, e2⟩ := g1 i j hj
    obtain ⟨rfl, rfl⟩ := inv e1
    rw [hr] at e2
    exact Prod.mk.inj ((h2 _).1 e2)
  refine ⟨g2 data (fun _ e => hne e.symm), hres, ?_⟩
  rintro ⟨i, j, hj, hr⟩ hall
  obtain ⟨r, hr⟩ := Option.ne_none_iff_exists'.1 hr
  exact g4 ⟨i, j, hj, (output, utf8Encode out), by rw [(hres i j r hj hr).2]; simp, rfl⟩
    (fun i j hj _ => hall i j hj)

/-- **C128** (different contents).  Two commands that both succeed alone on the files `d` and both end by writing the
same file, with the contents `b1` and `b2`.  If they run at the same time, it may happen that both succeed, and that
afterwards the file holds `b2` followed by what `b1` has after as many bytes. -/
theorem C128_torn (prog : Nat → Option (Machine × Command)) (d : Files) (i1 i2 : Nat) (hi : i1 ≠ i2)
    (m1 m2 : Machine) (cmd1 cmd2 : Command) (hp1 : prog i1 = some (m1, cmd1)) (hp2 : prog i2 = some (m2, cmd2))
    (path : Text) (b1 b2 : Bytes) (ws1 ws2 : List (Text × Bytes))
    (h1 : Exec m1 d cmd1 (.ok (), ws1 ++ [(path, b1)])) (h2 : Exec m2 d cmd2 (.ok (), ws2 ++ [(path, b2)])) :
    ∃ s j1 j2, Together.Steps prog (Together.fresh d) s ∧ s.job i1 = some j1 ∧ s.job i2 = some j2 ∧
      j1.result = some (.ok ()) ∧ j2.result = some (.ok ()) ∧ j1.todo = [] ∧ j2.todo = [] ∧
      s.files.read path = some (b2 ++ b1.drop b2.length) := by
  obtain ⟨c1, hc1⟩ := calls_exist ws1
  obtain ⟨c2, hc2⟩ := calls_exist ws2
  have hone : ∀ b : Bytes, CallsFor [(path, b)] [.create path, .write path 0 b] :=
    fun b => .cons [b] (by simp) .nil
  have k1 := callsFor_append hc1 (hone b1)
  have k2 := callsFor_append hc2 (hone b2)
  have s0 : Together.Steps prog (Together.fresh d) _ := .refl
  have s1 := s0.tail (.start i1 (result := some (.ok ())) hp1 rfl h1 k1)
  have s2 := s1.tail (.start i2 (result := some (.ok ())) hp2 (if_neg hi.symm) h2 k2)
  -- both create the file
  have s3 := steps_trans s2 (steps_calls (prog := prog) (i := i1)
    (j := ⟨some (.ok ()), ws1 ++ [(path, b1)], [], c1 ++ [.create path, .write path 0 b1]⟩)
    (a := c1 ++ [.create path]) (b := [.write path 0 b1])
    ((if_neg hi).trans (if_pos rfl)) (by simp))
  have s4 := steps_trans s3 (steps_calls (prog := prog) (i := i2)
    (j := ⟨some (.ok ()), ws2 ++ [(path, b2)], [], c2 ++ [.create path, .write path 0 b2]⟩)
    (a := c2 ++ [.create path]) (b := [.write path 0 b2])
    ((if_neg hi.symm).trans (if_pos rfl)) (by simp))
  -- and then both write
  have s5 := steps_trans s4 (steps_calls (prog := prog) (i := i1)
    (j := ⟨some (.ok ()), ws1 ++ [(path, b1)], [] ++ (c1 ++ [.create path]), [.write path 0 b1]⟩)
    (a := [.write path 0 b1]) (b := []) ((if_neg hi).trans (if_pos rfl)) (by simp))
  have s6 := steps_trans s5 (steps_calls (prog := prog) (i := i2)
    (j := ⟨some (.ok ()), ws2 ++ [(path, b2)], [] ++ (c2 ++ [.create path]), [.write path 0 b2]⟩)
    (a := [.write path 0 b2]) (b := []) ((if_neg hi.symm).trans (if_pos rfl)) (by simp))
  refine ⟨_, _, _, s6, (if_neg hi).trans (if_pos rfl), if_pos rfl, rfl, rfl, rfl, rfl, ?_⟩
  simp only [applyCalls, applyCalls_append]
  generalize applyCalls (Call.apply (applyCalls _ c1) (.create path)) c2 = d'
  show (((d'.write path []).write path (overlay (((d'.write path []).read path).getD []) 0 b1)).write path
    (overlay ((((d'.write path []).write path (overlay (((d'.write path []).read path).getD []) 0 b1)).read path).getD [])
      0 b2)).read path = _
  simp only [Files.write, if_true, Option.getD_some]
  have e : overlay [] 0 b1 = b1 := by
    unfold overlay
    split
    · rename_i h; exact h.symm
    · simp
  rw [e]
  unfold overlay
  split
  · rename_i h; rw [h]; rfl
  · simp

/-- **C128** (such a file of a set cannot be read).  If the two are the files of token sets, and the one written last
is shorter, then what is left cannot be read as a token set. -/
theorem C128_unreadable (m1 m2 : Machine) (hr1 : RatioText m1.ratio) (hr2 : RatioText m2.ratio)
    (st1 st2 : TokenStats) (hf1 : Fits64 st1) (hf2 : Fits64 st2)
    (hs1 : SeqsInRange st1.tokenSet) (hs2 : SeqsInRange st2.tokenSet) (name1 name2 text1 text2 : Text)
    (h1 : statsFile m1 st1 = .ok (name1, text1)) (h2 : statsFile m2 st2 = .ok (name2, text2))
    (hlt : (utf8Encode text2).length < (utf8Encode text1).length) :
    readTokenSet (utf8Encode text2 ++ (utf8Encode text1).drop (utf8Encode text2).length) = .error .unwrapNone := by
  have shape : ∀ (m : Machine) (hr : RatioText m.ratio) (st : TokenStats) (hf : Fits64 st)
      (hs : SeqsInRange st.tokenSet) (name text : Text) (h : statsFile m st = .ok (name, text)),
      ∃ l k, Denotes text (.obj l) ∧ Storable k (.obj l) ∧ k < 128 := by
    intro m hr st hf hs name text h
    obtain ⟨v, text', g1, g2, _⟩ := C52_file_is_json m hr st hf hs
    have hst := JsonWrite.storable_stats hr hf.ntokens hf.scanned hf.total hf.initial hs g1
    have ht : text = v.render := by
      simp only [statsFile, g1, R.ok_bind] at h
      exact (Prod.mk.inj (Except.ok.inj h)).2.symm
    subst ht
    have hobj : ∃ l, v = .obj l := by
      unfold TokenStats.toJson at g1
      rw [toJson_eq _ hs] at g1
      simp only [R.ok_bind, jsonOf] at g1
      exact ⟨_, (Except.ok.inj g1).symm⟩
    obtain ⟨l, rfl⟩ := hobj
    exact ⟨l, _, JsonWrite.denotes_render _ hst, hst, by decide⟩
  obtain ⟨l1, k1, a1, _, _⟩ := shape m1 hr1 st1 hf1 hs1 name1 text1 h1
  obtain ⟨l2, k2, b1, b2, b3⟩ := shape m2 hr2 st2 hf2 hs2 name2 text2 h2
  have hlast : ((utf8Encode text1).drop (utf8Encode text2).length).getLast? = some 125 := by
    rw [List.getLast?_drop, if_neg (by omega)]
    exact obj_last a1
  rw [readTokenSet, JsonRead.parseBytes_more b1 b2 b3 _ hlast]
  rfl

/-- The statistics that a successful convert writes. -/
theorem convert_stats {m : Machine} (hm : MachineOk m) {d : Files}
    {data : Text} {processed : Option Text} {inputTokens dir : Text}
    (hsmall : SmallEnough m d (.convert data processed inputTokens dir)) {ws : List (Text × Bytes)}
    (h : Exec m d (.convert data processed inputTokens dir) (.ok (), ws)) {b : Bytes} {ts : TokenSet}
    (hb : d.read inputTokens = some b) (hts : readTokenSet b = .ok ts) :
    ∃ st f, statsFile m st = .ok f ∧ Fits64 st ∧ SeqsInRange st.tokenSet ∧
      ws = [(fileIn dir (tokenFile ts.tokens.length ts.processing ts.tokenType), utf8Encode f.2)] := by
  obtain ⟨v, g1, g2⟩ := readJson_of hb hts
  have hfit := saves_fit_convert hm hsmall
  generalize ho : (Except.ok (), ws) = o at h
  cases h with
  | convertOpen h => cases ho
  | convertFail hv hr hp h => cases ho
  | @convert _ _ _ _ v' raw file f hv hr' hp hcc =>
    have := Except.ok.inj (g1.symm.trans hv)
    subst this
    obtain ⟨e, _, _⟩ := attempt_ok ho.symm
    obtain ⟨ts', st, k1, k2, k3, k4⟩ := converted (dir := dir) hm hv hr' hp hcc
    have := Except.ok.inj (g2.symm.trans k1)
    subst this
    have hin := (fromJson_loaded k1).inRange
    obtain ⟨v', w, k5, _⟩ := C17_stats_file m.ratio st (by rw [k2]; exact hin)
    have n1 : f.1 = st.tokenSet.name ++ ".json".toList := by
      simp only [statsFile, k5, R.ok_bind] at k3
      rw [← Except.ok.inj k3]
    refine ⟨st, f, k3, hfit st k4, by rw [k2]; exact hin, ?_⟩
    rw [e]
    simp only [inDir, List.map_cons, List.map_nil, joinPath_eq]
    rw [n1, k2, tokenFile_name]

/-- **C128** (two converts).  Two converts of the same set of tokens into the same directory, which both succeed alone,
with files of different sizes.  If they run at the same time, it may happen that both succeed and that afterwards
their file cannot be read. -/
theorem C128_convert (prog : Nat → Option (Machine × Command)) (d : Files) (i1 i2 : Nat) (hi : i1 ≠ i2)
    (m1 m2 : Machine) (hm1 : MachineOk m1) (hm2 : MachineOk m2) (hr1 : RatioText m1.ratio) (hr2 : RatioText m2.ratio)
    (data1 data2 : Text) (processed1 processed2 : Option Text) (inputTokens dir : Text)
    (hp1 : prog i1 = some (m1, .convert data1 processed1 inputTokens dir))
    (hp2 : prog i2 = some (m2, .convert data2 processed2 inputTokens dir))
    (hs1 : SmallEnough m1 d (.convert data1 processed1 inputTokens dir))
    (hs2 : SmallEnough m2 d (.convert data2 processed2 inputTokens dir))
    (b : Bytes) (ts : TokenSet) (hb : d.read inputTokens = some b) (hts : readTokenSet b = .ok ts)
    (path1 path2 : Text) (b1 b2 : Bytes)
    (h1 : Exec m1 d (.convert data1 processed1 inputTokens dir) (.ok (), [(path1, b1)]))
    (h2 : Exec m2 d (.convert data2 processed2 inputTokens dir) (.ok (), [(path2, b2)]))
    (hne : b1.length ≠ b2.length) :
    path1 = path2 ∧ ∃ s j1 j2 c, Together.Steps prog (Together.fresh d) s ∧ s.job i1 = some j1 ∧ s.job i2 = some j2 ∧
      j1.result = some (.ok ()) ∧ j2.result = some (.ok ()) ∧ j1.todo = [] ∧ j2.todo = [] ∧
      s.files.read path1 = some c ∧ readTokenSet c = .error .unwrapNone := by
  obtain ⟨st1, ⟨n1, t1⟩, f1, g1, r1, e1⟩ := convert_stats hm1 hs1 h1 hb hts
  obtain ⟨st2, ⟨n2, t2⟩, f2, g2, r2, e2⟩ := convert_stats hm2 hs2 h2 hb hts
  simp only [List.cons.injEq, Prod.mk.injEq, and_true] at e1 e2
  obtain ⟨p1, rfl⟩ := e1
  obtain ⟨p2, rfl⟩ := e2
  have hp : path1 = path2 := p1.trans p2.symm
  clear p1 p2
  subst hp
  refine ⟨rfl, ?_⟩
  rcases Nat.lt_or_gt_of_ne hne with hlt | hlt
  · obtain ⟨s, j1, j2, a1, a2, a3, a4, a5, a6, a7, a8⟩ := C128_torn prog d i2 i1 hi.symm m2 m1 _ _ hp2 hp1 path1 _ _ [] [] h2 h1
    exact ⟨s, j2, j1, _, a1, a3, a2, a5, a4, a7, a6, a8,
      C128_unreadable m2 m1 hr2 hr1 st2 st1 g2 g1 r2 r1 n2 n1 t2 t1 f2 f1 hlt⟩
  · obtain ⟨s, j1, j2, a1, a2, a3, a4, a5, a6, a7, a8⟩ := C128_torn prog d i1 i2 hi m1 m2 _ _ hp1 hp2 path1 _ _ [] [] h1 h2
    exact ⟨s, j1, j2, _, a1, a2, a3, a4, a5, a6, a7, a8,
      C128_unreadable m1 m2 hr1 hr2 st1 st2 g1 g2 r1 r2 n1 n2 t1 t2 f1 f2 hlt⟩

/-! ### Examples -/

-- the hypotheses of C128_process are met, and three runs can be started
example : ∃ s, Together.Steps (copies 3 aMachine (.process "data".toList "out".toList)) (Together.fresh someFiles) s ∧
    (∃ i j, s.job i = some j ∧ j.result ≠ none) ∧ ∀ i j, s.job i = some j → j.todo = [] := by
  obtain ⟨out, _, h2, _⟩ := C60_process aMachine (by rfl) someFiles "data".toList "out".toList
    ['a', 'b', '\n'] (by rfl) (by decide) rfl
  obtain ⟨c, hc⟩ := calls_exist [("out".toList, utf8Encode out)]
  have s0 : Together.Steps (copies 3 aMachine (.process "data".toList "out".toList)) (Together.fresh someFiles) _ := .refl
  have s1 := s0.tail (.start 2 (result := some (.ok ())) rfl rfl ((h2 _).2 rfl) hc)
  have s2 := steps_trans s1 (steps_calls (prog := copies 3 aMachine (.process "data".toList "out".toList)) (i := 2)
    (j := ⟨some (.ok ()), [("out".toList, utf8Encode out)], [], c⟩) (a := c) (b := []) rfl (by simp))
  refine ⟨_, s2, ⟨2, _, rfl, Option.some_ne_none _⟩, ?_⟩
  intro i j hj
  by_cases e : i = 2
  · subst e
    simp only [if_true] at hj
    have := Option.some.inj hj
    subst this
    rfl
  · simp only [if_neg e] at hj
    cases hj

/-- The bytes of the file for some statistics. -/
def fileOf (st : TokenStats) : Bytes :=
  match statsFile aMachine st with
  | .ok f => utf8Encode f.2
  | .error _ => []

-- the hypotheses of C128_unreadable are met
example : ∃ (m : Machine) (text1 text2 : Text), RatioText m.ratio ∧
    Fits64 (TokenStats.new Example.smallHuff (some 1000)) ∧ Fits64 (TokenStats.new Example.smallHuff none) ∧
    statsFile m (TokenStats.new Example.smallHuff (some 1000)) = .ok (Example.smallHuff.name ++ ".json".toList, text1) ∧
    statsFile m (TokenStats.new Example.smallHuff none) = .ok (Example.smallHuff.name ++ ".json".toList, text2) ∧
    (utf8Encode text2).length < (utf8Encode text1).length := by
  have hf1 : Fits64 (TokenStats.new Example.smallHuff (some 1000)) :=
    ⟨by decide, by decide, by decide, fun n h => by have := Option.some.inj h; subst this; decide⟩
  have hf2 : Fits64 (TokenStats.new Example.smallHuff none) :=
    ⟨by decide, by decide, by decide, fun n h => by cases h⟩
  have hr : RatioText aMachine.ratio := fun _ _ => .inl rfl
  have hs := Example.smallHuff_regular.inRange
  obtain ⟨v1, t1, g1, g2, _⟩ := C52_file_is_json aMachine hr _ hf1 hs
  obtain ⟨v2, t2, g3, g4, _⟩ := C52_file_is_json aMachine hr _ hf2 hs
  refine ⟨aMachine, t1, t2, hr, hf1, hf2, g2, g4, ?_⟩
  have e1 : utf8Encode t1 = fileOf (TokenStats.new Example.smallHuff (some 1000)) := by unfold fileOf; rw [g2]
  have e2 : utf8Encode t2 = fileOf (TokenStats.new Example.smallHuff none) := by unfold fileOf; rw [g4]
  rw [e1, e2]
  decide +kernel

theorem renderObj_hole (A : List (Text × Json)) (k : Text) (B : List (Text × Json)) : ∀ f, ∃ P Q : Text, ∀ j : Json,
    Json.renderObj f (A ++ (k, j) :: B) = P ++ (j.render ++ Q) := by
  induction A with
  | nil =>
    intro f
    refine ⟨(if f then [] else [',']) ++ (Json.renderStr k ++ [':']), Json.renderObj false B, fun j => ?_⟩
    simp [Json.renderObj]
  | cons a A ih =>
    intro f
    obtain ⟨P, Q, h⟩ := ih false
    refine ⟨(if f then [] else [',']) ++ (Json.renderStr a.1 ++ (':' :: (a.2.render ++ P))), Q, fun j => ?_⟩
    obtain ⟨a1, a2⟩ := a
    simp only [List.cons_append, Json.renderObj, h, List.append_assoc]

/-- The number of bytes of a value. -/
def jsonBytes (j : Json) : Nat := (utf8Encode j.render).length

theorem jsonBytes_hole (A : List (Text × Json)) (k : Text) (B : List (Text × Json)) : ∃ c, ∀ j : Json,
    jsonBytes (.obj (A ++ (k, j) :: B)) = c + jsonBytes j := by
  obtain ⟨P, Q, h⟩ := renderObj_hole A k B true
  refine ⟨(utf8Encode ('{' :: P)).length + (utf8Encode Q).length, fun j => ?_⟩
  unfold jsonBytes
  rw [Json.render, h]
  have : '{' :: (P ++ (j.render ++ Q)) = ('{' :: P) ++ (j.render ++ Q) := rfl
  rw [this, utf8Encode_append, utf8Encode_append, List.length_append, List.length_append]
  omega

theorem jsonBytes_nat (n : Nat) : 1 ≤ jsonBytes (.num (n : Int)) := by
  obtain ⟨c, r, h, _⟩ := Json.toDigits_head n
  have e : (Json.num (n : Int)).render = c :: r := by rw [Json.render]; exact h
  unfold jsonBytes
  rw [e]
  have : utf8Encode (c :: r) = utf8Encode [c] ++ utf8Encode r := by rw [← utf8Encode_append]; rfl
  rw [this, List.length_append]
  have : 1 ≤ (utf8Encode [c]).length := by
    simp only [utf8Encode, List.flatMap_cons, List.flatMap_nil, List.append_nil]
    have := String.utf8EncodeChar_ne_nil (c := c)
    exact List.length_pos_iff.2 this
  omega

/-- A file with statistics of data of eleven bytes is longer than one with statistics of no data. -/
theorem longer_file (ts : TokenSet) (hs : SeqsInRange ts) (st1 st2 : TokenStats) (h1 : st1.tokenSet = ts)
    (h2 : st2.tokenSet = ts) (hn : st1.ntokens = st2.ntokens) (i1 : st1.initialSize = some 0)
    (i2 : st2.initialSize = some 11) (c1 : st1.scannedBytes = 0) (t1 : st1.totalTokens = 0) :
    (fileOf st1).length < (fileOf st2).length := by
  have shape : ∃ c, ∀ st : TokenStats, st.tokenSet = ts → (fileOf st).length = c +
      jsonBytes (.obj ((match st.initialSize with
        | some s => [("bytes_per_token".toList, aMachine.ratio s st.totalTokens), ("initial_size".toList, Json.num s)]
        | none => []) ++
        [("ntokens".toList, Json.num st.ntokens), ("scanned_bytes".toList, Json.num st.scannedBytes),
          ("total_tokens".toList, Json.num st.totalTokens)])) := by
    obtain ⟨l, hl⟩ : ∃ l, jsonOf ts = .obj l := ⟨_, rfl⟩
    obtain ⟨c, hc⟩ := jsonBytes_hole (l.takeWhile (fun kv => kv.1 != "tokens".toList)) "stats".toList
      (l.dropWhile (fun kv => kv.1 != "tokens".toList))
    refine ⟨c, fun st e => ?_⟩
    unfold fileOf statsFile TokenStats.toJson
    rw [e, toJson_eq ts hs, hl]
    simp only [R.ok_bind]
    exact hc _
  obtain ⟨c, hc⟩ := shape
  rw [hc st1 h1, hc st2 h2, i1, i2, c1, t1, hn]
  have hr : ∀ a b, aMachine.ratio a b = .null := fun _ _ => rfl
  simp only [hr]
  obtain ⟨k1, e1⟩ := jsonBytes_hole [("bytes_per_token".toList, .null)] "initial_size".toList
    [("ntokens".toList, .num st2.ntokens), ("scanned_bytes".toList, .num (0 : Nat)), ("total_tokens".toList, .num (0 : Nat))]
  obtain ⟨k2, e2⟩ := jsonBytes_hole [("bytes_per_token".toList, .null), ("initial_size".toList, .num (11 : Nat)),
    ("ntokens".toList, .num st2.ntokens)] "scanned_bytes".toList [("total_tokens".toList, .num (0 : Nat))]
  obtain ⟨k3, e3⟩ := jsonBytes_hole [("bytes_per_token".toList, .null), ("initial_size".toList, .num (11 : Nat)),
    ("ntokens".toList, .num st2.ntokens), ("scanned_bytes".toList, .num st2.scannedBytes)] "total_tokens".toList []
  have a1 := e1 (.num (0 : Nat))
  have a2 := e1 (.num (11 : Nat))
  have a3 := e2 (.num (0 : Nat))
  have a4 := e2 (.num st2.scannedBytes)
  have a5 := e3 (.num (0 : Nat))
  have a6 := e3 (.num st2.totalTokens)
  have z : jsonBytes (.num (0 : Nat)) = 1 := by decide +kernel
  have z' : jsonBytes (.num (11 : Nat)) = 2 := by decide +kernel
  have n1 := jsonBytes_nat st2.scannedBytes
  have n2 := jsonBytes_nat st2.totalTokens
  simp only [List.cons_append, List.nil_append] at *
  omega

/-- Files: a set, no data, and eleven bytes of data. -/
def twoData : Files :=
  ⟨fun p => if p = "t".toList then
      some (utf8Encode (listedValue noA ⟨[97], List.replicate 2 0⟩).render) else
    if p = "d1".toList then some [] else some (List.replicate 11 97),
    fun _ => true⟩

theorem twoData_small (data : Text) (raw : Bytes) (hd : twoData.read data = some raw) (h1 : raw.length ≤ 11) :
    SmallEnough aMachine twoData (.convert data none "t".toList "dir".toList) := by
  intro b ts raw' bytes g1 g2 g3
  have := Option.some.inj g1
  subst this
  have := Except.ok.inj ((noA_reads 2).symm.trans g2)
  subst this
  cases g3 with
  | raw h =>
    have e : raw' = raw := Option.some.inj (h.symm.trans hd)
    subst e
    refine ⟨by omega, ?_, 2, by decide, by omega, ?_⟩
    · show (noA.map Token.str).length < 2 ^ 64
      rw [List.length_map, noA_length]; decide
    · intro q hq
      have : q = ⟨[97], List.replicate 2 0⟩ := List.mem_singleton.1 hq
      subst this
      decide

theorem twoData_converts (data : Text) (raw : Bytes) (hd : twoData.read data = some raw) (h1 : raw.length ≤ 11)
    (h2 : ∀ b ∈ raw, b < 128) : ∃ st s, s.flatten = raw ∧ (∀ x ∈ s, x ≠ []) ∧
      tokenizeFileSync (noASet 2) s (some raw.length) = .ok st ∧
      Exec aMachine twoData (.convert data none "t".toList "dir".toList)
        (.ok (), [(fileIn "dir".toList ((noASet 2).name ++ ".json".toList), fileOf st)]) := by
  obtain ⟨v, g1, g2⟩ := readJson_of (d := twoData) (path := "t".toList) rfl (noA_reads 2)
  obtain ⟨_, s, hs, hfl⟩ := C25_ascii_exact_partial raw h2 (2 ^ 24) (by decide) (fun _ => 2 ^ 24)
  obtain ⟨st, ht⟩ := sync_exists (noA_tokenizable 2) (noA_inRange 2) s (some raw.length)
  obtain ⟨_, _, _, _, _, hsh, _, _⟩ := sync_inv (noA_inRange 2) ht
  obtain ⟨w, _, w2, _⟩ := toJson_stats_ok aMachine (st := st) (by rw [hsh.tokenSet]; exact noA_inRange 2)
  have hcc : ConvertCommand aMachine raw none v (statsFile aMachine st) :=
    .write (data := raw) g2 rfl (.ok hs (.sync (by
      show raw.length < 1 <<< 25
      exact Nat.lt_of_le_of_lt h1 (by decide)) ht))
  have hfo : fileOf st = utf8Encode w.render := by unfold fileOf; rw [w2]
  rw [w2] at hcc
  have h := Exec.convert (m := aMachine) (d := twoData) (data := data) (processed := none)
    (inputTokens := "t".toList) (tokensDir := "dir".toList) g1 (openFile_iff.2 hd) (file := none) (fun ts hts => by
      have := Except.ok.inj (g2.symm.trans hts)
      subst this
      rfl) hcc
  rw [attempt, if_pos (by simp [twoData])] at h
  refine ⟨st, s, hfl, (fileSampler_facts hs).2.1, ht, ?_⟩
  rw [hfo]
  simpa only [inDir, List.map_cons, List.map_nil, joinPath_eq, hsh.tokenSet] using h

-- the hypotheses of C128_convert are met
example : ∃ b ts path1 path2 b1 b2, twoData.read "t".toList = some b ∧ readTokenSet b = .ok ts ∧
    SmallEnough aMachine twoData (.convert "d1".toList none "t".toList "dir".toList) ∧
    SmallEnough aMachine twoData (.convert "d2".toList none "t".toList "dir".toList) ∧
    Exec aMachine twoData (.convert "d1".toList none "t".toList "dir".toList) (.ok (), [(path1, b1)]) ∧
    Exec aMachine twoData (.convert "d2".toList none "t".toList "dir".toList) (.ok (), [(path2, b2)]) ∧
    b1.length ≠ b2.length := by
  obtain ⟨st1, s1, f1, n1, t1, h1⟩ := twoData_converts "d1".toList [] rfl (by decide) (by simp)
  obtain ⟨st2, s2, f2, n2, t2, h2⟩ := twoData_converts "d2".toList (List.replicate 11 97) rfl (by decide) (by decide)
  have e : s1 = [] := by
    cases s1 with
    | nil => rfl
    | cons x s1 =>
      rw [List.flatten_cons, List.append_eq_nil_iff] at f1
      exact absurd f1.1 (n1 x (by simp))
  subst e
  obtain ⟨_, _, _, _, _, hsh1, i1, _⟩ := sync_inv (noA_inRange 2) t1
  obtain ⟨_, _, _, _, _, hsh2, i2, _⟩ := sync_inv (noA_inRange 2) t2
  obtain ⟨_, c1, _, _, _, o1⟩ := C05_accounting _ (noA_inRange 2) _ _ _ t1
  refine ⟨_, _, _, _, _, _, rfl, noA_reads 2, twoData_small _ _ rfl (by decide), twoData_small _ _ rfl (by decide),
    h1, h2, ?_⟩
  have := longer_file (noASet 2) (noA_inRange 2) st1 st2 hsh1.tokenSet hsh2.tokenSet
    (by unfold TokenStats.ntokens; rw [hsh1.tokenSet, hsh2.tokenSet]) (by rw [i1]; rfl) (by rw [i2]; rfl) (by rw [c1]; rfl) (by rw [o1]; rfl)
  omega

/-- Two texts. -/
def twoTexts : Files :=
  ⟨fun f => if f = ['d', '1'] then some (utf8Encode ['a', 'b', '\n']) else
    if f = ['d', '2'] then some (utf8Encode ['a', '\n']) else none, fun _ => true⟩

-- two runs of `process` on different data, with the same output: both succeed, and the output is of neither
example : ∃ s j1 j2, Together.Steps (fun i => if i = 0 then some (aMachine, .process ['d', '1'] ['o']) else
      if i = 1 then some (aMachine, .process ['d', '2'] ['o']) else none) (Together.fresh twoTexts) s ∧
    s.job 0 = some j1 ∧ s.job 1 = some j2 ∧ j1.result = some (.ok ()) ∧ j2.result = some (.ok ()) ∧
    j1.todo = [] ∧ j2.todo = [] ∧
    s.files.read ['o'] = some (utf8Encode ['a', '\x16', '\n', '\n']) := by
  obtain ⟨o1, h1, e1, _⟩ := C60_process aMachine (by rfl) twoTexts ['d', '1'] ['o']
    ['a', 'b', '\n'] rfl (by decide) rfl
  obtain ⟨o2, h2, e2, _⟩ := C60_process aMachine (by rfl) twoTexts ['d', '2'] ['o']
    ['a', '\n'] (by rfl) (by decide) rfl
  have g1 : o1 = ['a', 'b', '\x16', '\n'] := Except.ok.inj (h1.symm.trans rfl)
  have g2 : o2 = ['a', '\x16', '\n'] := Except.ok.inj (h2.symm.trans rfl)
  subst g1 g2
  exact C128_torn _ twoTexts 0 1 (by decide) aMachine aMachine (.process ['d', '1'] ['o'])
    (.process ['d', '2'] ['o']) rfl rfl ['o'] _ _ [] [] ((e1 _).2 rfl) ((e2 _).2 rfl)

end Tokens.Props
