import Verif.Props.Reorder
import Verif.Props.Convert
import Verif.Proofs.Resume

/-!
# Property C108: the order of the tokens in an input file

Read together with `SameSet` (`Verif/Spec/Views.lean`).
-/

namespace Tokens.Props
open Tokens Spec TokenSet Optimize Batch Main Input Disk

set_option linter.unusedVariables false

theorem workable_same {ty : TokenType} {p : Processing} {ntokens : Nat} {a b : TokenSet} (h : SameSet a b)
    (ha : Workable ty p ntokens a) : Workable ty p ntokens b := by
  obtain ⟨Fam, lo, hi, B, hl, hback, _⟩ := workable_behaves ha
  have hu := Tokens.Family.usable (B.family hl.fam)
  exact hback b ⟨B.keep hl.fam (usable_sameSet hu h.symm (inRange_sameSet h hu.inRange))
    (shrinks_sameSet h.symm) h.symm.header (sameSet_short h.symm), by rw [← h.tokens.length_eq]; exact hl.size⟩

theorem workable_never_fails {env : Env} (he : EnvOk env) {ty : TokenType} {p : Processing} {ntokens : Nat}
    {a : TokenSet} (ha : Workable ty p ntokens a) :
    (∃ st, TokenizeFile a env.sampler env.initialSize env.nthreads st) ∧ ¬ TokenizeFails a env := by
  have hu := Tokens.Family.usable ha.family
  exact ⟨tokenize_exists he hu.accepted hu.inRange, tokenize_fails_not he hu.accepted hu.inRange⟩

theorem increasing_reordered {m : Machine} (hm : MachineOk m) {file : Bytes} {ntokens : Nat} {p : Processing}
    {ty : TokenType} {n : Option Nat} {size : Nat} {a b : TokenSet} (h : SameSet a b)
    (ha : Workable ty p ntokens a) {r : R TokenStats} {saved : List (Text × Text)}
    (hi : Increasing m file ntokens p ty n size (some a) r saved) :
    Increasing m file ntokens p ty n size (some b) r saved := by
  have hb := workable_same h ha
  have start : ∀ {env : Env}, sampleEnv m file size n = .ok env →
      ∀ t, some b = some t → ∃ st, TokenizeFile t env.sampler n m.nthreads st := by
    intro env hs t ht
    have := Option.some.inj ht
    subst this
    obtain ⟨env', h1, h2, h3, h4⟩ := sampleEnv_ok hm file size n
    have := Except.ok.inj (h1.symm.trans hs)
    subst this
    have := (workable_never_fails h2 hb).1
    rw [h3, h4] at this
    exact this
  cases hi with
  | exhausted h1 => exact .exhausted h1
  | sample h1 h2 => exact .sample h1 h2
  | before h1 h2 h3 => exact absurd h3 (workable_never_fails (sampled_ok hm h2) ha).2
  | optimize h1 h2 _ h4 => exact .optimize h1 h2 (start h2) ((C108_optimizer _ ty p ntokens a b h ha _ _).1 h4)
  | full h1 h2 _ h4 h5 => exact .full h1 h2 (start h2) ((C108_optimizer _ ty p ntokens a b h ha _ _).1 h4) h5
  | stop h1 h2 _ h4 h5 h6 => exact .stop h1 h2 (start h2) ((C108_optimizer _ ty p ntokens a b h ha _ _).1 h4) h5 h6
  | again h1 h2 _ h4 h5 h6 h7 =>
    exact .again h1 h2 (start h2) ((C108_optimizer _ ty p ntokens a b h ha _ _).1 h4) h5 h6 h7

theorem optimized_reordered {m : Machine} (hm : MachineOk m) {data : Bytes} {ntokens : Nat} {p : Processing}
    {ty : TokenType} {rawSize : Nat} {a b : TokenSet} (h : SameSet a b) (ha : Workable ty p ntokens a)
    {minSize : Option Nat} {r : R TokenStats} {saved : List (Text × Text)}
    (ho : Optimized m data ntokens p ty rawSize (some a) minSize r saved) :
    Optimized m data ntokens p ty rawSize (some b) minSize r saved := by
  cases ho with
  | increasing h1 => exact .increasing (increasing_reordered hm h ha h1)
  | memory h1 h2 h3 => exact .memory h1 h2 ((C108_optimizer _ ty p ntokens a b h ha _ _).1 h3)
  | memoryFail h1 h2 => exact .memoryFail h1 h2
  | file h1 h2 h3 => exact .file h1 h2 ((C108_optimizer _ ty p ntokens a b h ha _ _).1 h3)
  | fileFail h1 h2 => exact .fileFail h1 h2

theorem exec_reordered {m : Machine} (hm : MachineOk m) {d : Files} {data : Text} {processed : Option Text}
    {dir : Text} {p : Processing} {ty : TokenType} {ntokens : Nat} {f f' : Text} {minSize : Option Nat}
    {x x' : Bytes} {a b : TokenSet} (hb : d.read f = some x) (hb' : d.read f' = some x')
    (ht : readTokenSet x = .ok a) (ht' : readTokenSet x' = .ok b) (h : SameSet a b)
    (ha : Workable ty p ntokens a) {o : R Unit × List (Text × Bytes)}
    (he : Exec m d (.optimize data processed dir p ty ntokens (some f) minSize) o) :
    Exec m d (.optimize data processed dir p ty ntokens (some f') minSize) o := by
  obtain ⟨v, g1, g2⟩ := readJson_of hb ht
  obtain ⟨w, k1, k2⟩ := readJson_of hb' ht'
  have gi : openInput d (some f) = .ok (some v) := by simp only [openInput, g1, R.ok_bind]
  have ki : openInput d (some f') = .ok (some w) := by simp only [openInput, k1, R.ok_bind]
  have e1 : readInput (some v) = .ok (some a) := by simp only [readInput, g2, R.ok_bind]
  have e2 : readInput (some w) = .ok (some b) := by simp only [readInput, k2, R.ok_bind]
  cases he with
  | optimizeOpen h =>
    refine .optimizeOpen ?_
    rcases h with h | h | h
    · exact .inl h
    · exact .inr (.inl h)
    · rw [gi] at h; cases h
  | optimizePrepare hr hp hi h =>
    have := Except.ok.inj (gi.symm.trans hi)
    subst this
    rcases h with h | h
    · exact .optimizePrepare hr hp ki (.inl h)
    · rw [e1] at h; cases h
  | optimizeFail hr hp hi hd ht ho hf =>
    have := Except.ok.inj (gi.symm.trans hi)
    subst this
    have := Except.ok.inj (e1.symm.trans ht)
    subst this
    exact .optimizeFail hr hp ki hd e2 (optimized_reordered hm h ha ho) hf
  | optimize hr hp hi hd ht ho hf =>
    have := Except.ok.inj (gi.symm.trans hi)
    subst this
    have := Except.ok.inj (e1.symm.trans ht)
    subst this
    exact .optimize hr hp ki hd e2 (optimized_reordered hm h ha ho) hf

/-- **C108** (the command).  Optimizing from two files that list the same set in different orders, of a set
that the optimizer can work on, has exactly the same outcomes and writes exactly the same files. -/
theorem C108_command (m : Machine) (hm : MachineOk m) (d : Files) (data : Text) (processed : Option Text)
    (dir : Text) (p : Processing) (ty : TokenType) (ntokens : Nat) (minSize : Option Nat) (f f' : Text)
    (x x' : Bytes) (a b : TokenSet) (hx : d.read f = some x) (hx' : d.read f' = some x')
    (ha : readTokenSet x = .ok a) (hb : readTokenSet x' = .ok b) (h : SameSet a b)
    (hw : Workable ty p ntokens a) (o : R Unit × List (Text × Bytes)) :
    Exec m d (.optimize data processed dir p ty ntokens (some f) minSize) o ↔
      Exec m d (.optimize data processed dir p ty ntokens (some f') minSize) o :=
  ⟨exec_reordered hm hx hx' ha hb h hw, exec_reordered hm hx' hx hb ha h.symm (workable_same h hw)⟩

/-- The bytes, and some longer tokens in the order given. -/
def bytesAnd (extra : List Bytes) : TokenSet :=
  { nExt := 0, tokenType := .bytes, processing := .raw, splitParagraphs := false,
    tokens := (byteStrings ++ extra).map Token.str, sequences := [] }

theorem bytesAnd_str (extra : List Bytes) : strTokens (bytesAnd extra) = byteStrings ++ extra :=
  filterMap_str _

theorem bytesAnd_nodup {extra : List Bytes} (hn : extra.Nodup) (hl : ∀ s ∈ extra, 2 ≤ s.length) :
    (byteStrings ++ extra).Nodup := by
  refine List.nodup_append.2 ⟨byteStrings_nodup, hn, ?_⟩
  intro a ha b hb e
  obtain ⟨c, rfl⟩ := mem_byteStrings.1 ha
  have := hl b hb
  rw [← e] at this
  simp at this

theorem bytesAnd_nonempty {extra : List Bytes} (hl : ∀ s ∈ extra, 2 ≤ s.length) :
    ∀ s ∈ byteStrings ++ extra, s ≠ [] := by
  intro s hs
  rcases List.mem_append.1 hs with h | h
  · obtain ⟨b, rfl⟩ := mem_byteStrings.1 h; simp
  · intro e; have := hl s h; simp [e] at this

theorem bytesAnd_family {extra : List Bytes} (hn : extra.Nodup) (hl : ∀ s ∈ extra, 2 ≤ s.length) :
    BytesFamily (bytesAnd extra) where
  accepted := by
    have e : pieceStrings (bytesAnd extra) = byteStrings ++ extra := by
      unfold pieceStrings; rw [bytesAnd_str]; exact List.append_nil _
    exact ⟨by rw [e]; exact bytesAnd_nodup hn hl, by rw [e]; exact bytesAnd_nonempty hl,
      fun b => by rw [e]; exact List.mem_append_left _ (mem_byteStrings.2 ⟨b, rfl⟩)⟩
  inRange := by intro q hq; simp [bytesAnd] at hq
  distinct := by
    show ((byteStrings ++ extra).map Token.str).Nodup
    rw [List.Nodup, List.pairwise_map]
    exact (bytesAnd_nodup hn hl).imp (fun hne hab => hne (by simpa using hab))
  few := (by decide : (0 : Nat) < 256)
  exts := by
    intro n
    show Token.ext n ∈ (byteStrings ++ extra).map Token.str ↔ n.toNat < 0
    simp
  type := rfl
  noExt := rfl
  noSeq := rfl

theorem bytesAnd_regular {extra : List Bytes} (hn : extra.Nodup) (hl : ∀ s ∈ extra, 2 ≤ s.length) :
    Regular (bytesAnd extra) where
  tokens := by rw [bytesAnd_str]; rfl
  few := (by decide : (0 : Nat) < 256)
  required := by intro n h; simp [bytesAnd, requiredExts] at h; exact h
  distinct := by rw [bytesAnd_str]; exact bytesAnd_nodup hn hl
  nonempty := by rw [bytesAnd_str]; exact bytesAnd_nonempty hl
  inRange := (bytesAnd_family hn hl).inRange
  long := by intro q hq; simp [bytesAnd] at hq

theorem bytesAnd_file {extra : List Bytes} (hn : extra.Nodup) (hl : ∀ s ∈ extra, 2 ≤ s.length) :
    ∃ b, readTokenSet b = .ok (bytesAnd extra) := by
  have hr := bytesAnd_regular hn hl
  obtain ⟨v, h1, h2⟩ := C17_roundtrip_partial _ hr (.inl rfl)
  have hs : ∃ f, savedFile (bytesAnd extra) = .ok f := by
    unfold savedFile; rw [h1]; exact ⟨_, rfl⟩
  obtain ⟨f, hf⟩ := hs
  obtain ⟨v', g1, g2⟩ := (written_saved hr.inRange hf).2.whole
  have := Except.ok.inj (h1.symm.trans g1)
  subst this
  exact ⟨_, g2.trans h2⟩

theorem bytesAnd_size (extra : List Bytes) : (bytesAnd extra).tokens.length = 256 + extra.length := by
  have h := bytesSet_size .raw
  have e : (bytesSet .raw).tokens.length = byteStrings.length := List.length_map _
  show ((byteStrings ++ extra).map Token.str).length = _
  rw [List.length_map, List.length_append, ← e, h]

theorem meaning_none {a b : TokenSet} (ha : a.sequences = []) (hb : b.sequences = []) :
    (meaning a).Perm (meaning b) := by
  unfold meaning
  rw [ha, hb]
  exact .refl _

-- two files that list the same set in different orders
example : ∃ (d : Files) (x x' : Bytes) (a b : TokenSet), d.read ['a'] = some x ∧ d.read ['b'] = some x' ∧
    readTokenSet x = .ok a ∧ readTokenSet x' = .ok b ∧ a ≠ b ∧ SameSet a b ∧ Workable .bytes .raw 300 a := by
  have hn1 : ([[97, 98], [98, 99]] : List Bytes).Nodup := by decide
  have hn2 : ([[98, 99], [97, 98]] : List Bytes).Nodup := by decide
  have hl1 : ∀ s ∈ ([[97, 98], [98, 99]] : List Bytes), 2 ≤ s.length := by decide
  have hl2 : ∀ s ∈ ([[98, 99], [97, 98]] : List Bytes), 2 ≤ s.length := by decide
  obtain ⟨x, hx⟩ := bytesAnd_file hn1 hl1
  obtain ⟨y, hy⟩ := bytesAnd_file hn2 hl2
  refine ⟨⟨fun p => if p = ['a'] then some x else some y, fun _ => true⟩, x, y, _, _, by simp,
    by simp, hx, hy, ?_, ⟨⟨rfl, rfl, rfl, rfl⟩, ?_, meaning_none rfl rfl⟩, ?_⟩
  · intro e
    have := congrArg strTokens e
    rw [bytesAnd_str, bytesAnd_str] at this
    have := List.append_cancel_left this
    simp at this
  · exact ((List.Perm.swap [98, 99] [97, 98] []).append_left byteStrings).map Token.str
  · have hs := bytesAnd_size [[97, 98], [98, 99]]
    have h2 : ([[97, 98], [98, 99]] : List Bytes).length = 2 := rfl
    rw [h2] at hs
    exact ⟨.inr (.inl (bytesAnd_family hn1 hl1)), rfl, rfl, by omega,
      fun _ h => by simp [bitsParams] at h, fun h => by cases h⟩

end Tokens.Props
