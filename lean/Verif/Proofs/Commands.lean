import Verif.Proofs.Regular
import Verif.Props.Optimize
import Verif.Props.Sampler
import Verif.Props.Json
import Verif.Props.Processing
import Verif.Spec.Commands

/-! The commands. -/

set_option linter.unusedSimpArgs false
set_option linter.unusedVariables false

namespace Tokens
open Spec TokenSet Optimize Batch Main Input Props

theorem memoryEnv_ok {m : Machine} (hm : MachineOk m) (data : Bytes) (n : Option Nat) :
    ∃ env, memoryEnv m data n = .ok env ∧ EnvOk env ∧ env.initialSize = n ∧ env.nthreads = m.nthreads ∧
      env.sampler.totalSize = data.length := by
  obtain ⟨slices, h1, h2, h3⟩ := C23_memory_partition ⟨data, 1 <<< 20⟩ (by decide : 0 < 1 <<< 20)
  refine ⟨⟨⟨slices.map fromBytes, data.length⟩, n, m.nthreads⟩, ?_, ⟨hm.threads, .inr ?_⟩,
    rfl, rfl, rfl⟩
  · unfold memoryEnv memorySampler
    rw [h1 _ (by simp)]
    rfl
  · intro x hx
    obtain ⟨y, hy, rfl⟩ := List.mem_map.1 hx
    exact lossy_ne_nil (h3 y hy).1

theorem sampleEnv_ok {m : Machine} (hm : MachineOk m) (file : Bytes) (size : Nat)
    (n : Option Nat) : ∃ env, sampleEnv m file size n = .ok env ∧ EnvOk env ∧ env.initialSize = n ∧
      env.nthreads = m.nthreads := by
  have hl := sampleLoop_eq (lessShare size file.length) (splitLines file) (fun l h => (splitLines_isLine file l h).1) [] [] 0
  obtain ⟨env, h1, h2, h3, h4, _⟩ := memoryEnv_ok hm
    (selectParas (lessShare size file.length) (paraSplit (splitLines file) []) [] 0) n
  refine ⟨env, ?_, h2, h3, h4⟩
  unfold sampleEnv sampleFromFile
  rw [hl]
  exact h1

/-- One optimization. -/
theorem optimize_good {env : Env} (he : EnvOk env) {ty : TokenType} {p : Processing} {ntokens : Nat}
    {input : Option TokenSet} (hi : GoodInput ty p ntokens input) {r : R TokenStats} {w : World}
    (h : OptimizeTokenset env ntokens p ty input r w) :
    ∃ st, r = .ok st ∧ Result env ty p ntokens st w ∧ Workable ty p ntokens st.tokenSet := by
  cases h with
  | run h1 h2 =>
    cases input with
    | none =>
      obtain ⟨ts, e, hg, hw, hs⟩ := start_run he hi h1
      cases e
      obtain ⟨st, k1, k2, k3, _⟩ := result_of env he ty p ntokens _ hg.work _ _ hw hs _ h2
      exact ⟨st, k1, k2, k3⟩
    | some ts =>
      cases h1
      obtain ⟨st, k1, k2, k3, _⟩ := result_of env he ty p ntokens _ hi _ _ (reached_new env []) rfl _ h2
      exact ⟨st, k1, k2, k3⟩
  | startFail h1 =>
    cases input with
    | none =>
      obtain ⟨ts, e, _⟩ := start_run he hi h1
      cases e
    | some ts => cases h1

theorem optimize_exists {env : Env} (he : EnvOk env) {ty : TokenType} {p : Processing} {ntokens : Nat}
    {input : Option TokenSet} (hi : GoodInput ty p ntokens input) :
    ∃ st w, OptimizeTokenset env ntokens p ty input (.ok st) w := by
  cases input with
  | none => exact optimize_ends env he ty p ntokens hi
  | some ts =>
    obtain ⟨st, w', h2⟩ := C37_terminates env he ty p ntokens ts hi _ (reached_new env [])
    exact ⟨st, w', .run .pure h2⟩

theorem fromVecs_eq {l l' : List Bytes} (h : fromVecs l = .ok l') : l' = l := by
  rcases fromVecs_ok_iff l with ⟨_, g⟩ | ⟨_, e, g⟩
  · exact Except.ok.inj (h.symm.trans g)
  · rw [g] at h; cases h

theorem fileSampler_facts {file : Bytes} {short : Nat → Nat} {sd : SamplerData}
    (h : fileSampler file (1 <<< 24) short = .ok sd) :
    sd.samples.flatten = file ∧ (∀ x ∈ sd.samples, x ≠ []) ∧ sd.totalSize = file.length := by
  obtain ⟨slices, h1, h2, h3⟩ := C24_file_partition file (1 <<< 24) (by decide) short
  unfold fileSampler at h
  rw [h1, R.ok_bind] at h
  cases hv : fromVecs slices with
  | error e => rw [hv] at h; cases h
  | ok l =>
    rw [hv, R.ok_bind] at h
    have := fromVecs_eq hv
    subst this
    have := Except.ok.inj h
    subst this
    exact ⟨h2, fun x hx => (h3 x hx).1, rfl⟩

/-- Tokenizing a whole file with a set the tokenizer accepts: the statistics of the file, or a sampler
that panics. -/
theorem tokenized_good {m : Machine} (hm : MachineOk m) {file : Bytes} {ts : TokenSet} (ht : Tokenizable ts)
    (hr : SeqsInRange ts) {n : Option Nat} {r : R TokenStats} (h : Tokenized m file ts n r) :
    (∃ st, r = .ok st ∧ st.tokenSet = ts ∧ FullStats file n st) ∨
    ∃ short e, fileSampler file (2 ^ 24) short = .error e ∧ r = .error e := by
  cases h with
  | ok hs h2 =>
    have h3 := C07_tokenize_file _ hr _ n _ hm.threads _ h2
    obtain ⟨_, _, _, _, _, hsh, _, _⟩ := sync_inv hr h3
    have e := hsh.tokenSet
    refine .inl ⟨_, rfl, e, _, _, hs, (fileSampler_facts hs).1, ?_⟩
    rw [e]; exact h3
  | sampler hs => exact .inr ⟨_, _, hs, rfl⟩
  | tokenizer hs hf =>
    exact absurd hf (tokenize_fails_not ⟨hm.threads, .inr (fileSampler_facts hs).2.1⟩ ht hr)

theorem tokenized_exists {m : Machine} (hm : MachineOk m) (file : Bytes) {ts : TokenSet}
    (ht : Tokenizable ts) (hr : SeqsInRange ts) (n : Option Nat) :
    ∃ r, Tokenized m file ts n r := by
  cases hs : fileSampler file (1 <<< 24) (fun _ => 0) with
  | error e => exact ⟨_, .sampler hs⟩
  | ok sd =>
    obtain ⟨st, h⟩ := tokenize_exists (env := ⟨sd, n, m.nthreads⟩)
      ⟨hm.threads, .inr (fileSampler_facts hs).2.1⟩ ht hr
    exact ⟨_, .ok hs h⟩

theorem processFile_ok (db : CharTables) (text : List Char) : ∃ out, Processing.processFile db text = .ok out := by
  unfold Processing.processFile
  generalize Processing.lines text = ls
  generalize ([] : List Char) = w
  induction ls generalizing w with
  | nil => exact ⟨w, rfl⟩
  | cons l ls ih =>
    obtain ⟨items, _, _, h3, _⟩ := C22_process_is_documented db l
    obtain ⟨out, h⟩ := ih (w ++ rewritten db items ++ ['\n'])
    exact ⟨out, by rw [Processing.processLines, h3, R.ok_bind]; exact h⟩


theorem toJson_stats_ok (m : Machine) {st : TokenStats} (hr : SeqsInRange st.tokenSet) :
    ∃ v, st.toJson m.ratio = .ok v ∧ statsFile m st = .ok (st.tokenSet.name ++ ".json".toList, v.render) ∧
      fromJson v = fromJson (jsonOf st.tokenSet) := by
  obtain ⟨v, w, h1, h2, h3⟩ := C17_stats_file m.ratio st hr
  refine ⟨v, h1, by unfold statsFile; rw [h1]; rfl, ?_⟩
  rw [toJson_eq _ hr] at h2
  rw [h3, ← Except.ok.inj h2]

theorem family_flag {ts : TokenSet} (h : Family ts) (b : Bool) :
    Family { ts with splitParagraphs := b } := by
  have hu : ∀ {t : TokenSet}, Usable t → Usable { t with splitParagraphs := b } :=
    fun h => ⟨⟨h.accepted.nodup, h.accepted.nonempty, h.accepted.bytes⟩, h.inRange, h.distinct, h.few, h.exts⟩
  rcases h with h | h | h
  · exact .inl { toUsable := hu h.toUsable, params := h.params }
  · exact .inr (.inl { toUsable := hu h.toUsable, type := h.type, noExt := h.noExt, noSeq := h.noSeq })
  · exact .inr (.inr { toUsable := hu h.toUsable, type := h.type, codes := h.codes, separate := h.separate, short := h.short })

theorem workable_flag {ty : TokenType} {p : Processing} {n : Nat} {ts : TokenSet}
    (h : Workable ty p n ts) (b : Bool) : Workable ty p n { ts with splitParagraphs := b } :=
  ⟨family_flag h.family b, h.type, h.processing, h.size, h.bits, h.huff⟩

end Tokens
