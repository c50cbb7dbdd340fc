import Verif.Proofs.Disk
import Verif.Props.Cuts

/-!
# Property C122: samples are not too small

Read together with `Verif/Spec/Sampling.lean` and `Verif/Spec/Cuts.lean`.  `memSlices`, `fileSlices`: the
pieces that the samplers cut the data into; `Optimized`: the part of the command `optimize` after reading
its inputs.
-/

namespace Tokens.Props
open Tokens Spec TokenSet Batch Input Main Optimize

set_option linter.unusedVariables false

/-- Pieces of which any two neighbours have `C` bytes together are not many. -/
theorem few_pieces {C : Nat} (hC : 0 < C) : ∀ l : List Bytes,
    (∀ pre x y post, l = pre ++ x :: y :: post → C ≤ x.length + y.length) →
    l.length ≤ 2 * (l.flatten.length / C) + 1
  | [], _ => by simp
  | [_], _ => by simp
  | x :: y :: l, h => by
    have ih := few_pieces hC l (fun pre a b post e => h (x :: y :: pre) a b post (by rw [e]; rfl))
    have h0 := h [] x y l rfl
    have : l.flatten.length / C + 1 ≤ (x :: y :: l).flatten.length / C := by
      rw [Nat.le_div_iff_mul_le hC, Nat.add_mul]
      have := Nat.div_mul_le_self l.flatten.length C
      simp only [List.flatten_cons, List.length_append]
      omega
    simp only [List.length_cons]
    omega

/-- **C122** (memory).  Any two neighbouring samples have more bytes together than the chunk size: cutting
at the ends of paragraphs does not produce many small samples. -/
theorem C122_memory_pairs (m : MemorySampler) (hc : 0 < m.chunkSize) (slices : List Bytes)
    (h : memSlices m (m.data.length + 1) 0 = .ok slices) (pre : List Bytes) (x y : Bytes)
    (post : List Bytes) (e : slices = pre ++ x :: y :: post) : m.chunkSize < x.length + y.length := by
  obtain ⟨slices', h1, h2, h3, h4⟩ := memSlices_spec m hc (m.data.length + 1) 0 (by omega) (by omega)
  have := Except.ok.inj (h1.symm.trans h)
  subst this
  simp only [List.drop_zero] at h2
  have hy := List.length_pos_iff.2 (h3 y (by rw [e]; simp)).1
  have hx := List.length_pos_iff.2 (h3 x (by rw [e]; simp)).1
  have hlen : pre.flatten.length + x.length + y.length + post.flatten.length = m.data.length := by
    rw [← h2, e]; simp; omega
  have c1 := h4 pre x (y :: post) e
  have c2 := h4 (pre ++ [x]) y post (by rw [e]; simp)
  simp only [Nat.zero_add, List.flatten_append, List.flatten_cons, List.flatten_nil, List.append_nil,
    List.length_append] at c1 c2
  rcases c2 with ⟨_, g⟩ | ⟨_, g⟩ | ⟨g1, _, g2⟩
  · rcases c1 with ⟨_, k⟩ | ⟨k, _⟩ | ⟨k, _⟩ <;> omega
  · rcases c1 with ⟨_, k⟩ | ⟨_, k⟩ | ⟨_, _, k⟩
    · omega
    · by_contra hlt
      have := k.2.2.2 _ (by omega) (by omega) g.2.2.1
      omega
    · omega
  · omega

/-- **C122** (file).  The same for a file read in full buffers; the last two samples may have exactly the
chunk size together. -/
theorem C122_file_pairs (file : Bytes) (size : Nat) (hs : 0 < size) (short : Nat → Nat)
    (hshort : ∀ i, size ≤ short i) (slices : List Bytes)
    (h : fileSlices file size short (file.length + 1) 0 0 = .ok slices) (pre : List Bytes) (x y : Bytes)
    (post : List Bytes) (e : slices = pre ++ x :: y :: post) : size ≤ x.length + y.length := by
  obtain ⟨slices', h1, h2, h3, h4⟩ := fileSlices_spec file size short hs (file.length + 1) 0 0 (by omega)
    (by omega)
  have := Except.ok.inj (h1.symm.trans h)
  subst this
  simp only [List.drop_zero] at h2
  have hy := List.length_pos_iff.2 (h3 y (by rw [e]; simp)).1
  have hx := List.length_pos_iff.2 (h3 x (by rw [e]; simp)).1
  have hlen : pre.flatten.length + x.length + y.length + post.flatten.length = file.length := by
    rw [← h2, e]; simp; omega
  have c1 := h4 hshort pre x (y :: post) e
  have c2 := h4 hshort (pre ++ [x]) y post (by rw [e]; simp)
  simp only [Nat.zero_add, List.flatten_append, List.flatten_cons, List.flatten_nil, List.append_nil,
    List.length_append] at c1 c2
  generalize pre.flatten.length = p at *
  have hd : ∀ q, 2 ≤ q → BlankEnd (file.drop (p + x.length)) q → BlankEnd (file.drop p) (x.length + q) := by
    rintro q hq ⟨a, b, c⟩
    rw [List.getElem?_drop] at b c
    refine ⟨by omega, ?_, ?_⟩
    · rw [List.getElem?_drop]
      have : p + (x.length + q - 2) = p + x.length + (q - 2) := by omega
      rw [this]; exact b
    · rw [List.getElem?_drop]
      have : p + (x.length + q - 1) = p + x.length + (q - 1) := by omega
      rw [this]; exact c
  unfold GoodCut at c1 c2
  simp only [List.length_drop, Nat.zero_add] at c1 c2
  have key : LastBlankEnd (file.drop p) 0 size x.length →
      LastBlankEnd (file.drop (p + x.length)) 0 size y.length → size ≤ x.length + y.length := by
    intro k g
    by_contra hlt
    have := k.2.2.2 (x.length + y.length) (by omega) (by omega) (hd _ g.2.2.1.1 g.2.2.1)
    omega
  rcases c1 with (⟨_, k⟩ | ⟨k0, k⟩ | ⟨k0, _, k⟩) | ⟨k0, k⟩
  · omega
  · rcases c2 with (⟨_, g⟩ | ⟨g0, g⟩ | ⟨g0, _, g⟩) | ⟨g0, g⟩
    · omega
    · exact key k g
    · omega
    · exact key k g
  · omega
  · rcases c2 with (⟨_, g⟩ | ⟨g0, g⟩ | ⟨g0, _, g⟩) | ⟨g0, g⟩
    · omega
    · exact key k g
    · omega
    · exact key k g

/-- **C122** (number of samples, memory).  At most two for each chunk size, and one more. -/
theorem C122_memory_few (m : MemorySampler) (hc : 0 < m.chunkSize) (sampler : SamplerData)
    (h : memorySampler m = .ok sampler) :
    sampler.samples.length ≤ 2 * (m.data.length / m.chunkSize) + 1 := by
  obtain ⟨slices, h1, h2, h3⟩ := C23_memory_partition m hc
  have h1 := h1 _ (Nat.lt_succ_self _)
  unfold memorySampler at h
  rw [h1, R.ok_bind] at h
  have h := (Except.ok.inj h).symm
  subst h
  have := few_pieces hc slices
    (fun pre x y post e => Nat.le_of_lt (C122_memory_pairs m hc slices h1 pre x y post e))
  rw [h2] at this
  simpa using this

/-- **C122** (number of samples, file).  The same for a file read in full buffers. -/
theorem C122_file_few (file : Bytes) (size : Nat) (hs : 0 < size) (short : Nat → Nat)
    (hshort : ∀ i, size ≤ short i) (sampler : SamplerData) (h : fileSampler file size short = .ok sampler) :
    sampler.samples.length ≤ 2 * (file.length / size) + 1 := by
  obtain ⟨slices, h1, h2, h3⟩ := C24_file_partition file size hs short
  unfold fileSampler at h
  rw [h1, R.ok_bind] at h
  cases hv : fromVecs slices with
  | error e => rw [hv] at h; cases h
  | ok l =>
    rw [hv, R.ok_bind] at h
    have h := (Except.ok.inj h).symm
    subst h
    have := few_pieces hs slices (C122_file_pairs file size hs short hshort slices h1)
    rw [h2] at this
    rcases fromVecs_ok_iff slices with ⟨_, g⟩ | ⟨_, e, g⟩
    · have := Except.ok.inj (g.symm.trans hv)
      subst this
      assumption
    · rw [g] at hv; cases hv

theorem whole_close {env : Env} (he : EnvOk env) {ty : TokenType} {p : Processing} {ntokens : Nat}
    {input : Option TokenSet} (hi : GoodInput ty p ntokens input) {st : TokenStats} {w : World}
    (h : OptimizeTokenset env ntokens p ty input (.ok st) w) {data : Bytes}
    (hd : env.sampler.samples.flatten = data) {c : Nat} (hc : env.sampler.samples.length ≤ c + 1) {M : Nat}
    (hM : PiecesUpTo st.tokenSet M) :
    ∃ whole, tokenizeFileSync st.tokenSet [data] none = .ok whole ∧ whole.totalTokens ≤ st.totalTokens ∧
      st.totalTokens ≤ whole.totalTokens + c * (M * tokensPerByte ty) := by
  obtain ⟨st', e, hr, hw⟩ := optimize_good he hi h
  have e := Except.ok.inj e
  subst e
  obtain ⟨full, h1, h2⟩ := hr.stats
  have hu := Tokens.Family.usable hw.family
  obtain ⟨whole, h3⟩ := sync_exists hu.accepted hu.inRange [env.sampler.samples.flatten] none
  obtain ⟨g1, g2⟩ := C72_cuts_cost_little _ hu.inRange M _ hM (family_bytesWithin hw.family) _ _ _ _ _ h1 h3
  have ht : st.totalTokens = full.totalTokens := by rw [h2]; rfl
  rw [hd] at h3
  refine ⟨whole, h3, by omega, ?_⟩
  rw [ht, ← hr.type]
  exact g2.trans (Nat.add_le_add_left (Nat.mul_le_mul_right _ (by omega)) _)

/-- **C122** (`optimize`, raw data below 16 GiB).  For UTF-8 text in which every MiB contains a blank line
the number of tokens reported is that of the uncut data, or exceeds it by what two cuts for each MiB can
cost (see C72). -/
theorem C122_optimize_small (m : Machine) (hm : MachineOk m) (data : Bytes) (ntokens : Nat) (p : Processing)
    (ty : TokenType) (rawSize : Nat) (hraw : rawSize < 2 ^ 34) (input : Option TokenSet)
    (hi : GoodInput ty p ntokens input) (hv : validUtf8 data = true)
    (hblank : ∀ p, p + 2 ^ 20 < data.length → ∃ q, p < q ∧ q ≤ p + 2 ^ 20 ∧ BlankEnd data q)
    (st : TokenStats) (saved : List (Text × Text))
    (h : Optimized m data ntokens p ty rawSize input none (.ok st) saved) (M : Nat)
    (hM : PiecesUpTo st.tokenSet M) :
    ∃ whole, tokenizeFileSync st.tokenSet [data] none = .ok whole ∧ whole.totalTokens ≤ st.totalTokens ∧
      st.totalTokens ≤ whole.totalTokens + 2 * (data.length / 2 ^ 20) * (M * tokensPerByte ty) := by
  cases h with
  | memory hsize he h =>
    rename_i env w
    obtain ⟨env', h1, h2, _⟩ := memoryEnv_ok hm data (some rawSize)
    have := Except.ok.inj (h1.symm.trans he)
    subst this
    obtain ⟨samples, k1, k2, _⟩ := C25_memory_exact_partial ⟨data, 1 <<< 20⟩ (by norm_num) hv
      (by simpa using hblank)
    have k3 := C122_memory_few ⟨data, 1 <<< 20⟩ (by norm_num) _ k1
    unfold memoryEnv at he
    rw [k1, R.ok_bind] at he
    have he := (Except.ok.inj he).symm
    subst he
    exact whole_close h2 hi h k2 (by simpa using k3) hM
  | file hsize => exact absurd (by simpa using hraw) hsize

/-- **C122** (`optimize`, raw data of 16 GiB or more).  There the cuts are two for each 16 MiB, for any
data. -/
theorem C122_optimize_large (m : Machine) (hm : MachineOk m) (data : Bytes) (ntokens : Nat) (p : Processing)
    (ty : TokenType) (rawSize : Nat) (hraw : 2 ^ 34 ≤ rawSize) (input : Option TokenSet)
    (hi : GoodInput ty p ntokens input) (st : TokenStats) (saved : List (Text × Text))
    (h : Optimized m data ntokens p ty rawSize input none (.ok st) saved) (M : Nat)
    (hM : PiecesUpTo st.tokenSet M) :
    ∃ whole, tokenizeFileSync st.tokenSet [data] none = .ok whole ∧ whole.totalTokens ≤ st.totalTokens ∧
      st.totalTokens ≤ whole.totalTokens + 2 * (data.length / 2 ^ 24) * (M * tokensPerByte ty) := by
  cases h with
  | memory hsize he h =>
    have : rawSize < 2 ^ 34 := by simpa using hsize
    omega
  | file hsize he h =>
    rename_i sd w
    obtain ⟨k1, k2, k3⟩ := fileSampler_facts he
    have k4 := C122_file_few data (1 <<< 24) (by norm_num) _ (fun _ => Nat.le_refl _) sd he
    exact whole_close ⟨hm.threads, .inr k2⟩ hi h k1 (by simpa using k4) hM

/-- **C122** (`convert-tokens`).  When the file is read in full buffers: two cuts for each 16 MiB. -/
theorem C122_convert (ts : TokenSet) (hf : Family ts) (data : Bytes) (short : Nat → Nat)
    (hshort : ∀ i, 2 ^ 24 ≤ short i) (sd : SamplerData) (hsd : fileSampler data (2 ^ 24) short = .ok sd)
    (n : Option Nat) (nthreads : Nat) (hN : 0 < nthreads) (st : TokenStats)
    (h : TokenizeFile ts sd n nthreads st) (M : Nat) (hM : PiecesUpTo ts M) :
    ∃ whole, tokenizeFileSync ts [data] none = .ok whole ∧ whole.totalTokens ≤ st.totalTokens ∧
      st.totalTokens ≤ whole.totalTokens + 2 * (data.length / 2 ^ 24) * (M * tokensPerByte ts.tokenType) := by
  have hu := Tokens.Family.usable hf
  obtain ⟨k1, k2, k3⟩ := fileSampler_facts (by simpa using hsd)
  have k4 := C122_file_few data (2 ^ 24) (by norm_num) _ hshort sd hsd
  have h0 := C07_tokenize_file ts hu.inRange sd n nthreads hN st h
  obtain ⟨whole, h3⟩ := sync_exists hu.accepted hu.inRange [sd.samples.flatten] none
  obtain ⟨g1, g2⟩ := C72_cuts_cost_little _ hu.inRange M _ hM (family_bytesWithin hf) _ _ _ _ _ h0 h3
  rw [k1] at h3
  exact ⟨whole, h3, g1, g2.trans (Nat.add_le_add_left (Nat.mul_le_mul_right _ (by omega)) _)⟩

/-! ## Examples -/

-- "a\n\nb\n\nccc" in chunks of 5 bytes: 3 + 3 bytes, then the rest; the first and the second sample
-- have 6 bytes together
example : memSlices ⟨[97, 10, 10, 98, 10, 10, 99, 99, 99], 5⟩ 10 0 =
    .ok [[97, 10, 10], [98, 10, 10], [99, 99, 99]] := rfl

-- "a\n\nbb" from a file in buffers of 5 bytes: the two samples have exactly 5 bytes together
example : fileSlices [97, 10, 10, 98, 98] 5 (fun _ => 5) 6 0 0 = .ok [[97, 10, 10], [98, 98]] := rfl

-- every "MiB" of a short text contains a blank line, and there are results, for both sizes of raw data
example (m : Machine) (hm : MachineOk m) (raw : Nat) (hraw : raw = 1000 ∨ raw = 2 ^ 35) :
    ∃ data st saved M, data = [97, 10, 10, 98, 98] ∧ validUtf8 data = true ∧
      (∀ p, p + 2 ^ 20 < data.length → ∃ q, p < q ∧ q ≤ p + 2 ^ 20 ∧ BlankEnd data q) ∧
      Optimized m data 300 .raw .bytesHuff raw none none (.ok st) saved ∧ PiecesUpTo st.tokenSet M := by
  have hM : ∀ ts : TokenSet, ∃ M, PiecesUpTo ts M := by
    intro ts
    refine ⟨((pieceStrings ts).map List.length).sum, fun s hs => ?_⟩
    exact List.le_sum_of_mem (List.mem_map_of_mem hs)
  have hi : GoodInput .bytesHuff .raw 300 none := (by decide : 3 ≤ 300)
  have key : ∃ st saved, Optimized m [97, 10, 10, 98, 98] 300 .raw .bytesHuff raw none none (.ok st) saved := by
    rcases hraw with rfl | rfl
    · obtain ⟨env, h1, h2, _⟩ := memoryEnv_ok hm [97, 10, 10, 98, 98] (some 1000)
      obtain ⟨st, w, h⟩ := optimize_exists h2 hi
      exact ⟨st, w.saved, .memory (by simp) h1 h⟩
    · obtain ⟨_, samples, k1, _⟩ := C25_ascii_exact_partial [97, 10, 10, 98, 98] (by decide) (1 <<< 24)
        (by simp) (fun _ => 1 <<< 24)
      obtain ⟨st, w, h⟩ := optimize_exists
        (env := ⟨⟨samples, List.length [97, 10, 10, 98, 98]⟩, some (2 ^ 35), m.nthreads⟩)
        ⟨hm.threads, .inr (fileSampler_facts k1).2.1⟩ hi
      exact ⟨st, w.saved, .file (by simp) k1 h⟩
  obtain ⟨st, saved, h⟩ := key
  obtain ⟨M, hM⟩ := hM st.tokenSet
  exact ⟨_, st, saved, M, rfl, by decide, fun p hp => by simp at hp; omega, h, hM⟩

end Tokens.Props
