import Verif.Proofs.Share
import Verif.Proofs.Lossy
import Verif.Props.Batch

/-!
# Properties C23 - C28, C45, C46, C55, C56: cutting the input into samples

Read together with `Verif/Spec/Sampling.lean`.
-/

namespace Tokens.Props
open Tokens Spec Input Batch

/-- **C23**.  Iterating an in-memory sampler with a positive chunk size ends, within one call more
than there are bytes, and the slices are non-empty, at most `chunkSize` long and concatenate to the
data. -/
theorem C23_memory_partition (m : MemorySampler) (hc : 0 < m.chunkSize) :
    ∃ slices, (∀ fuel, m.data.length < fuel → memSlices m fuel 0 = .ok slices) ∧
      slices.flatten = m.data ∧ ∀ x ∈ slices, x ≠ [] ∧ x.length ≤ m.chunkSize := by
  obtain ⟨slices, h1, h2, h3, _⟩ := memSlices_spec m hc (m.data.length + 1) 0 (by omega) (by omega)
  refine ⟨slices, ?_, by simpa using h2, h3⟩
  intro fuel hf
  rw [← h1]
  -- more calls do not change the result
  have mono : ∀ (f g pos : Nat), f ≤ g → pos ≤ m.data.length → m.data.length - pos < f →
      memSlices m g pos = memSlices m f pos := by
    intro f
    induction f with
    | zero => intro g pos _ _ h; omega
    | succ f ih =>
      intro g pos hfg hpos h
      obtain ⟨g, rfl⟩ : ∃ g', g = g' + 1 := ⟨g - 1, by omega⟩
      rw [memSlices, memSlices]
      by_cases hlt : pos < m.data.length
      · obtain ⟨stop, e1, e2, e3, e4, e5, _⟩ := memNext_spec m pos hlt
        rw [e1]
        simp only [R.ok_bind]
        have := e5 hc
        rw [ih g stop (by omega) e3 (by omega)]
      · have : memNext m pos = .ok none := by unfold memNext; rw [if_neg hlt]
        rw [this]
        rfl
  exact mono _ _ 0 hf (by omega) (by omega)

/-- **C23** (chunk size 0).  Then iteration of non-empty data never ends: no number of calls
suffices. -/
theorem C23_chunk_size_zero (m : MemorySampler) (hc : m.chunkSize = 0) (h : m.data ≠ []) :
    ∀ fuel, memSlices m fuel 0 = .error .fuel := memSlices_zero m hc h

example : memSlices ⟨[97, 98, 10, 10, 99, 100], 5⟩ 7 0 = .ok [[97, 98, 10, 10], [99, 100]] := by
  decide +kernel

/-- **C24**.  However short the reads of the operating system are (`short i` bounds the `i`-th one),
the buffers of the file sampler are non-empty, at most `size` long and concatenate to the file, and
the iteration ends. -/
theorem C24_file_partition (file : Bytes) (size : Nat) (hs : 0 < size) (short : Nat → Nat) :
    ∃ slices, fileSlices file size short (file.length + 1) 0 0 = .ok slices ∧
      slices.flatten = file ∧ ∀ x ∈ slices, x ≠ [] ∧ x.length ≤ size := by
  obtain ⟨slices, h1, h2, h3, _⟩ := fileSlices_spec file size short hs (file.length + 1) 0 0
    (by omega) (by omega)
  exact ⟨slices, h1, by simpa using h2, h3⟩

-- the read schedule does change the samples
example : fileSlices [97, 98, 10, 10, 99, 100] 5 (fun _ => 5) 7 0 0 = .ok [[97, 98, 10, 10], [99, 100]] ∧
    fileSlices [97, 98, 10, 10, 99, 100] 5 (fun i => if i = 0 then 1 else 5) 7 0 0 =
      .ok [[97], [98, 10, 10], [99, 100]] := by decide +kernel

/-- **C25** (exact condition, memory).  For valid UTF-8 data the samples carry exactly the bytes of
the slices if and only if every slice starts with the first byte of a character. -/
theorem C25_memory_iff (m : MemorySampler) (hc : 0 < m.chunkSize) (hv : validUtf8 m.data = true) :
    ∃ slices sampler, memSlices m (m.data.length + 1) 0 = .ok slices ∧
      memorySampler m = .ok sampler ∧ sampler.totalSize = m.data.length ∧
      sampler.samples.length = slices.length ∧
      (sampler.samples = slices ↔ ∀ x ∈ slices, ∀ b, x.head? = some b → b < 128 ∨ 192 ≤ b) := by
  obtain ⟨slices, h1, h2, h3⟩ := C23_memory_partition m hc
  refine ⟨slices, { samples := slices.map fromBytes, totalSize := m.data.length },
    h1 _ (by omega), ?_, rfl, by simp, ?_⟩
  · unfold memorySampler; rw [h1 _ (by omega)]; rfl
  have key := slices_valid_iff slices (by rw [h2]; exact hv) (fun x hx => (h3 x hx).1)
  have e : (slices.map fromBytes = slices) ↔ ∀ x ∈ slices, validUtf8 x = true := by
    rw [map_eq_self_iff]
    constructor
    · intro h x hx
      have := h x hx
      exact (lossy_eq_iff x).1 this
    · intro h x hx
      exact (lossy_eq_iff x).2 (h x hx)
  rw [e, key]
  simp [isCharStart]

/-- **C25** (exact condition, file).  For a valid UTF-8 file and any short reads, the file sampler
delivers exactly its buffers if every buffer starts with the first byte of a character, and panics
otherwise. -/
theorem C25_file_iff (file : Bytes) (size : Nat) (hs : 0 < size) (short : Nat → Nat)
    (hv : validUtf8 file = true) :
    ∃ slices, fileSlices file size short (file.length + 1) 0 0 = .ok slices ∧
      ((∀ x ∈ slices, ∀ b, x.head? = some b → b < 128 ∨ 192 ≤ b) →
        fileSampler file size short = .ok ⟨slices, file.length⟩) ∧
      ((¬ ∀ x ∈ slices, ∀ b, x.head? = some b → b < 128 ∨ 192 ≤ b) →
        ∃ e, fileSampler file size short = .error e) := by
  obtain ⟨slices, h1, h2, h3⟩ := C24_file_partition file size hs short
  have key := slices_valid_iff slices (by rw [h2]; exact hv) (fun x hx => (h3 x hx).1)
  simp only [isCharStart, Bool.or_eq_true, decide_eq_true_eq, ge_iff_le] at key
  refine ⟨slices, h1, ?_, ?_⟩
  · intro h
    have := key.2 h
    rcases fromVecs_ok_iff slices with ⟨_, g⟩ | ⟨g, _⟩
    · unfold fileSampler; rw [h1]; simp only [R.ok_bind]; rw [g]; rfl
    · exact absurd this g
  · intro h
    rcases fromVecs_ok_iff slices with ⟨g, _⟩ | ⟨_, e, g⟩
    · exact absurd (key.1 g) h
    · refine ⟨e, ?_⟩
      unfold fileSampler; rw [h1]; simp only [R.ok_bind]; rw [g]; rfl

/-- **C25** (a sufficient condition).  If every window of `chunkSize` bytes that does not reach the
end of the data contains a blank line, sampling valid UTF-8 changes nothing.  Missing: windows
without a blank line; see `C25_fails_memory`. -/
theorem C25_memory_exact_partial (m : MemorySampler) (hc : 0 < m.chunkSize)
    (hv : validUtf8 m.data = true)
    (hblank : ∀ p, p + m.chunkSize < m.data.length →
      ∃ q, p < q ∧ q ≤ p + m.chunkSize ∧ BlankEnd m.data q) :
    ∃ samples, memorySampler m = .ok ⟨samples, m.data.length⟩ ∧
      samples.flatten = m.data ∧ ∀ x ∈ samples, validUtf8 x = true := by
  obtain ⟨slices, h1, h2, h3, h4⟩ := memSlices_spec m hc (m.data.length + 1) 0 (by omega) (by omega)
  simp only [List.drop_zero] at h2
  have hval : ∀ x ∈ slices, validUtf8 x = true := by
    refine slices_valid_of_cuts hv h2 (fun x hx => (h3 x hx).1) ?_
    intro pre x post e hpost
    have hlen : pre.flatten.length + x.length < m.data.length := by
      rw [← h2, e]
      cases post with
      | nil => exact absurd rfl hpost
      | cons y ys =>
        have := List.length_pos_iff.2 (h3 y (by rw [e]; simp)).1
        simp; omega
    rcases h4 pre x post e with ⟨_, g⟩ | ⟨_, g⟩ | ⟨g1, g2, _⟩
    · omega
    · simpa using g.2.2.1
    · obtain ⟨q, q1, q2, q3⟩ := hblank (0 + pre.flatten.length) g1
      exact absurd q3 (g2 q q1 q2)
  refine ⟨slices, ?_, h2, hval⟩
  unfold memorySampler
  rw [h1]
  simp only [R.ok_bind]
  rw [(map_eq_self_iff (f := fromBytes)).2 (fun x hx => (lossy_eq_iff x).2 (hval x hx))]

-- "é\n\né\n\n" with windows of 5 bytes
example : validUtf8 [0xC3, 0xA9, 10, 10, 0xC3, 0xA9, 10, 10] = true ∧
    ∀ p, p + 5 < 8 → ∃ q, p < q ∧ q ≤ p + 5 ∧ BlankEnd [0xC3, 0xA9, 10, 10, 0xC3, 0xA9, 10, 10] q := by
  refine ⟨by decide +kernel, fun p hp => ⟨4, by omega, by omega, by simp [BlankEnd]⟩⟩

/-- **C25** (a second sufficient condition).  ASCII data is never changed, by either sampler. -/
theorem C25_ascii_exact_partial (data : Bytes) (h : ∀ b ∈ data, b < 128)
    (size : Nat) (hs : 0 < size) (short : Nat → Nat) :
    (∃ samples, memorySampler ⟨data, size⟩ = .ok ⟨samples, data.length⟩ ∧ samples.flatten = data) ∧
    ∃ samples, fileSampler data size short = .ok ⟨samples, data.length⟩ ∧ samples.flatten = data := by
  have hv := ascii_valid h
  constructor
  · obtain ⟨slices, h1, h2, h3⟩ := C23_memory_partition ⟨data, size⟩ hs
    refine ⟨slices, ?_, h2⟩
    unfold memorySampler
    rw [h1 _ (by simp)]
    simp only [R.ok_bind]
    rw [map_eq_self_iff.2]
    intro x hx
    exact (lossy_eq_iff x).2 (ascii_valid (fun b hb => h b (by
      have h2 : slices.flatten = data := h2
      rw [← h2]; exact List.mem_flatten.2 ⟨x, hx, hb⟩)))
  · obtain ⟨slices, h1, h2, _⟩ := C25_file_iff data size hs short hv
    obtain ⟨slices', g1, g2, g3⟩ := C24_file_partition data size hs short
    rw [g1] at h1
    simp at h1
    subst h1
    refine ⟨slices', h2 ?_, g2⟩
    intro x hx b hb
    left
    refine h b ?_
    rw [← g2]
    exact List.mem_flatten.2 ⟨x, hx, List.mem_of_mem_head? hb⟩

/-- Data with a two-byte character across position `n + 1`: `n` letters and "é". -/
def splitChar (n : Nat) : Bytes := List.replicate n 97 ++ [0xC3, 0xA9]

theorem splitChar_valid (n : Nat) : validUtf8 (splitChar n) = true :=
  validUtf8_append (ascii_valid (by simp)) (by decide +kernel)

theorem splitChar_noBlank (n q : Nat) : ¬ BlankEnd (splitChar n) q := by
  rintro ⟨_, _, h⟩
  have : (10 : UInt8) ∈ splitChar n := List.mem_iff_getElem?.2 ⟨_, h⟩
  simp [splitChar] at this

/-- The second sample of `splitChar` starts in the middle of the character. -/
theorem splitChar_cut {n : Nat} {slices : List Bytes} (hf : slices.flatten = splitChar n)
    (hx : ∀ x rest, slices = x :: rest → x.length = n + 1) :
    ¬ ∀ x ∈ slices, ∀ b, x.head? = some b → b < 128 ∨ 192 ≤ b := by
  intro hall
  cases slices with
  | nil => simp [splitChar] at hf
  | cons x rest =>
    have hl := hx x rest rfl
    have hrest : rest.flatten = [0xA9] := by
      have := congrArg (List.drop (n + 1)) hf
      rw [List.flatten_cons, ← hl, List.drop_left] at this
      rw [this, hl, splitChar]
      simp [List.drop_append]
    have hex : ∃ y ∈ rest, y.head? = some 0xA9 := by
      clear hall hf hx hl
      induction rest with
      | nil => simp at hrest
      | cons y ys ih =>
        cases y with
        | nil => obtain ⟨z, h1, h2⟩ := ih (by simpa using hrest); exact ⟨z, by simp [h1], h2⟩
        | cons b bs =>
          simp at hrest
          exact ⟨b :: bs, by simp, by simp [hrest.1]⟩
    obtain ⟨y, h1, h2⟩ := hex
    have := hall y (by simp [h1]) _ h2
    revert this
    decide

/-- **C25** is violated: for every chunk size there is valid UTF-8 data whose samples differ from
their slices. -/
theorem C25_fails_memory (size : Nat)
    (hs : 0 < size) :
    ∃ data slices sampler, validUtf8 data = true ∧
      memSlices ⟨data, size⟩ (data.length + 1) 0 = .ok slices ∧
      memorySampler ⟨data, size⟩ = .ok sampler ∧ sampler.samples ≠ slices := by
  obtain ⟨n, rfl⟩ : ∃ n, size = n + 1 := ⟨size - 1, by omega⟩
  obtain ⟨slices, sampler, h1, h2, _, _, h3⟩ := C25_memory_iff ⟨splitChar n, n + 1⟩ hs
    (splitChar_valid n)
  refine ⟨splitChar n, slices, sampler, splitChar_valid n, h1, h2, ?_⟩
  rw [Ne, h3]
  obtain ⟨slices', g1, g2, g3, g4⟩ := memSlices_spec ⟨splitChar n, n + 1⟩ hs
    ((splitChar n).length + 1) 0 (by simp) (by simp)
  rw [g1] at h1
  simp at h1
  subst h1
  refine splitChar_cut (by simpa using g2) ?_
  intro x rest e
  have hlen : (splitChar n).length = n + 2 := by simp [splitChar]
  rcases g4 [] x rest e with ⟨g, _⟩ | ⟨_, g⟩ | ⟨_, _, g⟩
  · simp only [List.flatten_nil, List.length_nil] at g; omega
  · exact absurd g.2.2.1 (splitChar_noBlank n _)
  · simpa using g

/-- **C25** is violated by the file sampler too: for every sample size there is a valid UTF-8 file
on which it panics, without any short read. -/
theorem C25_fails_file (size : Nat) (hs : 0 < size) :
    ∃ file e, validUtf8 file = true ∧ fileSampler file size (fun _ => size) = .error e := by
  obtain ⟨n, rfl⟩ : ∃ n, size = n + 1 := ⟨size - 1, by omega⟩
  obtain ⟨slices, h1, _, h3⟩ := C25_file_iff (splitChar n) (n + 1) hs (fun _ => n + 1) (splitChar_valid n)
  refine ⟨splitChar n, ?_⟩
  obtain ⟨slices', g1, g2, g3, g4⟩ := fileSlices_spec (splitChar n) (n + 1) (fun _ => n + 1) hs
    ((splitChar n).length + 1) 0 0 (by simp) (by simp)
  rw [g1] at h1
  simp at h1
  subst h1
  obtain ⟨e, he⟩ := h3 (splitChar_cut (by simpa using g2) (by
    intro x rest e
    have hlen : (splitChar n).length = n + 2 := by simp [splitChar]
    rcases g4 (fun _ => Nat.le_refl _) [] x rest e with g | ⟨g, _⟩
    · simp only [List.flatten_nil, List.length_nil, Nat.zero_add, List.drop_zero] at g
      rcases g with ⟨g, _⟩ | ⟨_, g⟩ | ⟨_, _, g⟩
      · omega
      · exact absurd g.2.2.1 (splitChar_noBlank n _)
      · omega
    · simp only [List.flatten_nil, List.length_nil] at g; omega))
  exact ⟨e, splitChar_valid n, he⟩

/-- **C26** (`find_paragraph_end`).  It returns the last position up to `end_` just after a blank
line, or `end_` if there is none. -/
theorem C26_find_paragraph_end (data : Bytes) (end_ : Nat) (h : end_ ≤ data.length) :
    ∃ r, findParagraphEnd data end_ = .ok r ∧
      ((r ≤ end_ ∧ BlankEnd data r ∧ ∀ q, q ≤ end_ → BlankEnd data q → q ≤ r) ∨
       (r = end_ ∧ ∀ q, q ≤ end_ → ¬ BlankEnd data q)) := by
  obtain ⟨r, h1, h2, h3⟩ := findParagraphEnd_spec data end_ h
  refine ⟨r, h1, ?_⟩
  rcases h3 with h3 | h3
  · exact .inl ⟨h2, h3⟩
  · exact .inr h3

/-- **C26** (memory).  Every sample stops where `GoodCut` says: at the end of the data if its window
reaches it, else after the last blank line of the window, else after `chunkSize` bytes. -/
theorem C26_memory_cuts (m : MemorySampler) (hc : 0 < m.chunkSize) (slices : List Bytes)
    (hrun : memSlices m (m.data.length + 1) 0 = .ok slices) (pre : List Bytes) (x : Bytes)
    (post : List Bytes) (hs : slices = pre ++ x :: post) :
    GoodCut m.data m.chunkSize pre.flatten.length (pre.flatten.length + x.length) := by
  obtain ⟨slices', h1, _, _, h4⟩ := memSlices_spec m hc (m.data.length + 1) 0 (by omega) (by omega)
  rw [hrun] at h1
  simp at h1
  subst h1
  simpa using h4 pre x post hs

/-- **C26** (file, full reads).  The same for the file sampler, where a blank line counts only if
both newlines are in the part of the file not yet delivered, and where a blank line is also looked
for when the window ends exactly at the end of the file. -/
theorem C26_file_cuts (file : Bytes) (size : Nat) (hs : 0 < size) (short : Nat → Nat)
    (hfull : ∀ i, size ≤ short i) (slices : List Bytes)
    (hrun : fileSlices file size short (file.length + 1) 0 0 = .ok slices) (pre : List Bytes)
    (x : Bytes) (post : List Bytes) (he : slices = pre ++ x :: post) :
    GoodCut (file.drop pre.flatten.length) size 0 x.length ∨
    (file.length = pre.flatten.length + size ∧
      LastBlankEnd (file.drop pre.flatten.length) 0 size x.length) := by
  obtain ⟨slices', h1, _, _, h4⟩ := fileSlices_spec file size short hs (file.length + 1) 0 0
    (by omega) (by omega)
  rw [hrun] at h1
  simp at h1
  subst h1
  simpa using h4 hfull pre x post he

-- both kinds of cut occur: no blank line in the first window of 3 bytes, one in the second
example : memSlices ⟨[97, 98, 99, 10, 10, 97, 98], 3⟩ 8 0 = .ok [[97, 98, 99], [10, 10], [97, 98]] := by
  decide +kernel

/-- **C27** (the part that holds).  Every non-empty file has exactly one list of paragraphs, and the
sampled data is the concatenation, in order, of whole paragraphs other than the first.
Missing: non-empty result; see `C27_nonempty_iff` and `C27_fails_single_paragraph`. -/
theorem C27_whole_paragraphs_partial (file : Bytes) (hne : file ≠ []) (size chunkSize : Nat) :
    ∃ paras sel, Paragraphs file paras ∧ (∀ paras', Paragraphs file paras' → paras' = paras) ∧
      List.Sublist sel paras.tail ∧
      sampleFromFile file size chunkSize = .ok ⟨sel.flatten, chunkSize⟩ := by
  have hp := paragraphs_of_file file hne
  have hl := sampleLoop_eq (lessShare size file.length) (splitLines file)
    (fun l h => (splitLines_isLine file l h).1) [] [] 0
  generalize hps : paraSplit (splitLines file) [] = paras at *
  cases paras with
  | nil =>
    have := hp.concat
    simp at this
    exact absurd this.symm (by simpa using hne)
  | cons p ps =>
    rw [selectParas] at hl
    simp only [List.length_nil, lessShare_zero, Bool.false_eq_true, if_false] at hl
    obtain ⟨sel, h1, h2⟩ := selectParas_sublist (lessShare size file.length) ps [] (0 + p.length)
    refine ⟨p :: ps, sel, hp, fun q hq => paragraphs_unique hq hp, h1, ?_⟩
    unfold sampleFromFile
    rw [hl, h2]
    rfl

/-- **C27** (when the result is non-empty).  If a positive size is asked for, the sampled data is
non-empty exactly when the file has two paragraphs or more. -/
theorem C27_nonempty_iff (file : Bytes) (paras : List Bytes) (hp : Paragraphs file paras)
    (hne : file ≠ []) (size : Nat) (hsize : 0 < size) (chunkSize : Nat) :
    ∃ data, sampleFromFile file size chunkSize = .ok ⟨data, chunkSize⟩ ∧
      (data ≠ [] ↔ 2 ≤ paras.length) := by
  have hp' := paragraphs_of_file file hne
  have hl := sampleLoop_eq (lessShare size file.length) (splitLines file)
    (fun l h => (splitLines_isLine file l h).1) [] [] 0
  rw [← paragraphs_unique hp hp'] at hl
  refine ⟨selectParas (lessShare size file.length) paras [] 0, ?_, ?_⟩
  · unfold sampleFromFile; rw [hl]; rfl
  cases paras with
  | nil => have := hp.concat; simp at this; exact absurd this (by simpa using hne)
  | cons p ps =>
    rw [selectParas]
    simp only [List.length_nil, lessShare_zero, Bool.false_eq_true, if_false, Nat.zero_add]
    cases ps with
    | nil => simp [selectParas]
    | cons q qs =>
      have hpl := List.length_pos_iff.2 (hp.nonempty p (by simp))
      rw [selectParas]
      simp only [List.length_nil, lessShare_first hsize (List.length_pos_iff.2 hne) hpl, if_true,
        List.nil_append]
      have hpre := selectParas_prefix (lessShare size file.length) qs q (p.length + q.length)
      have hq := hp.nonempty q (by simp)
      obtain ⟨t, ht⟩ := hpre
      simp [← ht, hq]

/-- **C27** is violated: a file of one paragraph, for instance any text without a blank line, gives
no data, whatever size is asked for. -/
theorem C27_fails_single_paragraph (file : Bytes) (hp : Paragraphs file [file]) (hne : file ≠ [])
    (size chunkSize : Nat) : sampleFromFile file size chunkSize = .ok ⟨[], chunkSize⟩ := by
  obtain ⟨paras, sel, h1, h2, h3, h4⟩ := C27_whole_paragraphs_partial file hne size chunkSize
  rw [← h2 _ hp] at h3
  simp at h3
  subst h3
  simpa using h4

theorem example_paragraph : Paragraphs [97, 10, 98, 10] [[97, 10, 98, 10]] := by
  refine ⟨rfl, by simp, by simp, by simp, ?_⟩
  intro p hp
  simp at hp
  subst hp
  rintro ⟨u, x, v, h, hx⟩
  have hl := congrArg List.length h
  simp at hl
  match u, h, hl with
  | [], h, _ => simp at h
  | [_], h, _ => simp at h
  | _ :: _ :: _, _, hl => simp at hl; omega

example : sampleFromFile [97, 10, 98, 10] 3 8 = .ok ⟨[], 8⟩ :=
  C27_fails_single_paragraph _ example_paragraph (by simp) 3 8

/-- **C55**.  Asked for `size` bytes (at least one, at most the size of the file, which has at most 2^52
bytes) `sample_from_file` takes less than `size` plus the length `M` of the longest paragraph, and at
least `size` minus the share `size / file size` of `M + 1` bytes. -/
theorem C55_sample_size (file : Bytes) (paras : List Bytes) (hp : Paragraphs file paras) (M : Nat)
    (hM : ∀ p ∈ paras, p.length ≤ M) (size : Nat) (h0 : 0 < size) (h1 : size ≤ file.length)
    (h2 : file.length ≤ 2 ^ 52) (chunkSize : Nat) :
    ∃ data, sampleFromFile file size chunkSize = .ok ⟨data, chunkSize⟩ ∧ data.length < size + M ∧
      size * file.length ≤ data.length * file.length + size * (M + 1) := by
  have hpos : 0 < file.length := by omega
  have hp' := paragraphs_of_file file (List.length_pos_iff.1 hpos)
  have hl := sampleLoop_eq (lessShare size file.length) (splitLines file)
    (fun l h => (splitLines_isLine file l h).1) [] [] 0
  rw [← paragraphs_unique hp hp'] at hl
  obtain ⟨g1, g2⟩ := selectParas_size (less := lessShare size file.length) h0 h1
    (fun d r hd hr h => lessShare_true hpos (by omega) (by omega) (by omega) (by omega) h)
    (fun d r hd hr h0 h => lessShare_false hpos h1 h2 hd hr h0 h)
    paras hM [] 0 (by simp) (by rw [hp.concat]; simp) (by simp; omega) (by simp)
  refine ⟨_, ?_, g1, g2⟩
  unfold sampleFromFile
  rw [hl]
  rfl

/-- **C55** (equal paragraphs).  In particular, if a file of up to 2^52 bytes has no paragraph longer
than one hundredth of it, less one byte, the size taken is within one hundredth of the file of the size
asked for. -/
theorem C55_one_percent (file : Bytes) (paras : List Bytes) (hp : Paragraphs file paras)
    (hM : ∀ p ∈ paras, 100 * (p.length + 1) ≤ file.length) (size : Nat) (h0 : 0 < size)
    (h1 : size ≤ file.length) (h2 : file.length ≤ 2 ^ 52) (chunkSize : Nat) :
    ∃ data, sampleFromFile file size chunkSize = .ok ⟨data, chunkSize⟩ ∧
      100 * data.length ≤ 100 * size + file.length ∧ 100 * size ≤ 100 * data.length + size := by
  have h100 : 100 ≤ file.length := by
    have hpos : file ≠ [] := List.length_pos_iff.1 (by omega)
    cases paras with
    | nil => exact absurd hp.concat.symm (by simpa using hpos)
    | cons p ps => have := hM p (by simp); omega
  obtain ⟨data, e, g1, g2⟩ := C55_sample_size file paras hp (file.length / 100 - 1)
    (fun p h => by have := hM p h; omega) size h0 h1 h2 chunkSize
  refine ⟨data, e, by omega, ?_⟩
  have e1 : file.length / 100 - 1 + 1 = file.length / 100 := by omega
  rw [e1] at g2
  have hd : size * (file.length / 100) * 100 ≤ size * file.length := by
    rw [Nat.mul_assoc]
    exact Nat.mul_le_mul_left _ (Nat.div_mul_le_self _ _)
  have : (100 * size) * file.length ≤ (100 * data.length + size) * file.length := by
    have e2 : (100 * size) * file.length = 100 * (size * file.length) := by ring
    have e3 : (100 * data.length + size) * file.length =
        100 * (data.length * file.length) + size * file.length := by ring
    omega
  exact Nat.le_of_mul_le_mul_right this (by omega)

-- three paragraphs
example : Paragraphs [97, 10, 10, 98, 10, 10, 99] [[97, 10, 10], [98, 10, 10], [99]] := by
  have h := paragraphs_of_file [97, 10, 10, 98, 10, 10, 99] (by simp)
  have e : paraSplit (splitLines [97, 10, 10, 98, 10, 10, 99]) [] = [[97, 10, 10], [98, 10, 10], [99]] := by
    decide
  rwa [e] at h

/-- **C28**.  On any piece `p` of a valid UTF-8 text that contains a first byte of a character,
`extract_valid_utf8_slice` returns a contiguous part of `p` that is valid UTF-8 and at most 7 bytes
shorter. -/
theorem C28_extract (text : Text) (a p b : Bytes) (h : utf8Encode text = a ++ p ++ b)
    (hs : ∃ x ∈ p, x < 128 ∨ 192 ≤ x) :
    ∃ u q v, extractValidUtf8Slice p = .ok q ∧ p = u ++ q ++ v ∧ (∃ t, q = utf8Encode t) ∧
      p.length < q.length + 8 := by
  obtain ⟨x, hx, hx'⟩ := hs
  obtain ⟨u, q, v, h1, h2, h3, h4, h5⟩ := extract_spec text a p b h
    ⟨x, hx, by simpa [isCharStart] using hx'⟩
  refine ⟨u, q, v, h1, h2, validUtf8_iff.1 h3, ?_⟩
  have := congrArg List.length h2
  simp at this
  omega

/-- **C28** (panic).  On a piece without one, in particular an empty one, it panics. -/
theorem C28_extract_panics (p : Bytes) (h : ∀ x ∈ p, ¬ (x < 128 ∨ 192 ≤ x)) :
    ∃ e, extractValidUtf8Slice p = .error e := by
  refine extract_panics p ?_
  intro x hx
  have := h x hx
  cases hc : isCharStart x with
  | false => rfl
  | true => exact absurd (by simpa [isCharStart] using hc) this

-- "héé" cut inside both accented letters: the second half of the first and the first half of the second
example : utf8Encode ['h', 'é', 'a', 'é'] = [104, 0xC3] ++ [0xA9, 97, 0xC3] ++ [0xA9] ∧
    extractValidUtf8Slice [0xA9, 97, 0xC3] = .ok [97] ∧
    (∃ e, extractValidUtf8Slice [0xA9] = .error e) := by
  refine ⟨by decide +kernel, by decide +kernel, C28_extract_panics _ (by decide)⟩

/-- **C45**.  Preloading samples of at least 4 bytes from a non-empty valid UTF-8 file does not
panic, yields between 1 and `maxSamples` chunks of at most `sampleSize` bytes, each a contiguous
piece of the file and valid UTF-8, and the sampler delivers exactly these chunks; whenever reads may
return 4 bytes or more. -/
theorem C45_preloaded (file : Bytes) (hne : file ≠ [])
    (hv : validUtf8 file = true) (sampleSize maxSamples : Nat) (hs : 4 ≤ sampleSize)
    (hm : 0 < maxSamples) (short : Nat → Nat) (hshort : ∀ i, 4 ≤ short i) :
    ∃ chunks, preloaded file sampleSize maxSamples short = .ok chunks ∧
      1 ≤ chunks.length ∧ chunks.length ≤ maxSamples ∧
      (∀ c ∈ chunks, (∃ a b, file = a ++ c ++ b) ∧ validUtf8 c = true ∧ c.length ≤ sampleSize) ∧
      preloadedSampler chunks = ⟨chunks, (chunks.map (·.length)).sum⟩ := by
  obtain ⟨p1, p2, p3, p4, p5, p6⟩ := preloadPlan_spec file.length sampleSize maxSamples
    (List.length_pos_iff.2 hne) hs hm
  obtain ⟨chunks, h1, h2, h3⟩ := preloadLoop_spec file
    (preloadPlan file.length sampleSize maxSamples).1
    (file.length / (preloadPlan file.length sampleSize maxSamples).2) short
    (fun c => (∃ a b, file = a ++ c ++ b) ∧ validUtf8 c = true ∧ c.length ≤ sampleSize)
    (List.range (preloadPlan file.length sampleSize maxSamples).2) (by
      intro i hi
      rw [List.mem_range] at hi
      obtain ⟨a, c, b, g1, g2, g3, g4⟩ := preloadChunk_spec file hv _
        (file.length / (preloadPlan file.length sampleSize maxSamples).2) i (short i)
        (by rcases p5 with h | ⟨h, h'⟩
            · exact .inl h
            · exact .inr ⟨h, by omega⟩) p2 (p6 i hi) (.inl (hshort i))
      exact ⟨c, g1, ⟨a, b, g2⟩, g3, by omega⟩)
  refine ⟨chunks, ?_, by rw [h2]; simp; omega, by rw [h2]; simpa using p3, h3, ?_⟩
  · unfold preloaded
    simp only
    rw [if_neg (by omega)]
    exact h1
  · unfold preloadedSampler
    rw [map_eq_self_iff.2]
    intro c hc
    exact (lossy_eq_iff c).2 (h3 c hc).2.1

/-- **C45** (limits).  Without samples to take, or for an empty file, preloading panics. -/
theorem C45_preloaded_panics (file : Bytes) (sampleSize maxSamples : Nat) (short : Nat → Nat)
    (h : file = [] ∨ (maxSamples = 0 ∧ sampleSize < file.length)) :
    ∃ e, preloaded file sampleSize maxSamples short = .error e := by
  rcases h with rfl | ⟨rfl, h⟩
  · refine ⟨.underflow, ?_⟩
    unfold preloaded preloadPlan
    simp only [List.length_nil, Nat.zero_le, if_true]
    rw [if_neg (by omega), show List.range 1 = [0] from rfl, preloadLoop]
    have hr : readAt [] (0 * (0 / 1)) 0 (short 0) = [] := by simp [readAt]
    unfold preloadChunk
    rw [hr]
    rfl
  · refine ⟨.panic, ?_⟩
    unfold preloaded preloadPlan
    rw [if_neg (by omega), if_neg (by rw [Nat.mul_zero]; omega)]
    rfl

example : preloaded [0xC3, 0xA9, 97, 10, 10, 0xC3, 0xA9, 98, 99, 100, 0xC3, 0xA9] 4 2 (fun _ => 4) =
    .ok [[0xC3, 0xA9, 97, 10], [98, 99, 100]] := by decide +kernel

/-- **C46** (file).  If the file sampler does not panic, then its samples are non-empty and
concatenate to the file, and tokenizing it - on either path, with any number of workers and any
schedule - scans exactly as many bytes as the file has, and on the parallel path every run that
cannot be continued has returned. -/
theorem C46_file_scanned (ts : TokenSet) (hseq : SeqsInRange ts) (file : Bytes) (size : Nat)
    (hs : 0 < size) (short : Nat → Nat) (sampler : SamplerData)
    (hrun : fileSampler file size short = .ok sampler) (n : Option Nat) (nthreads : Nat)
    (hN : 0 < nthreads) :
    sampler.totalSize = file.length ∧ sampler.samples.flatten = file ∧
    (∀ x ∈ sampler.samples, x ≠ []) ∧
    (∀ st, TokenizeFile ts sampler n nthreads st → st.scannedBytes = file.length) ∧
    ∀ tk s, FragmentTokenizer.new ts = .ok tk → PSteps tk (pinit ts sampler.samples n nthreads) s →
      (¬ ∃ s', PStep tk s s') → s.main = .returned ∧ s.stats.scannedBytes = file.length := by
  obtain ⟨slices, h1, h2, h3⟩ := C24_file_partition file size hs short
  unfold fileSampler at hrun
  rw [h1] at hrun
  simp only [R.ok_bind] at hrun
  rcases fromVecs_ok_iff slices with ⟨_, g⟩ | ⟨_, e, g⟩
  · rw [g] at hrun
    simp only [R.ok_bind, Except.ok.injEq] at hrun
    subst hrun
    have hlen : (slices.map (·.length)).sum = file.length := by
      rw [← List.length_flatten, h2]
    refine ⟨rfl, h2, fun x hx => (h3 x hx).1, ?_, ?_⟩
    · intro st hst
      have := C07_tokenize_file ts hseq _ n nthreads hN st hst
      rw [(C05_accounting ts hseq _ n st this).2.1]
      exact hlen
    · intro tk s hn hsteps hstuck
      obtain ⟨r1, r2⟩ := C08_every_maximal_run_returns ts tk hn hseq slices
        (fun x hx => (h3 x hx).1) n nthreads hN s hsteps hstuck
      refine ⟨r1, ?_⟩
      rw [(C05_accounting ts hseq _ n _ r2).2.1]
      exact hlen
  · rw [g] at hrun; simp [bind, Except.bind] at hrun

-- a file of accented letters, read two bytes at a time
example : fileSampler [0xC3, 0xA9, 0xC3, 0xA9] 2 (fun _ => 2) =
    .ok ⟨[[0xC3, 0xA9], [0xC3, 0xA9]], 4⟩ := by
  have h : fileSlices [0xC3, 0xA9, 0xC3, 0xA9] 2 (fun _ => 2) 5 0 0 =
      .ok [[0xC3, 0xA9], [0xC3, 0xA9]] := by decide +kernel
  have g : fromVecs [[0xC3, 0xA9], [0xC3, 0xA9]] = .ok [[0xC3, 0xA9], [0xC3, 0xA9]] := by
    decide +kernel
  show (fileSlices [0xC3, 0xA9, 0xC3, 0xA9] 2 (fun _ => 2) 5 0 0 >>= _) = _
  rw [h]
  simp only [R.ok_bind]
  rw [g]
  rfl

/-- **C46** (memory).  The same for an in-memory sampler all of whose slices are valid UTF-8 (see C25
for when this is so). -/
theorem C46_memory_scanned (ts : TokenSet) (hseq : SeqsInRange ts)
    (m : MemorySampler) (hc : 0 < m.chunkSize) (slices : List Bytes)
    (hslices : memSlices m (m.data.length + 1) 0 = .ok slices)
    (hvalid : ∀ x ∈ slices, validUtf8 x = true) (n : Option Nat) (nthreads : Nat)
    (hN : 0 < nthreads) :
    ∃ sampler, memorySampler m = .ok sampler ∧ sampler.samples.flatten = m.data ∧
      (∀ x ∈ sampler.samples, x ≠ []) ∧
      ∀ st, TokenizeFile ts sampler n nthreads st → st.scannedBytes = m.data.length := by
  obtain ⟨slices', h1, h2, h3⟩ := C23_memory_partition m hc
  rw [h1 _ (by omega)] at hslices
  simp at hslices
  subst hslices
  refine ⟨⟨slices', m.data.length⟩, ?_, h2, fun x hx => (h3 x hx).1, ?_⟩
  · unfold memorySampler
    rw [h1 _ (by omega)]
    simp only [R.ok_bind]
    rw [(map_eq_self_iff (f := fromBytes)).2 (fun x hx => (lossy_eq_iff x).2 (hvalid x hx))]
  · intro st hst
    have := C07_tokenize_file ts hseq _ n nthreads hN st hst
    rw [(C05_accounting ts hseq _ n st this).2.1]
    show (slices'.map (·.length)).sum = _
    rw [← List.length_flatten, h2]

/-! ## C56 what happens to cut characters -/

/-- **C56** (any bytes).  Whatever bytes it is given, the memory sampler delivers valid UTF-8, one
non-empty sample for each slice. -/
theorem C56_always_text (m : MemorySampler) (hc : 0 < m.chunkSize) :
    ∃ slices sampler, memSlices m (m.data.length + 1) 0 = .ok slices ∧ memorySampler m = .ok sampler ∧
      sampler.samples.length = slices.length ∧ ∀ s ∈ sampler.samples, s ≠ [] ∧ validUtf8 s = true := by
  obtain ⟨slices, h1, h2, h3⟩ := C23_memory_partition m hc
  refine ⟨slices, ⟨slices.map fromBytes, m.data.length⟩, h1 _ (by omega), ?_, by simp, ?_⟩
  · unfold memorySampler; rw [h1 _ (by omega)]; rfl
  · intro s hs
    obtain ⟨p, hp, rfl⟩ := List.mem_map.1 hs
    exact ⟨lossy_ne_nil (h3 p hp).1, lossy_valid p⟩

/-- **C56** (text).  For UTF-8 text, a sample differs from its slice only in the characters that were cut:
the slice is up to three bytes `x` of a character that started before, whole characters `w` of the text,
and up to three bytes `y` of a character that goes on after it; in the sample every byte of `x` has
become U+FFFD, `y` has become one U+FFFD, and `w` is as it was. -/
theorem C56_cut_characters (m : MemorySampler) (hc : 0 < m.chunkSize) (text : Text)
    (ht : m.data = utf8Encode text) :
    ∃ slices sampler, memSlices m (m.data.length + 1) 0 = .ok slices ∧ memorySampler m = .ok sampler ∧
      sampler.samples.length = slices.length ∧
      ∀ pre p post, slices = pre ++ p :: post → ∃ (x : Bytes) (w : Text) (y : Bytes),
        p = x ++ utf8Encode w ++ y ∧
        (x.length ≤ 3 ∧ (∀ c ∈ x, 128 ≤ c ∧ c < 192) ∧ (pre = [] → x = [])) ∧
        (y.length ≤ 3 ∧ (y = [] ∨ ∃ d y', y' ≠ [] ∧ utf8Encode [d] = y ++ y') ∧ (post = [] → y = [])) ∧
        (w ≠ [] → ∃ t1 t2, text = t1 ++ w ++ t2 ∧ utf8Encode t1 = pre.flatten ++ x) ∧
        sampler.samples[pre.length]? = some (utf8Encode (List.replicate x.length '\uFFFD' ++ w ++
          (if y = [] then [] else ['\uFFFD']))) := by
  obtain ⟨slices, h1, h2, h3⟩ := C23_memory_partition m hc
  refine ⟨slices, ⟨slices.map fromBytes, m.data.length⟩, h1 _ (by omega), ?_, by simp, ?_⟩
  · unfold memorySampler; rw [h1 _ (by omega)]; rfl
  · intro pre p post e
    obtain ⟨x, w, y, g1, ⟨g2, g3, g4⟩, ⟨g5, g6, g7⟩, g8, g9⟩ := lossy_piece text pre.flatten p post.flatten
      (by rw [← ht, ← h2, e]; simp)
    refine ⟨x, w, y, g1, ⟨g2, ?_, ?_⟩, ⟨g5, ?_, ?_⟩, g8, ?_⟩
    · intro c hcx
      have := isCont_not_start c (g3 c hcx)
      exact ⟨UInt8.le_iff_toNat_le.2 this.1, UInt8.lt_iff_toNat_lt.2 this.2⟩
    · rintro rfl; exact g4 rfl
    · simpa only [utf8Encode_singleton] using g6
    · rintro rfl; exact g7 rfl
    · have hr : ∀ n, utf8Encode (List.replicate n '\uFFFD') = (List.replicate n replacement).flatten := by
        intro n
        induction n with
        | zero => rfl
        | succ n ih => rw [List.replicate_succ, utf8Encode_cons, ih, replacement_eq, utf8Encode_singleton,
            ← utf8Encode_singleton, List.replicate_succ, List.flatten_cons]
      have hy : utf8Encode (if y = [] then [] else ['\uFFFD']) = if y = [] then [] else replacement := by
        split
        · rfl
        · rw [replacement_eq]
      rw [utf8Encode_append, utf8Encode_append, hr, hy]
      simp [e, fromBytes, g9]

theorem damage_le : ∀ (slices : List Bytes) (text : Text) (a : Bytes),
    utf8Encode text = a ++ slices.flatten →
    slices.flatten.length ≤ ((slices.map fromBytes).map List.length).sum ∧
    ((slices.map fromBytes).map List.length).sum ≤
      slices.flatten.length + 8 * (slices.length - 1) + (if a = [] ∨ slices = [] then 0 else 6)
  | [], text, a, h => by simp
  | [p], text, a, h => by
    obtain ⟨x, w, y, g1, ⟨g2, g3, g4⟩, ⟨g5, g6, g7⟩, g8, g9⟩ := lossy_piece text a p [] (by simpa using h)
    have hy := g7 rfl
    have : (fromBytes p).length = p.length + 2 * x.length := by
      unfold fromBytes
      rw [g9, g1, hy]
      simp [replacement]
      omega
    simp only [List.map_cons, List.map_nil, List.flatten_cons, List.flatten_nil, List.append_nil,
      List.sum_cons, List.sum_nil, List.length_cons, List.length_nil]
    split
    · next h0 =>
      rcases h0 with h0 | h0
      · rw [g4 h0] at this
        simp at this
        omega
      · cases h0
    · omega
  | p :: q :: slices, text, a, h => by
    obtain ⟨x, w, y, g1, ⟨g2, g3, g4⟩, ⟨g5, g6, g7⟩, g8, g9⟩ := lossy_piece text a p (q :: slices).flatten
      (by rw [h]; simp)
    obtain ⟨i1, i2⟩ := damage_le (q :: slices) text (a ++ p) (by rw [h]; simp)
    have : (fromBytes p).length = 3 * x.length + (utf8Encode w).length + (if y = [] then 0 else 3) := by
      unfold fromBytes
      rw [g9]
      split <;> simp [replacement] <;> omega
    have hp : p.length = x.length + (utf8Encode w).length + y.length := by rw [g1]; simp; omega
    have hb : p.length ≤ (fromBytes p).length ∧
        (fromBytes p).length ≤ p.length + 2 * x.length + 2 := by
      by_cases hy : y = []
      · rw [if_pos hy] at this
        rw [hy] at hp
        simp at hp
        omega
      · rw [if_neg hy] at this
        have := List.length_pos_iff.2 hy
        omega
    have hx : a = [] → x.length = 0 := fun h => by rw [g4 h]; rfl
    have hif : (if a ++ p = [] ∨ q :: slices = [] then 0 else 6) ≤ 6 := by split <;> omega
    generalize hS : (((q :: slices).map fromBytes).map List.length).sum = S at i1 i2
    rw [List.map_cons, List.map_cons, List.sum_cons, List.flatten_cons, List.length_append, hS]
    simp only [List.length_cons] at *
    split
    · next h0 =>
      rcases h0 with h0 | h0
      · have := hx h0; omega
      · cases h0
    · omega

/-- **C56** (amount).  For UTF-8 text the samples have together at least as many bytes as the data, and at
most eight more for every cut; that is the number of bytes that tokenizing reports as scanned. -/
theorem C56_scanned (ts : TokenSet) (hseq : SeqsInRange ts) (m : MemorySampler) (hc : 0 < m.chunkSize)
    (hv : validUtf8 m.data = true) (n : Option Nat) (nthreads : Nat) (hN : 0 < nthreads) :
    ∃ sampler, memorySampler m = .ok sampler ∧
      ∀ st, TokenizeFile ts sampler n nthreads st →
        m.data.length ≤ st.scannedBytes ∧
        st.scannedBytes ≤ m.data.length + 8 * (sampler.samples.length - 1) := by
  obtain ⟨slices, h1, h2, h3⟩ := C23_memory_partition m hc
  refine ⟨⟨slices.map fromBytes, m.data.length⟩, ?_, ?_⟩
  · unfold memorySampler; rw [h1 _ (by omega)]; rfl
  · intro st hst
    obtain ⟨text, ht⟩ := validUtf8_iff.1 hv
    have := C07_tokenize_file ts hseq _ n nthreads hN st hst
    rw [(C05_accounting ts hseq _ n st this).2.1]
    obtain ⟨i1, i2⟩ := damage_le slices text [] (by rw [← ht, h2]; rfl)
    rw [h2] at i1 i2
    rw [if_pos (.inl rfl)] at i2
    simp only [List.length_map]
    exact ⟨i1, i2⟩

-- "a€€" in chunks of three bytes: "a\uFFFD", "\uFFFD\uFFFD", ...
example : memSlices ⟨[97, 0xE2, 0x82, 0xAC, 0xE2, 0x82, 0xAC], 3⟩ 8 0 =
      .ok [[97, 0xE2, 0x82], [0xAC, 0xE2, 0x82], [0xAC]] ∧
    (memorySampler ⟨[97, 0xE2, 0x82, 0xAC, 0xE2, 0x82, 0xAC], 3⟩).toOption.map (·.samples) =
      some [[97, 0xEF, 0xBF, 0xBD], [0xEF, 0xBF, 0xBD, 0xEF, 0xBF, 0xBD], [0xEF, 0xBF, 0xBD]] := by
  decide +kernel

end Tokens.Props
