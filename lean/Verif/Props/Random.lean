import Verif.Props.Sampler

/-!
# Property C64: random samples of a file

Read together with `Verif/Spec/Sampling.lean`.
-/

namespace Tokens.Props
open Tokens Spec Input Batch

/-- One random sample up to the check of its encoding. -/
theorem fileRandomNext_spec (file : Bytes) (size start short : Nat) (h : size < file.length) :
    ∃ s w stop, s = start % (file.length - size) ∧ w = min (max 1 short) size ∧
      fileRandomNext file size start short = .ok ((file.take stop).drop s) ∧
      s ≤ stop ∧ (0 < size → s < stop) ∧ WindowCut file s w stop := by
  unfold fileRandomNext
  rw [subR_of (by omega), R.ok_bind, if_neg (by omega)]
  generalize hs : start % (file.length - size) = s
  have hlt : s < file.length - size := by rw [← hs]; exact Nat.mod_lt _ (by omega)
  have hl := readAt_length file s size short
  have he := readAt_eq file s size short
  have hw : (readAt file s size short).length = min (max 1 short) size := by omega
  rw [hw] at he
  generalize hwd : min (max 1 short) size = w at *
  have hw' : w ≤ size := by omega
  simp only
  generalize hb : readAt file s size short = buf at *
  obtain ⟨r, hr, hle, hspec⟩ := findParagraphEnd_spec buf buf.length (Nat.le_refl _)
  rw [hr, R.ok_bind]
  have hbe : ∀ q, q ≤ w → (BlankEnd buf q ↔ 2 ≤ q ∧ BlankEnd file (s + q)) := by
    intro q hq
    by_cases h2 : 2 ≤ q
    · have e1 : buf[q - 2]? = file[s + q - 2]? := by
        rw [he, List.getElem?_drop, List.getElem?_take, if_pos (by omega)]
        congr 1
        omega
      have e2 : buf[q - 1]? = file[s + q - 1]? := by
        rw [he, List.getElem?_drop, List.getElem?_take, if_pos (by omega)]
        congr 1
        omega
      unfold BlankEnd
      rw [e1, e2]
      constructor
      · rintro ⟨_, a, b⟩; exact ⟨h2, by omega, a, b⟩
      · rintro ⟨_, _, a, b⟩; exact ⟨h2, a, b⟩
    · constructor
      · intro g; exact absurd g.1 h2
      · intro g; exact absurd g.1 h2
  refine ⟨s, w, s + r, rfl, rfl, ?_, by omega, ?_, ?_⟩
  · congr 1
    rw [he, List.drop_take, List.drop_take, List.take_take]
    congr 1
    omega
  · intro h0
    rcases hspec with ⟨g, _⟩ | ⟨g, _⟩
    · have := g.1; omega
    · omega
  · rcases hspec with ⟨g1, g2⟩ | ⟨g1, g2⟩
    · left
      have := (hbe r (by omega)).1 g1
      refine ⟨by omega, by omega, this.2, ?_⟩
      intro q q1 q2 q3
      have := g2 (q - s) (by omega) ((hbe (q - s) (by omega)).2 ⟨by omega, by
        rw [show s + (q - s) = q by omega]; exact q3⟩)
      omega
    · right
      refine ⟨?_, by omega⟩
      intro q q1 q2 q3
      exact g2 (q - s) (by omega) ((hbe (q - s) (by omega)).2 ⟨by omega, by
        rw [show s + (q - s) = q by omega]; exact q3⟩)

theorem fileRandomSamples_spec (file : Bytes) (size : Nat) (h : size < file.length)
    (start short : Nat → Nat) (n i : Nat) :
    ∃ cuts : List (Nat × Nat), cuts.length = n ∧
      (∀ (j : Nat) (c : Nat × Nat), cuts[j]? = some c →
        c.1 = start (i + j) % (file.length - size) ∧ c.1 ≤ c.2 ∧ (0 < size → c.1 < c.2) ∧
        WindowCut file c.1 (min (max 1 (short (i + j))) size) c.2) ∧
      fileRandomSamples file size start short n i =
        fromVecs (cuts.map fun c => (file.take c.2).drop c.1) := by
  induction n generalizing i with
  | zero => exact ⟨[], rfl, by simp, rfl⟩
  | succ n ih =>
    obtain ⟨s, w, stop, h1, h2, h3, h4, h5, h6⟩ := fileRandomNext_spec file size (start i) (short i) h
    obtain ⟨cuts, g1, g2, g3⟩ := ih (i + 1)
    refine ⟨(s, stop) :: cuts, by simp [g1], ?_, ?_⟩
    · intro j c hc
      cases j with
      | zero =>
        simp only [List.getElem?_cons_zero, Option.some.injEq] at hc
        subst hc
        subst h2
        exact ⟨h1, h4, h5, h6⟩
      | succ j =>
        simp only [List.getElem?_cons_succ] at hc
        have := g2 j c hc
        rwa [show i + 1 + j = i + (j + 1) by omega] at this
    · rw [fileRandomSamples, h3, R.ok_bind, g3, List.map_cons, fromVecs]

/-- **C64**.  With `max_samples = Some(n)` and a file longer than `size`, for every sequence of random
numbers and every short reads: there are `n` pieces of the file, the `i`-th starting at the `i`-th random
position and made of the bytes that one `read` returned, at most `size`, cut after the last blank line
inside them; none contains the last byte of the file.  If all pieces are valid UTF-8 these are the
samples, and the size announced is `size * n`, at least as much as is delivered; otherwise the sampler
panics. -/
theorem C64_random_samples (file : Bytes) (size n : Nat) (hs : 0 < size) (h : size < file.length)
    (start short : Nat → Nat) :
    ∃ cuts : List (Nat × Nat), ∃ pieces : List Bytes,
      cuts.length = n ∧ pieces = cuts.map (fun c => (file.take c.2).drop c.1) ∧
      (∀ (i : Nat) (c : Nat × Nat), cuts[i]? = some c →
        c.1 = start i % (file.length - size) ∧ c.1 < c.2 ∧ c.2 ≤ c.1 + size ∧ c.2 < file.length ∧
        WindowCut file c.1 (min (max 1 (short i)) size) c.2) ∧
      (pieces.map (·.length)).sum ≤ size * n ∧
      ((∀ p ∈ pieces, validUtf8 p = true) →
        fileRandomSampler file size n start short = .ok ⟨pieces, size * n⟩) ∧
      ((¬ ∀ p ∈ pieces, validUtf8 p = true) →
        ∃ e, fileRandomSampler file size n start short = .error e) := by
  obtain ⟨cuts, g1, g2, g3⟩ := fileRandomSamples_spec file size h start short n 0
  have fact : ∀ (i : Nat) (c : Nat × Nat), cuts[i]? = some c →
        c.1 = start i % (file.length - size) ∧ c.1 < c.2 ∧ c.2 ≤ c.1 + size ∧ c.2 < file.length ∧
        WindowCut file c.1 (min (max 1 (short i)) size) c.2 := by
    intro i c hc
    obtain ⟨a1, _, a3, a4⟩ := g2 i c hc
    rw [Nat.zero_add] at a1 a4
    have hlt : c.1 < file.length - size := by rw [a1]; exact Nat.mod_lt _ (by omega)
    have hle : c.2 ≤ c.1 + size := by
      rcases a4 with a | a
      · have := a.2.1; omega
      · have := a.2; omega
    exact ⟨a1, a3 hs, hle, by omega, a4⟩
  refine ⟨cuts, _, g1, rfl, fact, ?_, ?_, ?_⟩
  · have : ∀ p ∈ cuts.map (fun c => ((file.take c.2).drop c.1)), p.length ≤ size := by
      intro p hp
      obtain ⟨c, hc, rfl⟩ := List.mem_map.1 hp
      obtain ⟨i, hi⟩ := List.getElem?_of_mem hc
      have := fact i c hi
      rw [slice_length (by omega)]
      omega
    have hlen : (cuts.map (fun c => ((file.take c.2).drop c.1))).length = n := by simp [g1]
    generalize cuts.map (fun c => ((file.take c.2).drop c.1)) = l at this hlen
    rw [← hlen]
    clear hlen g3
    induction l with
    | nil => simp
    | cons x xs ih =>
      have h1 := this x (by simp)
      have h2 := ih (fun p hp => this p (by simp [hp]))
      simp only [List.map_cons, List.sum_cons, List.length_cons, Nat.mul_add, Nat.mul_one]
      omega
  · intro hv
    rcases fromVecs_ok_iff (cuts.map fun c => (file.take c.2).drop c.1) with ⟨_, g⟩ | ⟨g, _⟩
    · unfold fileRandomSampler; rw [g3, g]; rfl
    · exact absurd hv g
  · intro hv
    rcases fromVecs_ok_iff (cuts.map fun c => (file.take c.2).drop c.1) with ⟨g, _⟩ | ⟨_, e, g⟩
    · exact absurd g hv
    · refine ⟨e, ?_⟩
      unfold fileRandomSampler; rw [g3, g]; rfl

/-- **C64** (ASCII).  On an ASCII file longer than `size` no sequence of random numbers or reads makes it
panic: it delivers `n` samples, non-empty, at most `size` bytes long and contiguous in the file. -/
theorem C64_random_ascii (file : Bytes) (size n : Nat) (hs : 0 < size) (h : size < file.length)
    (ha : ∀ b ∈ file, b < 128) (start short : Nat → Nat) :
    ∃ samples, fileRandomSampler file size n start short = .ok ⟨samples, size * n⟩ ∧
      samples.length = n ∧
      ∀ p ∈ samples, p ≠ [] ∧ p.length ≤ size ∧ ∃ a b, b ≠ [] ∧ file = a ++ p ++ b := by
  obtain ⟨cuts, pieces, g1, rfl, g3, _, g5, _⟩ := C64_random_samples file size n hs h start short
  refine ⟨_, g5 ?_, by simp [g1], ?_⟩
  · intro p hp
    obtain ⟨c, _, rfl⟩ := List.mem_map.1 hp
    exact ascii_valid fun b hb => ha b (List.mem_of_mem_take (List.mem_of_mem_drop hb))
  · intro p hp
    obtain ⟨c, hc, rfl⟩ := List.mem_map.1 hp
    obtain ⟨i, hi⟩ := List.getElem?_of_mem hc
    have := g3 i c hi
    have hl := slice_length (data := file) (a := c.1) (b := c.2) (by omega)
    refine ⟨?_, by omega, file.take c.1, file.drop c.2, ?_, ?_⟩
    · intro e
      rw [e] at hl
      simp only [List.length_nil] at hl
      omega
    · intro e
      have := congrArg List.length e
      simp only [List.length_drop, List.length_nil] at this
      omega
    · rw [List.append_assoc, slice_append_drop (by omega), List.take_append_drop]

/-- **C64** (short files).  If the file is not longer than `size`, asking for at least one random sample
panics, and asking for none gives none. -/
theorem C64_random_short_file (file : Bytes) (size n : Nat) (h : file.length ≤ size)
    (start short : Nat → Nat) :
    (0 < n → ∃ e, fileRandomSampler file size n start short = .error e) ∧
    (n = 0 → fileRandomSampler file size n start short = .ok ⟨[], 0⟩) := by
  refine ⟨?_, by rintro rfl; rfl⟩
  intro hn
  obtain ⟨m, rfl⟩ : ∃ m, n = m + 1 := ⟨n - 1, by omega⟩
  unfold fileRandomSampler
  rw [fileRandomSamples]
  have : ∃ e, fileRandomNext file size (start 0) (short 0) = .error e := by
    unfold fileRandomNext
    by_cases he : file.length = size
    · rw [he, subR_of (by omega), R.ok_bind, if_pos (by omega)]; exact ⟨_, rfl⟩
    · unfold subR
      rw [if_neg (by omega)]
      exact ⟨_, rfl⟩
  obtain ⟨e, he⟩ := this
  rw [he]
  exact ⟨e, rfl⟩

-- two random positions, each window contains a blank line
example : fileRandomSampler [97, 98, 10, 10, 99, 100] 4 2 (fun i => i + 6) (fun _ => 4) =
    .ok ⟨[[97, 98, 10, 10], [98, 10, 10]], 8⟩ := by rfl
-- a two-byte character cut in half
example : fileRandomSampler [97, 0xC3, 0xA9, 98, 99] 2 1 (fun _ => 0) (fun _ => 4) =
    .error .unwrapNone := by rfl

end Tokens.Props
