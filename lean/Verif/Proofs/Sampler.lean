import Verif.Proofs.Utf8
import Verif.Proofs.Spans
import Verif.Spec.Sampling

/-! The samplers. -/

set_option linter.unusedSimpArgs false
set_option linter.unusedVariables false

namespace Tokens
open Spec
namespace Input

theorem blankEnd_iff {data : Bytes} {p : Nat} :
    BlankEnd data (p + 2) ↔ data[p]? = some 10 ∧ data[p + 1]? = some 10 := by
  simp [BlankEnd]

theorem paragraphLoop_spec (data : Bytes) (end_ pos : Nat) (hp : pos ≤ data.length) :
    (∃ r, paragraphLoop data end_ pos = .ok r ∧ r ≤ pos ∧ BlankEnd data r ∧
      ∀ q, q ≤ pos → BlankEnd data q → q ≤ r) ∨
    (paragraphLoop data end_ pos = .ok end_ ∧ ∀ q, q ≤ pos → ¬ BlankEnd data q) := by
  induction pos using Nat.strongRecOn with
  | ind pos ih =>
    match pos, hp, ih with
    | 0, _, _ =>
      refine .inr ⟨by rw [paragraphLoop], ?_⟩
      intro q hq h; have := h.1; omega
    | 1, _, _ =>
      refine .inr ⟨by rw [paragraphLoop], ?_⟩
      intro q hq h; have := h.1; omega
    | pos + 2, hp, ih =>
      have next : ¬ BlankEnd data (pos + 2) →
          paragraphLoop data end_ (pos + 2) = paragraphLoop data end_ (pos + 1) →
          ((∃ r, paragraphLoop data end_ (pos + 2) = .ok r ∧ r ≤ pos + 2 ∧ BlankEnd data r ∧
            ∀ q, q ≤ pos + 2 → BlankEnd data q → q ≤ r) ∨
          (paragraphLoop data end_ (pos + 2) = .ok end_ ∧ ∀ q, q ≤ pos + 2 → ¬ BlankEnd data q)) := by
        intro hb he
        rcases ih (pos + 1) (by omega) (by omega) with ⟨r, h1, h2, h3, h4⟩ | ⟨h1, h2⟩
        · refine .inl ⟨r, he.trans h1, by omega, h3, ?_⟩
          intro q hq hbq
          by_cases hq2 : q = pos + 2
          · subst hq2; exact absurd hbq hb
          · exact h4 q (by omega) hbq
        · refine .inr ⟨he.trans h1, ?_⟩
          intro q hq hbq
          by_cases hq2 : q = pos + 2
          · subst hq2; exact absurd hbq hb
          · exact h2 q (by omega) hbq
      have h1 : pos + 1 < data.length := by omega
      have h0 : pos < data.length := by omega
      have e1 := List.getElem?_eq_getElem h1
      have e0 := List.getElem?_eq_getElem h0
      by_cases ha : data[pos + 1] = 10
      · by_cases hb : data[pos] = 10
        · refine .inl ⟨pos + 2, ?_, Nat.le_refl _, ?_, fun q hq _ => hq⟩
          · rw [paragraphLoop, getR_of e1, R.ok_bind, if_neg (by simp [ha]), getR_of e0, R.ok_bind,
              if_neg (by simp [hb])]
          · rw [blankEnd_iff, e0, e1, ha, hb]; exact ⟨rfl, rfl⟩
        · refine next ?_ ?_
          · rw [blankEnd_iff, e0]; rintro ⟨h, _⟩; exact hb (by simpa using h)
          · rw [paragraphLoop, getR_of e1, R.ok_bind, if_neg (by simp [ha]), getR_of e0, R.ok_bind,
              if_pos (by simp [hb])]
      · refine next ?_ ?_
        · rw [blankEnd_iff, e1]; rintro ⟨_, h⟩; exact ha (by simpa using h)
        · rw [paragraphLoop, getR_of e1, R.ok_bind, if_pos (by simp [ha])]

theorem findParagraphEnd_spec (data : Bytes) (end_ : Nat) (hp : end_ ≤ data.length) :
    ∃ r, findParagraphEnd data end_ = .ok r ∧ r ≤ end_ ∧
      ((BlankEnd data r ∧ ∀ q, q ≤ end_ → BlankEnd data q → q ≤ r) ∨
       (r = end_ ∧ ∀ q, q ≤ end_ → ¬ BlankEnd data q)) := by
  rcases paragraphLoop_spec data end_ end_ hp with ⟨r, h1, h2, h3, h4⟩ | ⟨h1, h2⟩
  · exact ⟨r, h1, h2, .inl ⟨h3, h4⟩⟩
  · exact ⟨end_, h1, Nat.le_refl _, .inr ⟨rfl, h2⟩⟩

theorem sliceR_ok {data : Bytes} {a b : Nat} (h1 : a ≤ b) (h2 : b ≤ data.length) :
    sliceR data a b = .ok ((data.take b).drop a) := by
  unfold sliceR; rw [if_pos ⟨h1, h2⟩]

theorem slice_length {data : Bytes} {a b : Nat} (h2 : b ≤ data.length) :
    ((data.take b).drop a).length = b - a := by simp; omega

theorem slice_append_drop {data : Bytes} {a b : Nat} (h1 : a ≤ b) :
    (data.take b).drop a ++ data.drop b = data.drop a := by
  by_cases hb : b ≤ data.length
  · have : data.drop a = ((data.take b) ++ data.drop b).drop a := by rw [List.take_append_drop]
    rw [this, List.drop_append]
    have : a - (data.take b).length = 0 := by simp; omega
    rw [this]; simp
  · rw [List.take_of_length_le (by omega), List.drop_of_length_le (by omega : data.length ≤ b)]
    simp

/-! ### MemorySampler -/

theorem memNext_spec (m : MemorySampler) (start : Nat) (h : start < m.data.length) :
    ∃ stop, memNext m start = .ok (some ((m.data.take stop).drop start, stop)) ∧ start ≤ stop ∧
      stop ≤ m.data.length ∧ stop ≤ start + m.chunkSize ∧ (0 < m.chunkSize → start < stop) ∧
      (m.chunkSize = 0 → stop = start) ∧ GoodCut m.data m.chunkSize start stop := by
  unfold memNext
  rw [if_pos h]
  obtain ⟨r, hr, hle, hspec⟩ := findParagraphEnd_spec m.data (min (start + m.chunkSize) m.data.length)
    (by omega)
  simp only [hr, R.ok_bind]
  generalize hstop : (if min (start + m.chunkSize) m.data.length < m.data.length ∧ r > start then r
    else min (start + m.chunkSize) m.data.length) = stop
  have hb : start ≤ stop ∧ stop ≤ m.data.length ∧ stop ≤ start + m.chunkSize ∧
      (0 < m.chunkSize → start < stop) ∧ (m.chunkSize = 0 → stop = start) := by
    subst hstop
    split <;> omega
  refine ⟨stop, ?_, hb.1, hb.2.1, hb.2.2.1, hb.2.2.2.1, hb.2.2.2.2, ?_⟩
  · rw [sliceR_ok hb.1 hb.2.1]; rfl
  · subst hstop
    by_cases hw : m.data.length ≤ start + m.chunkSize
    · left
      refine ⟨hw, ?_⟩
      rw [if_neg (by omega)]
      omega
    · right
      have hmin : min (start + m.chunkSize) m.data.length = start + m.chunkSize := by omega
      rw [hmin] at hspec hle ⊢
      by_cases hrs : r > start
      · rw [if_pos ⟨by omega, hrs⟩]
        rcases hspec with ⟨h1, h2⟩ | ⟨h1, h2⟩
        · left
          exact ⟨by omega, hrs, hle, h1, fun q _ hq hbq => h2 q hq hbq⟩
        · right
          exact ⟨by omega, fun q _ hq => h2 q hq, h1⟩
      · rw [if_neg (by omega)]
        right
        refine ⟨by omega, ?_, rfl⟩
        intro q hq1 hq2 hbq
        rcases hspec with ⟨h1, h2⟩ | ⟨h1, h2⟩
        · have := h2 q hq2 hbq; omega
        · exact h2 q hq2 hbq

/-- The slices of an iteration that starts at `pos`. -/
theorem memSlices_spec (m : MemorySampler) (hc : 0 < m.chunkSize) (fuel pos : Nat)
    (hf : m.data.length - pos < fuel) (hpos : pos ≤ m.data.length) :
    ∃ slices, memSlices m fuel pos = .ok slices ∧ slices.flatten = m.data.drop pos ∧
      (∀ x ∈ slices, x ≠ [] ∧ x.length ≤ m.chunkSize) ∧
      ∀ pre x post, slices = pre ++ x :: post →
        GoodCut m.data m.chunkSize (pos + pre.flatten.length) (pos + pre.flatten.length + x.length) := by
  induction fuel generalizing pos with
  | zero => omega
  | succ fuel ih =>
    by_cases h : pos < m.data.length
    · obtain ⟨stop, h1, h2, h3, h4, h5, _, h6⟩ := memNext_spec m pos h
      have h5 := h5 hc
      obtain ⟨slices, g1, g2, g3, g4⟩ := ih stop (by omega) h3
      have hlen := slice_length (data := m.data) (a := pos) h3
      refine ⟨((m.data.take stop).drop pos) :: slices, ?_, ?_, ?_, ?_⟩
      · rw [memSlices, h1]; simp only [R.ok_bind, g1]
      · rw [List.flatten_cons, g2, slice_append_drop h2]
      · intro x hx
        rcases List.mem_cons.1 hx with rfl | hx
        · refine ⟨?_, by omega⟩
          intro h0; rw [h0] at hlen; simp at hlen; omega
        · exact g3 x hx
      · intro pre x post hsp
        cases pre with
        | nil =>
          simp at hsp
          obtain ⟨rfl, rfl⟩ := hsp
          rw [hlen]
          simp
          have : pos + (stop - pos) = stop := by omega
          rw [this]; exact h6
        | cons y pre =>
          simp only [List.cons_append, List.cons.injEq] at hsp
          obtain ⟨rfl, hsp⟩ := hsp
          have := g4 pre x post hsp
          rw [List.flatten_cons, List.length_append, hlen]
          have e : pos + (stop - pos + pre.flatten.length) = stop + pre.flatten.length := by omega
          rw [e]; exact this
    · refine ⟨[], ?_, ?_, by simp, ?_⟩
      · rw [memSlices]
        unfold memNext
        rw [if_neg h]
        rfl
      · simp; omega
      · intro pre x post hsp; simp at hsp

theorem memSlices_zero (m : MemorySampler) (hc : m.chunkSize = 0) (h : m.data ≠ []) (fuel : Nat) :
    memSlices m fuel 0 = .error .fuel := by
  induction fuel with
  | zero => rfl
  | succ fuel ih =>
    obtain ⟨stop, h1, _, _, _, _, h2, _⟩ := memNext_spec m 0 (List.length_pos_iff.2 h)
    have h2 := h2 hc
    subst h2
    rw [memSlices, h1]
    simp only [R.ok_bind, ih]
    rfl

/-! ### FileSampler -/

theorem readAt_length (file : Bytes) (offset n short : Nat) :
    (readAt file offset n short).length = min (max 1 short) (min n (file.length - offset)) := by
  simp [readAt]

theorem readAt_eq (file : Bytes) (offset n short : Nat) :
    readAt file offset n short =
      (file.take (offset + (readAt file offset n short).length)).drop offset := by
  rw [readAt_length, List.drop_take]
  unfold readAt
  rw [List.take_take]
  apply List.take_eq_take_iff.2
  simp

/-- Where the `FileIterator` may stop: at the end of what one `read` call returned if that is less
than a full buffer, otherwise after the last blank line of the buffer, otherwise after the whole
buffer. -/
def FileCut (file : Bytes) (size start stop : Nat) : Prop :=
  (start < stop ∧ stop < start + size) ∨
  (start + size ≤ file.length ∧
    LastBlankEnd ((file.take (start + size)).drop start) 0 size (stop - start)) ∨
  (start + size ≤ file.length ∧
    (∀ q, ¬ BlankEnd ((file.take (start + size)).drop start) q) ∧ stop = start + size)

theorem fileNext_spec (file : Bytes) (size offset short : Nat) (hs : 0 < size)
    (h : offset < file.length) :
    ∃ stop, fileNext file size offset short = .ok (some ((file.take stop).drop offset, stop)) ∧
      offset < stop ∧ stop ≤ file.length ∧ stop ≤ offset + size ∧
      (size ≤ short → GoodCut (file.drop offset) size 0 (stop - offset) ∨
        (file.length = offset + size ∧
          LastBlankEnd (file.drop offset) 0 size (stop - offset))) ∧
      (short < size → max 1 short < size → stop = min (offset + max 1 short) file.length) := by
  have hl := readAt_length file offset size short
  have he := readAt_eq file offset size short
  unfold fileNext
  simp only
  rw [if_neg (by omega)]
  by_cases hk : (readAt file offset size short).length < size
  · rw [if_pos hk]
    refine ⟨offset + (readAt file offset size short).length, by rw [← he], by omega, by omega,
      by omega, ?_, ?_⟩
    · intro hsz
      left; left
      simp
      omega
    · intro _ _
      omega
  · rw [if_neg hk]
    have hfull : (readAt file offset size short).length = size := by omega
    have hbuf : readAt file offset size short = (file.drop offset).take size := by
      rw [he, hfull, List.drop_take]; congr 1; omega
    obtain ⟨r, hr, hle, hspec⟩ := findParagraphEnd_spec (readAt file offset size short)
      (readAt file offset size short).length (Nat.le_refl _)
    rw [hr]
    simp only [R.ok_bind]
    have hblank : ∀ q, q ≤ size → (BlankEnd (readAt file offset size short) q ↔
        BlankEnd (file.drop offset) q) := by
      intro q hq
      rw [hbuf]
      unfold BlankEnd
      constructor
      · rintro ⟨a, b, c⟩
        rw [List.getElem?_take_of_lt (by omega)] at b c
        exact ⟨a, b, c⟩
      · rintro ⟨a, b, c⟩
        rw [List.getElem?_take_of_lt (by omega), List.getElem?_take_of_lt (by omega)]
        exact ⟨a, b, c⟩
    have hgood : (size ≤ short → GoodCut (file.drop offset) size 0 r ∨
        (file.length = offset + size ∧ LastBlankEnd (file.drop offset) 0 size r)) := by
      intro _
      rw [hfull] at hle hspec
      rcases hspec with ⟨h1, h2⟩ | ⟨h1, h2⟩
      · have h1' := (hblank r hle).1 h1
        have hlast : LastBlankEnd (file.drop offset) 0 size r :=
          ⟨by have := h1.1; omega, hle, h1', fun q _ hq hbq => h2 q hq ((hblank q hq).2 hbq)⟩
        by_cases hend : file.length = offset + size
        · exact .inr ⟨hend, hlast⟩
        · left; right; left
          refine ⟨by simp; omega, by simpa using hlast⟩
      · subst h1
        left
        by_cases hend : file.length = offset + r
        · left; simp; omega
        · right; right
          refine ⟨by simp; omega, ?_, by simp⟩
          intro q _ hq hbq
          exact h2 q (by omega) ((hblank q (by omega)).2 hbq)
    have hpos : 0 < r := by
      rcases hspec with ⟨h1, _⟩ | ⟨h1, _⟩
      · have := h1.1; omega
      · omega
    by_cases hlt : r < (readAt file offset size short).length
    · rw [if_pos hlt]
      refine ⟨offset + r, ?_, by omega, by omega, by omega, ?_, ?_⟩
      · congr 3
        rw [hbuf, List.take_take, List.drop_take]
        congr 1; omega
      · rw [Nat.add_sub_cancel_left]; exact hgood
      · intro h1 h2; omega
    · rw [if_neg hlt]
      refine ⟨offset + (readAt file offset size short).length, by rw [← he], by omega, by omega,
        by omega, ?_, ?_⟩
      · have : r = offset + (readAt file offset size short).length - offset := by omega
        rw [← this]; exact hgood
      · intro h1 h2; omega

theorem fileNext_end (file : Bytes) (size offset short : Nat) (h : file.length ≤ offset) :
    fileNext file size offset short = .ok none := by
  have hl := readAt_length file offset size short
  unfold fileNext
  simp only
  rw [if_pos (by omega)]

theorem fileSlices_spec (file : Bytes) (size : Nat) (short : Nat → Nat) (hs : 0 < size)
    (fuel i offset : Nat) (hf : file.length - offset < fuel) (ho : offset ≤ file.length) :
    ∃ slices, fileSlices file size short fuel i offset = .ok slices ∧
      slices.flatten = file.drop offset ∧ (∀ x ∈ slices, x ≠ [] ∧ x.length ≤ size) ∧
      ((∀ j, size ≤ short j) → ∀ pre x post, slices = pre ++ x :: post →
        GoodCut (file.drop (offset + pre.flatten.length)) size 0 x.length ∨
        (file.length = offset + pre.flatten.length + size ∧
          LastBlankEnd (file.drop (offset + pre.flatten.length)) 0 size x.length)) := by
  induction fuel generalizing i offset with
  | zero => omega
  | succ fuel ih =>
    by_cases h : offset < file.length
    · obtain ⟨stop, h1, h2, h3, h4, h5, _⟩ := fileNext_spec file size offset (short i) hs h
      obtain ⟨slices, g1, g2, g3, g4⟩ := ih (i + 1) stop (by omega) h3
      have hlen := slice_length (data := file) (a := offset) h3
      refine ⟨((file.take stop).drop offset) :: slices, ?_, ?_, ?_, ?_⟩
      · rw [fileSlices, h1]; simp only [R.ok_bind, g1]
      · rw [List.flatten_cons, g2, slice_append_drop (by omega)]
      · intro x hx
        rcases List.mem_cons.1 hx with rfl | hx
        · refine ⟨?_, by omega⟩
          intro h0; rw [h0] at hlen; simp at hlen; omega
        · exact g3 x hx
      · intro hshort pre x post hsp
        cases pre with
        | nil =>
          simp at hsp
          obtain ⟨rfl, rfl⟩ := hsp
          rw [hlen]
          simpa using h5 (hshort i)
        | cons y pre =>
          simp only [List.cons_append, List.cons.injEq] at hsp
          obtain ⟨rfl, hsp⟩ := hsp
          have := g4 hshort pre x post hsp
          rw [List.flatten_cons, List.length_append, hlen]
          have e : offset + (stop - offset + pre.flatten.length) = stop + pre.flatten.length := by omega
          rw [e]; exact this
    · refine ⟨[], ?_, ?_, by simp, ?_⟩
      · rw [fileSlices, fileNext_end _ _ _ _ (by omega)]; rfl
      · simp; omega
      · intro _ pre x post hsp; simp at hsp

/-! ### UTF-8 -/

/-- Pieces of valid UTF-8 that start at character starts are valid. -/
theorem slices_valid_iff (slices : List Bytes) (h : validUtf8 slices.flatten = true)
    (hne : ∀ x ∈ slices, x ≠ []) :
    (∀ x ∈ slices, validUtf8 x = true) ↔
      ∀ x ∈ slices, ∀ b, x.head? = some b → isCharStart b = true := by
  induction slices with
  | nil => simp
  | cons x xs ih =>
    rw [List.flatten_cons] at h
    have hx : x ≠ [] := hne x (by simp)
    constructor
    · intro hv y hy b hb
      obtain ⟨cs, rfl⟩ := validUtf8_iff.1 (hv y hy)
      exact utf8Encode_head cs b hb
    · intro hs
      have hsplit := (valid_split_iff h).2 (by
        intro b hb
        cases xs with
        | nil => simp at hb
        | cons y ys =>
          obtain ⟨c, cs, rfl⟩ := List.exists_cons_of_ne_nil (hne y (by simp))
          simp at hb
          exact hs _ (List.mem_cons_of_mem _ (List.mem_cons_self)) b (by simp [hb]))
      have := (ih hsplit.2 (fun y hy => hne y (by simp [hy]))).2
        (fun y hy => hs y (by simp [hy]))
      intro y hy
      rcases List.mem_cons.1 hy with rfl | hy
      · exact hsplit.1
      · exact this y hy

theorem fromVecs_ok_iff (l : List Bytes) :
    (∀ x ∈ l, validUtf8 x = true) ∧ fromVecs l = .ok l ∨
    (¬ ∀ x ∈ l, validUtf8 x = true) ∧ ∃ e, fromVecs l = .error e := by
  induction l with
  | nil => exact .inl ⟨by simp, rfl⟩
  | cons x xs ih =>
    by_cases hx : validUtf8 x = true
    · rcases ih with ⟨h1, h2⟩ | ⟨h1, e, h2⟩
      · refine .inl ⟨by simpa [hx] using h1, ?_⟩
        rw [fromVecs]; simp [fromVec, hx, h2, bind, Except.bind]
      · refine .inr ⟨by simpa [hx] using h1, e, ?_⟩
        rw [fromVecs]; simp [fromVec, hx, h2, bind, Except.bind]
    · refine .inr ⟨by simp [hx], .unwrapNone, ?_⟩
      rw [fromVecs]; simp [fromVec, hx, bind, Except.bind]

theorem blankEnd_charBoundary {data : Bytes} (hv : validUtf8 data = true) {p : Nat}
    (h : BlankEnd data p) : ∀ b, data[p]? = some b → isCharStart b = true := by
  obtain ⟨h2, _, h1⟩ := h
  intro b hb
  obtain ⟨cs, hcs⟩ := validUtf8_iff.1 hv
  have hlt := (List.getElem?_eq_some_iff.1 h1).1
  have hg := (List.getElem?_eq_some_iff.1 h1).2
  have hsp : utf8Encode cs = data.take (p - 1) ++ (10 : UInt8) :: data.drop p := by
    rw [← hcs]
    conv => lhs; rw [← List.take_append_drop (p - 1) data]
    rw [List.drop_eq_getElem_cons hlt, hg]
    have : p - 1 + 1 = p := by omega
    rw [this]
  obtain ⟨c1, c2, _, _, h4⟩ := encode_split_ascii cs _ _ 10 (by decide) hsp
  refine utf8Encode_head c2 b ?_
  rw [← h4]
  simpa [List.head?_drop] using hb

theorem ascii_valid {data : Bytes} (h : ∀ b ∈ data, b < 128) : validUtf8 data = true := by
  induction data with
  | nil => exact validUtf8_nil
  | cons b bs ih =>
    have hb := h b (by simp)
    have h1 := ih (fun x hx => h x (by simp [hx]))
    have : validUtf8 [b] = true := by
      refine validUtf8_iff.2 ⟨[Char.ofUInt8 b], ?_⟩
      rw [utf8Encode_singleton]
      have hlt : b.toNat < 128 := by
        have := UInt8.lt_iff_toNat_lt.1 hb; simpa using this
      have hv : (Char.ofUInt8 b).val.toNat = b.toNat := by simp [Char.ofUInt8]
      unfold String.utf8EncodeChar
      simp only [hv]
      rw [if_pos (by omega)]
      simp
    exact validUtf8_append this h1

end Input
end Tokens
