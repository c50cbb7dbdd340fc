import Verif.Proofs.Sampler

/-! `sample_from_file`, `extract_valid_utf8_slice`, `PreloadedSampler`. -/

set_option linter.unusedSimpArgs false
set_option linter.unusedVariables false

namespace Tokens
open Spec
namespace Input

/-! ### sample_from_file -/

/-- A line: newline bytes only at the end. -/
def IsLine (l : Bytes) : Prop := l ≠ [] ∧ ∀ u v, l = u ++ 10 :: v → v = []

theorem splitLines_flatten (f : Bytes) : (splitLines f).flatten = f := by
  induction f with
  | nil => rfl
  | cons b bs ih =>
    rw [splitLines]
    split
    · next h => simp [ih, h]
    · split
      · next h => rw [h] at ih; simp at ih; subst ih; simp
      · next h => rw [h] at ih; simp at ih; simp [ih]

theorem splitLines_isLine (f : Bytes) : ∀ l ∈ splitLines f, IsLine l := by
  induction f with
  | nil => simp [splitLines]
  | cons b bs ih =>
    have h1 : ∀ x : UInt8, x ≠ 10 → ∀ l, (l = [] ∨ IsLine l) → IsLine (x :: l) := by
      intro x hx l hl
      refine ⟨by simp, ?_⟩
      intro u v h
      cases u with
      | nil => simp at h; exact absurd h.1 hx
      | cons y u =>
        simp at h
        rcases hl with rfl | hl
        · simp at h
        · exact hl.2 u v h.2
    rw [splitLines]
    split
    · intro l hl
      rcases List.mem_cons.1 hl with rfl | hl
      · refine ⟨by simp, ?_⟩
        intro u v h
        cases u with
        | nil => simpa using h.symm
        | cons y u => simp at h
      · exact ih l hl
    · next hb =>
      split
      · intro l hl; simp at hl; subst hl; exact h1 b hb [] (.inl rfl)
      · next l0 ls h =>
        rw [h] at ih
        intro l hl
        rcases List.mem_cons.1 hl with rfl | hl
        · exact h1 b hb l0 (.inr (ih l0 (by simp)))
        · exact ih l (by simp [hl])

/-- The paragraphs formed by `lines` after the unfinished paragraph `p`. -/
def paraSplit : List Bytes → Bytes → List Bytes
  | [], p => [p]
  | b :: rest, p =>
    if b.head? ≠ some 10 ∧ endsBlank p then p :: paraSplit rest b else paraSplit rest (p ++ b)

/-- The selection made by `sample_from_file` among the paragraphs. -/
def selectParas (less : Nat → Nat → Bool) : List Bytes → Bytes → Nat → Bytes
  | [], data, _ => data
  | p :: ps, data, r =>
    selectParas less ps (if less data.length r then data ++ p else data) (r + p.length)

theorem sampleLoop_eq (less : Nat → Nat → Bool) (lines : List Bytes) (hl : ∀ l ∈ lines, l ≠ [])
    (data p : Bytes) (r : Nat) :
    sampleLoop less lines data p r = .ok (selectParas less (paraSplit lines p) data r) := by
  induction lines generalizing data p r with
  | nil => rfl
  | cons b rest ih =>
    have ih := ih (fun l h => hl l (by simp [h]))
    obtain ⟨x, xs, hb⟩ := List.exists_cons_of_ne_nil (hl b (by simp))
    subst hb
    rw [sampleLoop, paraSplit]
    have : getR (x :: xs) 0 = .ok x := rfl
    rw [this]
    simp only [R.ok_bind]
    by_cases hc : x ≠ 10 ∧ endsBlank p = true
    · have hc' : (x :: xs).head? ≠ some 10 ∧ endsBlank p = true := ⟨by simpa using hc.1, hc.2⟩
      rw [if_pos hc, if_pos hc', ih, selectParas]
    · have hc' : ¬ ((x :: xs).head? ≠ some 10 ∧ endsBlank p = true) := by
        intro hh; exact hc ⟨by simpa using hh.1, hh.2⟩
      rw [if_neg hc, if_neg hc', ih]

theorem innerBreak_append {p l : Bytes} (hp : ¬ HasInnerBreak p) (hl : IsLine l)
    (h : ¬ (l.head? ≠ some 10 ∧ [10, 10] <:+ p)) : ¬ HasInnerBreak (p ++ l) := by
  rintro ⟨u, x, v, he, hx⟩
  rw [List.append_assoc] at he
  rcases List.append_eq_append_iff.1 he with ⟨w, h1, h2⟩ | ⟨w, h1, h2⟩
  · -- the break starts inside the line or at its start
    cases w with
    | nil =>
      simp at h2
      have := hl.2 [] _ (by simpa using h2)
      simp at this
    | cons y w =>
      have := hl.2 (y :: w) (10 :: x :: v) (by rw [h2]; simp)
      simp at this
  · -- the break starts inside `p`
    cases w with
    | nil =>
      simp at h2
      have := hl.2 [] (10 :: x :: v) (by simpa using h2.symm)
      simp at this
    | cons y w =>
      simp at h2
      obtain ⟨rfl, h2⟩ := h2
      cases w with
      | nil =>
        simp at h2
        have := hl.2 [] (x :: v) (by simpa using h2.symm)
        simp at this
      | cons z w =>
        simp at h2
        obtain ⟨rfl, h2⟩ := h2
        cases w with
        | nil =>
          simp at h2
          refine h ⟨?_, ?_⟩
          · rw [← h2]; simpa using hx
          · exact ⟨u, h1.symm⟩
        | cons t w =>
          simp at h2
          obtain ⟨rfl, h2⟩ := h2
          exact hp ⟨u, x, w, by rw [h1]; simp, hx⟩

theorem isLine_noInner {l : Bytes} (hl : IsLine l) : ¬ HasInnerBreak l := by
  rintro ⟨u, x, v, he, hx⟩
  have := hl.2 u (10 :: x :: v) (by rw [he]; simp)
  simp at this

theorem paraSplit_spec (lines : List Bytes) (hl : ∀ l ∈ lines, IsLine l) (p : Bytes) (hp : p ≠ [])
    (hi : ¬ HasInnerBreak p) :
    Paragraphs (p ++ lines.flatten) (paraSplit lines p) ∧
      ∃ q rest, paraSplit lines p = q :: rest ∧ p <+: q := by
  induction lines generalizing p with
  | nil =>
    refine ⟨⟨by simp [paraSplit], by simp [paraSplit, hp], by simp [paraSplit], by simp [paraSplit],
      by simp [paraSplit, hi]⟩, p, [], rfl, List.prefix_refl _⟩
  | cons b rest ih =>
    have ih := ih (fun l h => hl l (by simp [h]))
    have hb := hl b (by simp)
    rw [paraSplit]
    by_cases hc : b.head? ≠ some 10 ∧ endsBlank p = true
    · rw [if_pos hc]
      obtain ⟨⟨h1, h2, h3, h4, h5⟩, q, qs, h6, h7⟩ := ih b hb.1 (isLine_noInner hb)
      refine ⟨⟨?_, ?_, ?_, ?_, ?_⟩, p, _, rfl, List.prefix_refl _⟩
      · simp [h1]
      · intro x hx
        rcases List.mem_cons.1 hx with rfl | hx
        · exact hp
        · exact h2 x hx
      · intro x hx
        rw [h6, List.dropLast_cons_of_ne_nil (by simp)] at hx
        rcases List.mem_cons.1 hx with rfl | hx
        · simpa [endsBlank] using hc.2
        · exact h3 x (by rw [h6]; exact hx)
      · intro x hx
        rw [List.tail_cons, h6] at hx
        rcases List.mem_cons.1 hx with rfl | hx
        · obtain ⟨y, ys, rfl⟩ := List.exists_cons_of_ne_nil hb.1
          obtain ⟨t, rfl⟩ := h7
          simpa using hc.1
        · exact h4 x (by rw [h6]; exact hx)
      · intro x hx
        rcases List.mem_cons.1 hx with rfl | hx
        · exact hi
        · exact h5 x hx
    · rw [if_neg hc]
      obtain ⟨h1, q, qs, h6, h7⟩ := ih (p ++ b) (by simp [hp])
        (innerBreak_append hi hb (by simpa [endsBlank] using hc))
      refine ⟨by simpa using h1, q, qs, h6, ?_⟩
      exact (List.prefix_append p b).trans h7

theorem paragraphs_of_file (file : Bytes) (h : file ≠ []) :
    Paragraphs file (paraSplit (splitLines file) []) := by
  have hf := splitLines_flatten file
  have hl := splitLines_isLine file
  cases hs : splitLines file with
  | nil => rw [hs] at hf; simp at hf; exact absurd hf (by simpa using h)
  | cons l ls =>
    rw [hs] at hf hl
    rw [paraSplit, if_neg (by simp [endsBlank])]
    have := (paraSplit_spec ls (fun x hx => hl x (by simp [hx])) ([] ++ l)
      (by simpa using (hl l (by simp)).1) (by simpa using isLine_noInner (hl l (by simp)))).1
    simpa [← hf] using this

theorem selectParas_sublist (less : Nat → Nat → Bool) (ps : List Bytes) (data : Bytes) (r : Nat) :
    ∃ sel, List.Sublist sel ps ∧ selectParas less ps data r = data ++ sel.flatten := by
  induction ps generalizing data r with
  | nil => exact ⟨[], List.Sublist.slnil, by simp [selectParas]⟩
  | cons p ps ih =>
    rw [selectParas]
    obtain ⟨sel, h1, h2⟩ := ih (if less data.length r then data ++ p else data) (r + p.length)
    rw [h2]
    split
    · exact ⟨p :: sel, h1.cons_cons p, by simp⟩
    · exact ⟨sel, h1.cons p, rfl⟩

/-! ### extract_valid_utf8_slice -/

theorem skipCont_spec (d : Bytes) :
    skipCont d ≤ d.length ∧ (∀ x ∈ d.take (skipCont d), isCharStart x = false) ∧
    ∀ x, (d.drop (skipCont d)).head? = some x → isCharStart x = true := by
  induction d with
  | nil => simp [skipCont]
  | cons b bs ih =>
    rw [skipCont]
    split
    · next h => refine ⟨by simp, by simp, ?_⟩; intro x hx; simp at hx; subst hx; exact h
    · next h =>
      refine ⟨by simp; exact ih.1, ?_, by simpa using ih.2.2⟩
      intro x hx
      simp at hx
      rcases hx with rfl | hx
      · simpa using h
      · exact ih.2.1 x hx

/-- The end loop stops at the last character start at or before `e`, or at `start`. -/
theorem backToStart_spec (data : Bytes) (start e k : Nat) (he : e < data.length) (hk : k ≤ e)
    (hsk : start ≤ k)
    (hstart : k = start ∨ ∃ b, data[k]? = some b ∧ isCharStart b = true)
    (hmid : ∀ j b, k < j → j ≤ e → data[j]? = some b → isCharStart b = false) :
    backToStart data start e = .ok k := by
  induction e with
  | zero => rw [backToStart]; congr 1; omega
  | succ e ih =>
    rw [backToStart]
    by_cases h : k = e + 1
    · subst h
      rcases hstart with h | ⟨b, hb, hs⟩
      · rw [if_neg (by omega)]
      · split
        · rw [getR_of hb]; simp only [R.ok_bind, hs]; rfl
        · rfl
    · rw [if_pos (by omega)]
      have hb := List.getElem?_eq_getElem he
      rw [getR_of hb]
      simp only [R.ok_bind]
      rw [hmid (e + 1) _ (by omega) (Nat.le_refl _) hb]
      exact ih (by omega) (by omega) (fun j b h1 h2 h3 => hmid j b h1 (by omega) h3)

theorem utf8EncodeChar_length_le (c : Char) : (String.utf8EncodeChar c).length ≤ 4 := by
  obtain ⟨l, r, h, _, _, h3, _⟩ := char_shape c
  rw [h]; simp; omega

/-- A run of continuation bytes inside encoded text has at most 3 bytes. -/
theorem cont_run_le (cs : Text) (a p b : Bytes) (h : utf8Encode cs = a ++ p ++ b)
    (hp : ∀ x ∈ p, isCharStart x = false) : p.length ≤ 3 := by
  induction cs generalizing a with
  | nil => simp at h; rw [h.2.1]; simp
  | cons c cs ih =>
    rw [utf8Encode_cons, List.append_assoc] at h
    rcases List.append_eq_append_iff.1 h with ⟨w, h1, h2⟩ | ⟨w, h1, h2⟩
    · exact ih w (by rw [h2, List.append_assoc])
    · -- `a` is a prefix of the character; `w ++ rest = p ++ b`
      obtain ⟨l, r, e1, e2, e3, e4, e5⟩ := char_shape c
      cases a with
      | nil =>
        cases p with
        | nil => simp
        | cons x p =>
          rw [e1] at h1
          simp at h1
          subst h1
          simp at h2
          have := hp x (by simp)
          rw [h2.1] at this
          rw [e2] at this
          simp at this
      | cons y a =>
        rw [e1] at h1
        simp at h1
        obtain ⟨rfl, h1⟩ := h1
        have hw : w.length ≤ 3 := by rw [h1] at e4; simp at e4; omega
        -- p must fit within w, because the text after w starts with a character start
        rcases List.append_eq_append_iff.1 h2.symm with ⟨z, g1, g2⟩ | ⟨z, g1, g2⟩
        · cases z with
          | nil => simp at g1; rw [g1]; exact hw
          | cons t z =>
            have := utf8Encode_head cs t (by rw [g2]; rfl)
            rw [hp t (by rw [g1]; simp)] at this
            simp at this
        · rw [g1] at hw; simp at hw; omega

theorem extract_spec (cs : Text) (a p b : Bytes) (h : utf8Encode cs = a ++ p ++ b)
    (hs : ∃ x ∈ p, isCharStart x = true) :
    ∃ u q v, extractValidUtf8Slice p = .ok q ∧ p = u ++ q ++ v ∧ validUtf8 q = true ∧
      u.length ≤ 3 ∧ v.length ≤ 4 := by
  obtain ⟨k1, k2, k3⟩ := skipCont_spec p
  generalize hst : skipCont p = start at *
  -- the tail from the first character start
  have hlt : start < p.length := by
    apply Classical.byContradiction
    intro hn
    have : p.take start = p := List.take_of_length_le (by omega)
    rw [this] at k2
    obtain ⟨x, hx, hx'⟩ := hs
    rw [k2 x hx] at hx'
    simp at hx'
  have hu : (p.take start).length ≤ 3 := by
    refine cont_run_le cs a (p.take start) (p.drop start ++ b) ?_ k2
    rw [h]
    simp only [List.append_assoc]
    rw [← List.append_assoc (List.take start p), List.take_append_drop]
  obtain ⟨_, c2, _, _, hc2⟩ := encode_split cs (a ++ p.take start) (p.drop start ++ b)
    (by rw [h]
        simp only [List.append_assoc]
        rw [← List.append_assoc (List.take start p), List.take_append_drop]) (by
    intro x hx
    refine k3 x ?_
    obtain ⟨y, ys, hy⟩ := List.exists_cons_of_ne_nil (l := p.drop start) (by
      intro h0
      have := congrArg List.length h0
      simp at this; omega)
    rw [hy] at hx ⊢
    simpa using hx)
  obtain ⟨d1, d2, r, _, hr1, hr2⟩ := encode_prefix c2 (p.drop start) b hc2.symm
  have hp : p = p.take start ++ (utf8Encode d1 ++ r) := by
    rw [← hr1, List.take_append_drop]
  have hul : (p.take start).length = start := by simp; omega
  have hpl : p.length = start + (utf8Encode d1).length + r.length := by
    have := congrArg List.length hp
    rw [List.length_append, List.length_append, hul] at this
    omega
  have hne : p ≠ [] := by rintro rfl; simp at hlt
  have hlast : p.length - 1 < p.length := by omega
  have hget := List.getElem?_eq_getElem hlast
  unfold extractValidUtf8Slice
  rw [hst]
  simp only
  have hsub : subR p.length 1 = .ok (p.length - 1) := by unfold subR; rw [if_pos (by omega)]
  rw [hsub]
  simp only [R.ok_bind]
  rw [getR_of hget]
  simp only [R.ok_bind]
  -- finishing: result when the end is `start + n`, with `n` the length of a valid prefix
  have fin : ∀ (d r' : Bytes), p = p.take start ++ (d ++ r') → validUtf8 d = true → r'.length ≤ 4 →
      ∃ u q v, sliceR p start (start + d.length) = .ok q ∧ p = u ++ q ++ v ∧ validUtf8 q = true ∧
        u.length ≤ 3 ∧ v.length ≤ 4 := by
    intro d r' hd hv hr'
    have hlen := congrArg List.length hd
    rw [List.length_append, List.length_append, hul] at hlen
    refine ⟨p.take start, d, r', ?_, by rw [List.append_assoc]; exact hd, hv, hu, hr'⟩
    rw [sliceR_ok (by omega) (by omega), List.drop_take]
    congr 1
    have h1 : p.drop start = d ++ r' := by
      have e : (p.take start ++ (d ++ r')).drop start = d ++ r' := by
        rw [List.drop_append]; simp [hul]
      rwa [← hd] at e
    rw [h1, show start + d.length - start = d.length by omega]
    simp
  -- bytes of p after start
  have hpget : ∀ j : Nat, p[start + j]? = (utf8Encode d1 ++ r)[j]? := by
    intro j
    rw [← hr1, List.getElem?_drop]
  by_cases hr : r = []
  · subst hr
    -- the piece ends with a complete character
    have hd1 : d1 ≠ [] := by
      rintro rfl
      have : (utf8Encode []).length = 0 := rfl
      have : ([] : Bytes).length = 0 := rfl
      omega
    obtain ⟨d0, c, rfl⟩ : ∃ d0 c, d1 = d0 ++ [c] := ⟨d1.dropLast, d1.getLast hd1, (List.dropLast_concat_getLast hd1).symm⟩
    rw [utf8Encode_append, utf8Encode_singleton] at hp hpl hpget
    obtain ⟨l, t, e1, e2, e3, e4, e5⟩ := char_shape c
    rw [e1] at hp hpl hpget
    simp at hpl
    by_cases ht : t = []
    · -- ASCII: the end is kept
      subst ht
      have hl : l < 128 := e5.2 rfl
      have hz : ([] : Bytes).length = 0 := rfl
      have : p[p.length - 1] = l := by
        have := hpget (utf8Encode d0).length
        rw [show start + (utf8Encode d0).length = p.length - 1 by omega, hget] at this
        simpa using this
      rw [this, if_neg (by simpa using hl)]
      have := fin (utf8Encode d0 ++ [l]) [] (by simpa using hp)
        (by rw [← e1, ← utf8Encode_singleton, ← utf8Encode_append]; exact validUtf8_encode _) (by simp)
      have e : start + (utf8Encode d0 ++ [l]).length = p.length := by simp; omega
      rw [e] at this
      exact this
    · -- multi-byte: the last character is dropped
      have htl : 0 < t.length := List.length_pos_iff.2 ht
      have hbig : p[p.length - 1] ≥ 128 := by
        have hmem : p[p.length - 1] ∈ t := by
          have := hpget ((utf8Encode d0).length + t.length)
          rw [show start + ((utf8Encode d0).length + t.length) = p.length - 1 by omega, hget] at this
          simp only [List.append_nil] at this
          rw [List.getElem?_append_right (by omega)] at this
          have h2 : (utf8Encode d0).length + t.length - (utf8Encode d0).length = (t.length - 1) + 1 := by
            omega
          rw [h2, List.getElem?_cons_succ] at this
          exact List.mem_iff_getElem?.2 ⟨_, this.symm⟩
        have := e3 _ hmem
        simp [isCharStart] at this
        exact this.1
      rw [if_pos hbig, backToStart_spec p start (p.length - 1) (start + (utf8Encode d0).length)
        hlast (by omega) (by omega)]
      · simp only [R.ok_bind]
        exact fin (utf8Encode d0) (l :: t) (by simpa using hp) (validUtf8_encode _) (by simp; omega)
      · right
        refine ⟨l, ?_, e2⟩
        rw [hpget]; simp
      · intro j x hj1 hj2 hx
        obtain ⟨i, rfl⟩ : ∃ i, j = start + i := ⟨j - start, by omega⟩
        rw [hpget] at hx
        simp only [List.append_nil] at hx
        rw [List.getElem?_append_right (by omega)] at hx
        have h2 : i - (utf8Encode d0).length = (i - (utf8Encode d0).length - 1) + 1 := by omega
        rw [h2, List.getElem?_cons_succ] at hx
        exact e3 x (List.mem_iff_getElem?.2 ⟨_, hx⟩)
  · -- the piece ends inside a character
    rcases hr2 with hr2 | ⟨d, ds, r', _, hr', hd⟩
    · exact absurd hr2 hr
    obtain ⟨l, t, e1, e2, e3, e4, e5⟩ := char_shape d
    obtain ⟨y, ys, rfl⟩ := List.exists_cons_of_ne_nil hr
    rw [e1] at hd
    simp at hd
    obtain ⟨rfl, hd⟩ := hd
    have htne : t ≠ [] := by rw [hd]; simp [hr']
    have hlb : ¬ l < 128 := fun hc => htne (e5.1 hc)
    have hys : ∀ x ∈ ys, isCharStart x = false := fun x hx => e3 x (by rw [hd]; simp [hx])
    have hysl : ys.length ≤ 3 := by rw [hd] at e4; simp at e4; omega
    simp at hpl
    have hbig : p[p.length - 1] ≥ 128 := by
      have := hpget ((utf8Encode d1).length + ys.length)
      rw [show start + ((utf8Encode d1).length + ys.length) = p.length - 1 by omega, hget,
        List.getElem?_append_right (by omega),
        show (utf8Encode d1).length + ys.length - (utf8Encode d1).length = ys.length by omega] at this
      have hmem : p[p.length - 1] ∈ l :: ys := List.mem_iff_getElem?.2 ⟨_, this.symm⟩
      rcases List.mem_cons.1 hmem with h0 | h0
      · rw [h0]; simpa using hlb
      · have := hys _ h0
        simp [isCharStart] at this
        exact this.1
    rw [if_pos hbig, backToStart_spec p start (p.length - 1) (start + (utf8Encode d1).length)
      hlast (by omega) (by omega)]
    · simp only [R.ok_bind]
      exact fin (utf8Encode d1) (l :: ys) hp (validUtf8_encode _) (by simp; omega)
    · right
      refine ⟨l, ?_, e2⟩
      rw [hpget]; simp
    · intro j x hj1 hj2 hx
      obtain ⟨i, rfl⟩ : ∃ i, j = start + i := ⟨j - start, by omega⟩
      rw [hpget, List.getElem?_append_right (by omega)] at hx
      have h2 : i - (utf8Encode d1).length = (i - (utf8Encode d1).length - 1) + 1 := by omega
      rw [h2, List.getElem?_cons_succ] at hx
      exact hys x (List.mem_iff_getElem?.2 ⟨_, hx⟩)

/-- Without a character start the function panics. -/
theorem extract_panics (p : Bytes) (h : ∀ x ∈ p, isCharStart x = false) :
    ∃ e, extractValidUtf8Slice p = .error e := by
  unfold extractValidUtf8Slice
  by_cases hp : p = []
  · subst hp
    exact ⟨.underflow, rfl⟩
  have hpos := List.length_pos_iff.2 hp
  have hsub : subR p.length 1 = .ok (p.length - 1) := by unfold subR; rw [if_pos (by omega)]
  have hlast : p.length - 1 < p.length := by omega
  have hget := List.getElem?_eq_getElem hlast
  have hsk : skipCont p = p.length := by
    obtain ⟨k1, k2, k3⟩ := skipCont_spec p
    apply Classical.byContradiction
    intro hn
    have hlt : skipCont p < p.length := by omega
    have := k3 p[skipCont p] (by rw [List.head?_drop]; exact List.getElem?_eq_getElem hlt)
    rw [h _ (List.getElem_mem hlt)] at this
    simp at this
  rw [hsub]
  simp only [R.ok_bind]
  rw [getR_of hget]
  simp only [R.ok_bind]
  have hbig : p[p.length - 1] ≥ 128 := by
    have := h _ (List.getElem_mem hlast)
    simp [isCharStart] at this
    exact this.1
  rw [if_pos hbig, hsk]
  have : backToStart p p.length (p.length - 1) = .ok (p.length - 1) := by
    cases hl : p.length - 1 with
    | zero => rw [backToStart]
    | succ e => rw [backToStart, if_neg (by omega)]
  rw [this]
  refine ⟨.index, ?_⟩
  simp only [R.ok_bind]
  unfold sliceR
  rw [if_neg (by omega)]

end Input
end Tokens
