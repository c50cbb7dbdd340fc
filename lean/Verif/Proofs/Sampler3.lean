import Verif.Proofs.Sampler2

/-! Sampling valid UTF-8: which cuts are harmless; uniqueness of paragraphs; `PreloadedSampler`. -/

set_option linter.unusedSimpArgs false
set_option linter.unusedVariables false

namespace Tokens
open Spec
namespace Input

theorem map_eq_self_iff {α : Type} {f : α → α} {l : List α} : l.map f = l ↔ ∀ x ∈ l, f x = x := by
  induction l with
  | nil => simp
  | cons a l ih => simp [ih]

theorem head?_flatten_drop {pre : List Bytes} {x : Bytes} {post : List Bytes} {data : Bytes}
    (h : (pre ++ x :: post).flatten = data) (hx : x ≠ []) :
    x.head? = data[pre.flatten.length]? := by
  subst h
  obtain ⟨a, l, rfl⟩ := List.exists_cons_of_ne_nil hx
  simp

/-- Slices of valid text are valid if every cut is a blank line end or the end of the data. -/
theorem slices_valid_of_cuts {data : Bytes} (hv : validUtf8 data = true) {slices : List Bytes}
    (hf : slices.flatten = data) (hne : ∀ x ∈ slices, x ≠ [])
    (hcut : ∀ pre x post, slices = pre ++ x :: post → post ≠ [] →
      BlankEnd data (pre.flatten.length + x.length)) :
    ∀ x ∈ slices, validUtf8 x = true := by
  refine (slices_valid_iff slices (by rw [hf]; exact hv) hne).2 ?_
  intro x hx b hb
  obtain ⟨pre, post, rfl⟩ := List.append_of_mem hx
  rw [head?_flatten_drop hf (hne x hx)] at hb
  rcases List.eq_nil_or_concat pre with rfl | ⟨pre', y, rfl⟩
  · obtain ⟨cs, hcs⟩ := validUtf8_iff.1 hv
    refine utf8Encode_head cs b ?_
    rw [← hcs, List.head?_eq_getElem?]
    simpa using hb
  · have := hcut pre' y (x :: post) (by simp) (by simp)
    refine blankEnd_charBoundary hv this b ?_
    simpa using hb

theorem paragraphs_unique {file : Bytes} {p q : List Bytes} (hp : Paragraphs file p)
    (hq : Paragraphs file q) : p = q := by
  have tailP : ∀ {f : Bytes} {a : Bytes} {l : List Bytes}, Paragraphs f (a :: l) →
      Paragraphs l.flatten l := by
    intro f a l h
    refine ⟨rfl, fun x hx => h.nonempty x (by simp [hx]), ?_, ?_, fun x hx => h.inner x (by simp [hx])⟩
    · intro x hx
      refine h.ends x ?_
      cases l with
      | nil => simp at hx
      | cons b l => rw [List.dropLast_cons_of_ne_nil (by simp)]; simp [hx]
    · intro x hx
      exact h.starts x (by simpa using List.mem_of_mem_tail hx)
  -- no paragraph of one list is a proper prefix of the first of the other
  have noProper : ∀ {f : Bytes} {a b : Bytes} {l m : List Bytes}, Paragraphs f (a :: l) →
      Paragraphs f (b :: m) → ∀ w, b = a ++ w → w = [] := by
    intro f a b l m h1 h2 w hw
    cases w with
    | nil => rfl
    | cons t w =>
      exfalso
      have e := h1.concat.trans h2.concat.symm
      simp only [List.flatten_cons, hw, List.append_assoc, List.append_cancel_left_eq] at e
      cases l with
      | nil => simp at e
      | cons c l =>
        have hend := h1.ends a (by simp)
        have hst := h1.starts c (by simp)
        have hc := h1.nonempty c (by simp)
        obtain ⟨y, ys, rfl⟩ := List.exists_cons_of_ne_nil hc
        simp at e
        obtain ⟨rfl, e⟩ := e
        obtain ⟨u, rfl⟩ := hend
        exact h2.inner b (by simp) ⟨u, y, w, hw, by simpa using hst⟩
  induction p generalizing file q with
  | nil =>
    cases q with
    | nil => rfl
    | cons b m =>
      have e := hp.concat.trans hq.concat.symm
      simp at e
      exact absurd e.1 (hq.nonempty b (by simp))
  | cons a l ih =>
    cases q with
    | nil =>
      have e := hp.concat.trans hq.concat.symm
      simp at e
      exact absurd e.1 (hp.nonempty a (by simp))
    | cons b m =>
      have e := hp.concat.trans hq.concat.symm
      simp only [List.flatten_cons] at e
      have hab : a = b := by
        rcases List.append_eq_append_iff.1 e with ⟨w, h1, h2⟩ | ⟨w, h1, h2⟩
        · rw [noProper hp hq w h1] at h1; simpa using h1.symm
        · rw [noProper hq hp w h1] at h1; simpa using h1
      subst hab
      simp at e
      rw [ih (tailP hp) (by rw [e]; exact tailP hq)]

/-- Once some data has been taken nothing removes it. -/
theorem selectParas_prefix (less : Nat → Nat → Bool) (ps : List Bytes) (data : Bytes) (r : Nat) :
    data <+: selectParas less ps data r := by
  obtain ⟨sel, _, h⟩ := selectParas_sublist less ps data r
  rw [h]
  exact List.prefix_append _ _

/-! ### PreloadedSampler -/

/-- A piece of `file`. -/
theorem readAt_piece (file : Bytes) (offset n short : Nat) :
    ∃ a b, file = a ++ readAt file offset n short ++ b := by
  refine ⟨file.take offset, file.drop (offset + (readAt file offset n short).length), ?_⟩
  have h := readAt_eq file offset n short
  generalize (readAt file offset n short).length = k at *
  rw [h, List.append_assoc, slice_append_drop (by omega), List.take_append_drop]

theorem preloadChunk_spec (file : Bytes) (hv : validUtf8 file = true) (size step i short : Nat)
    (hsize : 4 ≤ size ∨ (size = file.length ∧ i = 0)) (h0 : 0 < size) (hin : i * step + size ≤ file.length)
    (hshort : 4 ≤ short ∨ size ≤ short) :
    ∃ a c b, preloadChunk file size step i short = .ok c ∧ file = a ++ c ++ b ∧
      validUtf8 c = true ∧ c.length ≤ size := by
  have hl := readAt_length file (i * step) size short
  obtain ⟨a, b, hab⟩ := readAt_piece file (i * step) size short
  unfold preloadChunk
  simp only
  generalize hch : readAt file (i * step) size short = chunk at *
  obtain ⟨r, hr, hle, hspec⟩ := findParagraphEnd_spec chunk chunk.length (Nat.le_refl _)
  rw [hr]
  simp only [R.ok_bind]
  rw [sliceR_ok (Nat.zero_le _) hle]
  simp only [R.ok_bind, List.drop_zero]
  obtain ⟨cs, hcs⟩ := validUtf8_iff.1 hv
  have hpiece : utf8Encode cs = a ++ chunk.take r ++ (chunk.drop r ++ b) := by
    rw [← hcs, hab]
    simp only [List.append_assoc]
    rw [← List.append_assoc (List.take r chunk), List.take_append_drop]
  have hcl : 0 < chunk.length := by omega
  have hstart : ∃ x ∈ chunk.take r, isCharStart x = true := by
    apply Classical.byContradiction
    intro hn
    have hn' : ∀ x ∈ chunk.take r, isCharStart x = false := by
      intro x hx
      cases hxx : isCharStart x with
      | false => rfl
      | true => exact absurd ⟨x, hx, hxx⟩ hn
    have hlen := cont_run_le cs a (chunk.take r) _ hpiece hn'
    rcases hspec with ⟨⟨h1, h2, h3⟩, _⟩ | ⟨h1, _⟩
    · have : (10 : UInt8) ∈ chunk.take r := by
        refine List.mem_iff_getElem?.2 ⟨r - 1, ?_⟩
        rw [List.getElem?_take, if_pos (by omega)]
        exact h3
      have := hn' _ this
      simp [isCharStart] at this
    · subst h1
      simp only [List.take_length] at *
      by_cases hs4 : 4 ≤ size ∧ 4 ≤ max 1 short
      · omega
      · have hwhole : a = [] := by
          have e : a.length + chunk.length + b.length = file.length := by
            rw [hab]; simp; omega
          have : a.length = 0 := by
            rcases hsize with h | ⟨h, hi⟩
            · omega
            · omega
          exact List.length_eq_zero_iff.1 this
        subst hwhole
        obtain ⟨y, ys, hy⟩ := List.exists_cons_of_ne_nil (List.length_pos_iff.1 hcl)
        have := utf8Encode_head cs y (by rw [hpiece, hy]; simp)
        rw [hn' y (by rw [hy]; simp)] at this
        simp at this
  obtain ⟨u, q, v, h1, h2, h3, h4, h5⟩ := extract_spec cs a (chunk.take r) _ hpiece hstart
  rw [h1]
  simp only [R.ok_bind]
  have hres : (if q.length = (chunk.take r).length then chunk.take r else q) = q := by
    split
    · next h =>
      rw [h2] at h ⊢
      simp at h
      have hu : u = [] := List.length_eq_zero_iff.1 (by omega)
      have hv : v = [] := List.length_eq_zero_iff.1 (by omega)
      rw [hu, hv]; simp
    · rfl
  rw [hres]
  refine ⟨a ++ u, q, v ++ (chunk.drop r ++ b), rfl, ?_, h3, ?_⟩
  · rw [hcs, hpiece]
    conv => lhs; rw [h2]
    simp
  · have := congrArg List.length h2
    simp at this
    omega

theorem preloadLoop_spec (file : Bytes) (size step : Nat) (short : Nat → Nat) (P : Bytes → Prop)
    (is : List Nat) (h : ∀ i ∈ is, ∃ c, preloadChunk file size step i (short i) = .ok c ∧ P c) :
    ∃ cs, preloadLoop file size step short is = .ok cs ∧ cs.length = is.length ∧ ∀ c ∈ cs, P c := by
  induction is with
  | nil => exact ⟨[], rfl, rfl, by simp⟩
  | cons i is ih =>
    obtain ⟨c, h1, h2⟩ := h i (by simp)
    obtain ⟨cs, g1, g2, g3⟩ := ih (fun j hj => h j (by simp [hj]))
    refine ⟨c :: cs, ?_, by simp [g2], ?_⟩
    · rw [preloadLoop, h1]
      simp only [R.ok_bind]
      rw [g1]
      rfl
    · intro x hx
      rcases List.mem_cons.1 hx with rfl | hx
      · exact h2
      · exact g3 x hx

theorem preloadPlan_spec (len sampleSize maxSamples : Nat) (hl : 0 < len) (hs : 4 ≤ sampleSize)
    (hm : 0 < maxSamples) :
    0 < (preloadPlan len sampleSize maxSamples).2 ∧ 0 < (preloadPlan len sampleSize maxSamples).1 ∧
    (preloadPlan len sampleSize maxSamples).2 ≤ maxSamples ∧
    (preloadPlan len sampleSize maxSamples).1 ≤ sampleSize ∧
    (4 ≤ (preloadPlan len sampleSize maxSamples).1 ∨
      ((preloadPlan len sampleSize maxSamples).1 = len ∧ (preloadPlan len sampleSize maxSamples).2 = 1)) ∧
    ∀ i, i < (preloadPlan len sampleSize maxSamples).2 →
      i * (len / (preloadPlan len sampleSize maxSamples).2) +
        (preloadPlan len sampleSize maxSamples).1 ≤ len := by
  have key : ∀ n, 0 < n → n * sampleSize ≤ len → ∀ i, i < n → i * (len / n) + sampleSize ≤ len := by
    intro n hn h i hi
    have h1 : sampleSize ≤ len / n := (Nat.le_div_iff_mul_le hn).2 (by rw [Nat.mul_comm]; exact h)
    have h2 : (i + 1) * (len / n) ≤ n * (len / n) := Nat.mul_le_mul_right _ hi
    have h3 : n * (len / n) ≤ len := Nat.mul_div_le len n
    rw [Nat.add_mul, Nat.one_mul] at h2
    omega
  unfold preloadPlan
  split
  · simp; omega
  · split
    · next h1 h2 =>
      have hpos : 0 < len / sampleSize := Nat.div_pos (by omega) (by omega)
      have hle : len / sampleSize * sampleSize ≤ len := Nat.div_mul_le_self _ _
      refine ⟨hpos, by omega, ?_, by omega, .inl hs, key _ hpos hle⟩
      exact Nat.div_le_of_le_mul h2
    · next h1 h2 =>
      exact ⟨hm, by omega, by omega, by omega, .inl hs, key _ hm (by rw [Nat.mul_comm]; show sampleSize * maxSamples ≤ len; omega)⟩

end Input
end Tokens
