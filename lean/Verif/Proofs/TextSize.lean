import Verif.Proofs.Processing
import Verif.Proofs.Utf8
import Verif.Spec.TextSize
import Verif.Spec.WordCost

/-! The size of processed texts. -/

set_option linter.unusedSimpArgs false
set_option linter.unusedVariables false

namespace Tokens
open Spec Processing

theorem byteLen_nil : byteLen [] = 0 := rfl

theorem byteLen_append (a b : List Char) : byteLen (a ++ b) = byteLen a + byteLen b := by
  simp [byteLen, utf8Encode]

theorem byteLen_cons (c : Char) (t : List Char) : byteLen (c :: t) = byteLen [c] + byteLen t :=
  byteLen_append [c] t

theorem byteLen_pos (c : Char) : 1 ≤ byteLen [c] := by
  unfold byteLen
  rw [utf8Encode_singleton]
  obtain ⟨l, r, h, _⟩ := char_shape c
  rw [h]; simp

theorem length_le_byteLen (t : List Char) : t.length ≤ byteLen t := by
  induction t with
  | nil => simp
  | cons c t ih =>
    rw [byteLen_cons, List.length_cons]
    have := byteLen_pos c
    omega

theorem byteLen_ascii {t : List Char} (h : ∀ c ∈ t, c.toNat < 128) : byteLen t = t.length := by
  induction t with
  | nil => rfl
  | cons c t ih =>
    rw [byteLen_cons, List.length_cons, ih (fun x hx => h x (.tail _ hx))]
    have hc : c.toNat < 128 := h c (.head _)
    have : byteLen [c] = 1 := by
      unfold byteLen
      rw [utf8Encode_singleton]
      unfold String.utf8EncodeChar
      have : c.toNat ≤ 127 := by omega
      simp [this]
    omega

theorem byteLen_space : byteLen [' '] = 1 := byteLen_ascii (by simp)
theorem byteLen_newline : byteLen ['\n'] = 1 := byteLen_ascii (by simp)
theorem byteLen_x14 : byteLen [Char.ofNat 0x14] = 1 := byteLen_ascii (by simp)
theorem byteLen_x15 : byteLen [Char.ofNat 0x15] = 1 := byteLen_ascii (by simp)
theorem byteLen_x16 : byteLen [Char.ofNat 0x16] = 1 := byteLen_ascii (by simp)

variable {db : CharTables} {K : Char → Prop}

theorem caseMarked_most {num den : Nat} (hd : den ≤ num) (h : GrowsAtMost db K num den) {w : List Char}
    (hw : ∀ c ∈ w, K c) : den * byteLen (caseMarked db w) ≤ num * byteLen w + den := by
  cases w with
  | nil => simp [caseMarked, byteLen_nil]
  | cons c r =>
    simp only [caseMarked]
    split
    · next hc =>
      rw [byteLen_cons, byteLen_cons (db.lowerFirst c), byteLen_x14, byteLen_cons c]
      have h1 := h.first c (hw c (.head _)) hc.1
      have h2 : den * byteLen r ≤ num * byteLen r := Nat.mul_le_mul_right _ hd
      rw [Nat.mul_add, Nat.mul_add, Nat.mul_add]
      omega
    · split
      · next hc =>
        rw [byteLen_cons, byteLen_x15]
        have h1 := h.word (c :: r) (fun x hx => ⟨hw x hx, by
          rcases List.mem_cons.1 hx with rfl | hx
          · exact hc.1
          · exact hc.2 x hx⟩)
        rw [Nat.mul_add]
        omega
      · have : den * byteLen (c :: r) ≤ num * byteLen (c :: r) := Nat.mul_le_mul_right _ hd
        omega

theorem caseMarked_least (h : KeepsLength db K) {w : List Char}
    (hw : ∀ c ∈ w, K c) : byteLen w ≤ byteLen (caseMarked db w) := by
  cases w with
  | nil => simp [caseMarked, byteLen_nil]
  | cons c r =>
    simp only [caseMarked]
    split
    · next hc =>
      rw [byteLen_cons (Char.ofNat 0x14), byteLen_cons (db.lowerFirst c), byteLen_x14, byteLen_cons c]
      have h1 := h.first c (hw c (.head _)) hc.1
      omega
    · split
      · next hc =>
        rw [byteLen_cons (Char.ofNat 0x15), byteLen_x15]
        have h1 := h.word (c :: r) (fun x hx => ⟨hw x hx, by
          rcases List.mem_cons.1 hx with rfl | hx
          · exact hc.1
          · exact hc.2 x hx⟩)
        omega
      · exact Nat.le_refl _

theorem keeps_grows (h : KeepsLength db K) : GrowsAtMost db K 1 1 :=
  ⟨fun c hc hu => by rw [h.first c hc hu], fun w hw => by rw [h.word w hw]⟩

theorem rewritten_most {num den : Nat} (hd : den ≤ num) (h : GrowsAtMost db K num den) (items : List Item)
    (hw : ∀ c ∈ textOf items, K c) :
    den * byteLen (rewritten db items) ≤
      num * byteLen (textOf items) + den * (2 * (wordsOf items).length) := by
  fun_induction rewritten db items with
  | case1 => simp [byteLen_nil]
  | case2 w v l ih =>
    simp only [textOf, wordsOf] at *
    have h1 := caseMarked_most hd h (w := w) (fun c hc => hw c (by simp [hc]))
    have h2 := ih (fun c hc => hw c (by simp only [List.mem_append, List.mem_cons] at hc ⊢; tauto))
    rw [byteLen_append, byteLen_append, byteLen_x16, byteLen_append w, byteLen_cons ' ', byteLen_space]
    rw [List.length_cons, Nat.mul_add, Nat.mul_add, Nat.mul_add num, Nat.mul_add num]
    rw [Nat.mul_add 2, Nat.mul_add den]
    omega
  | case3 w l hne ih =>
    simp only [textOf, wordsOf] at *
    have h1 := caseMarked_most hd h (w := w) (fun c hc => hw c (by simp [hc]))
    have h2 := ih (fun c hc => hw c (by simp [hc]))
    rw [byteLen_append, byteLen_append, byteLen_x16, byteLen_append w]
    rw [List.length_cons, Nat.mul_add, Nat.mul_add, Nat.mul_add num]
    rw [Nat.mul_add 2, Nat.mul_add den]
    omega
  | case4 c l ih =>
    simp only [textOf, wordsOf] at *
    have h2 := ih (fun c hc => hw c (by simp [hc]))
    have h3 : den * byteLen [c] ≤ num * byteLen [c] := Nat.mul_le_mul_right _ hd
    rw [byteLen_cons c (rewritten db l), byteLen_cons c (textOf l), Nat.mul_add, Nat.mul_add num]
    omega

theorem rewritten_least (h : KeepsLength db K) (items : List Item) (hw : ∀ c ∈ textOf items, K c) :
    byteLen (textOf items) ≤ byteLen (rewritten db items) := by
  fun_induction rewritten db items with
  | case1 => simp [byteLen_nil, textOf]
  | case2 w v l ih =>
    simp only [textOf] at *
    have h1 := caseMarked_least h (w := w) (fun c hc => hw c (by simp [hc]))
    have h2 := ih (fun c hc => hw c (by simp only [List.mem_append, List.mem_cons] at hc ⊢; tauto))
    rw [byteLen_append (caseMarked db w ++ _), byteLen_append (caseMarked db w), byteLen_x16, byteLen_append w,
      byteLen_cons ' ', byteLen_space]
    omega
  | case3 w l hne ih =>
    simp only [textOf] at *
    have h1 := caseMarked_least h (w := w) (fun c hc => hw c (by simp [hc]))
    have h2 := ih (fun c hc => hw c (by simp [hc]))
    rw [byteLen_append (caseMarked db w ++ _), byteLen_append (caseMarked db w), byteLen_x16, byteLen_append w]
    omega
  | case4 c l ih =>
    simp only [textOf] at *
    have h2 := ih (fun c hc => hw c (by simp [hc]))
    rw [byteLen_cons, byteLen_cons c (rewritten db l)]
    omega

/-- Two words have something between them. -/
theorem words_most (items : List Item) (hm : Maximal db items) :
    2 * (wordsOf items).length ≤ (textOf items).length + 1 ∧
    ((∀ v l, items ≠ .word v :: l) → 2 * (wordsOf items).length ≤ (textOf items).length) := by
  induction items with
  | nil => simp [wordsOf]
  | cons x l ih =>
    cases x with
    | word w =>
      obtain ⟨h1, _, h3, h4⟩ := hm
      have := (ih h4).2 h3
      have : 1 ≤ w.length := List.length_pos_of_ne_nil h1
      refine ⟨?_, fun h => absurd rfl (h w l)⟩
      simp only [wordsOf, textOf, List.length_cons, List.length_append]
      omega
    | other c =>
      have := (ih hm.2).1
      refine ⟨?_, fun _ => ?_⟩ <;> simp only [wordsOf, textOf, List.length_cons] <;> omega

theorem process_most {num den : Nat} (hd : den ≤ num) (h : GrowsAtMost db K num den) (text : List Char)
    (hK : ∀ c ∈ text, K c) : ∃ z, process db text = .ok z ∧
      den * byteLen z ≤ num * byteLen text + den * (text.length + 1) := by
  obtain ⟨items, hm, rfl⟩ := exists_items db text
  refine ⟨_, process_items hm, ?_⟩
  have h1 := rewritten_most hd h items hK
  have h2 := (words_most items hm).1
  have h3 := Nat.mul_le_mul_left den h2
  omega

theorem process_least (h : KeepsLength db K) (text : List Char)
    (hK : ∀ c ∈ text, K c) : ∃ z, process db text = .ok z ∧ byteLen text ≤ byteLen z := by
  obtain ⟨items, hm, rfl⟩ := exists_items db text
  exact ⟨_, process_items hm, rewritten_least h items hK⟩

/-- A text that ends in a newline has fewer words. -/
theorem process_most_line {num den : Nat} (hd : den ≤ num) (h : GrowsAtMost db K num den)
    (hnl : db.isAlphabetic '\n' = false) (text : List Char)
    (hK : ∀ c ∈ text, K c) (hend : text = [] ∨ text.getLast? = some '\n') : ∃ z, process db text = .ok z ∧
      den * byteLen z ≤ num * byteLen text + den * text.length := by
  obtain ⟨items, hm, rfl⟩ := exists_items db text
  refine ⟨_, process_items hm, ?_⟩
  have h1 := rewritten_most hd h items hK
  have h2 : 2 * (wordsOf items).length ≤ (textOf items).length := by
    rcases hend with he | he
    · rw [he]
      have : items = [] := by
        cases items with
        | nil => rfl
        | cons x l =>
          cases x with
          | word w =>
            simp only [textOf, List.append_eq_nil_iff] at he
            exact absurd he.1 hm.1
          | other c => simp [textOf] at he
      subst this
      simp [wordsOf]
    · clear h1
      obtain ⟨t, ht⟩ : ∃ t, textOf items = t ++ ['\n'] := by
        obtain ⟨ys, hys⟩ := List.getLast?_eq_some_iff.1 he
        exact ⟨ys, hys⟩
      obtain ⟨is, hm', rfl⟩ := exists_items db t
      have hm2 := maximal_sep hnl hm' (b := []) trivial
      have ht2 : textOf items = textOf (is ++ .other '\n' :: []) := by
        rw [ht, textOf_append]; rfl
      have := items_unique hm hm2 ht2
      subst this
      have hw : ∀ a b : List Item, wordsOf (a ++ b) = wordsOf a ++ wordsOf b := by
        intro a b
        induction a with
        | nil => rfl
        | cons x l ih =>
          cases x <;> simp [wordsOf, ih]
      have := (words_most is hm').1
      rw [hw, textOf_append]
      simp only [wordsOf, textOf, List.append_nil, List.length_append, List.length_cons, List.length_nil]
      omega
  have h3 := Nat.mul_le_mul_left den h2
  omega

theorem dropCR_byteLen (t : List Char) : byteLen (dropCR t) ≤ byteLen t ∧ (dropCR t).length ≤ t.length ∧
    ∀ c ∈ dropCR t, c ∈ t := by
  fun_induction dropCR t with
  | case1 t ih =>
    obtain ⟨h1, h2, h3⟩ := ih
    refine ⟨?_, ?_, ?_⟩
    · rw [byteLen_cons, byteLen_cons '\r', byteLen_cons '\n' t]; omega
    · simp only [List.length_cons]; omega
    · intro c hc
      rcases List.mem_cons.1 hc with rfl | hc
      · simp
      · simp [h3 c hc]
  | case2 c t hne ih =>
    obtain ⟨h1, h2, h3⟩ := ih
    refine ⟨?_, ?_, ?_⟩
    · rw [byteLen_cons, byteLen_cons c t]; omega
    · simp only [List.length_cons]; omega
    · intro x hx
      rcases List.mem_cons.1 hx with rfl | hx
      · simp
      · simp [h3 x hx]
  | case3 => simp

theorem finalNewline_facts (t : List Char) : byteLen t ≤ byteLen (finalNewline t) ∧
    byteLen (finalNewline t) ≤ byteLen t + 1 ∧
    (finalNewline t).length ≤ t.length + 1 ∧ (∀ c ∈ finalNewline t, c ∈ t ∨ c = '\n') ∧
    (finalNewline t = [] ∨ (finalNewline t).getLast? = some '\n') := by
  unfold finalNewline
  split
  · next h => exact ⟨Nat.le_refl _, by omega, by omega, fun c hc => .inl hc, h⟩
  · refine ⟨?_, ?_, by simp, by simp, .inr (by simp)⟩ <;> rw [byteLen_append, byteLen_newline] <;> omega

theorem keeps_grows_more {num den : Nat} (hd : den ≤ num) (h : KeepsLength db K) : GrowsAtMost db K num den :=
  ⟨fun c hc hu => by rw [h.first c hc hu]; exact Nat.mul_le_mul_right _ hd,
   fun w hw => by rw [h.word w hw]; exact Nat.mul_le_mul_right _ hd⟩

theorem toLower_ascii {c : Char} (hc : c.toNat < 128) : c.toLower.toNat < 128 := by
  unfold Char.toLower
  split
  · next h =>
    have h90 : c.val.toNat ≤ 90 := UInt32.le_iff_toNat_le.1 h.2
    simp only [Char.toNat]
    have e : (c.val + ('a'.val - 'A'.val)).toNat = c.val.toNat + 32 := by
      rw [UInt32.toNat_add, show ('a'.val - 'A'.val).toNat = 32 by decide]
      apply Nat.mod_eq_of_lt
      omega
    rw [e]; omega
  · exact hc

theorem ascii_keeps (hdb : AsciiTables db) : KeepsLength db Ascii := by
  refine ⟨fun c hc _ => ?_, fun w hw => ?_⟩
  · rw [hdb.lowerFirst c hc, byteLen_ascii (t := [c.toLower]) (fun x hx => by
      rw [List.mem_singleton.1 hx]; exact toLower_ascii hc),
      byteLen_ascii (t := [c]) (fun x hx => by rw [List.mem_singleton.1 hx]; exact hc)]
    rfl
  · rw [hdb.lowerStr w (fun c hc => (hw c hc).1), byteLen_ascii (t := w.map Char.toLower) (by
      intro c hc
      obtain ⟨d, hd, rfl⟩ := List.mem_map.1 hc
      exact toLower_ascii (hw d hd).1), byteLen_ascii (fun c hc => (hw c hc).1), List.length_map]

end Tokens
