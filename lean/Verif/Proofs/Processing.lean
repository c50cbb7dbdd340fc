import Verif.Spec.Words
import Verif.Proofs.Spans

/-! `process` computes the documented rewriting; it is one-to-one on suitable texts. -/

set_option linter.unusedSimpArgs false
set_option linter.unusedVariables false

namespace Tokens.Processing
open Spec
variable {db : CharTables}

theorem addWord_eq (out : List Char) {w : List Char} (hw : w ≠ []) :
    addWord db out w = .ok (out ++ caseMarked db w ++ [Char.ofNat 0x16]) := by
  cases w with
  | nil => exact absurd rfl hw
  | cons c r =>
    have e : addWord db out (c :: r) = .ok ((if db.isUppercase c then
        if r.all db.isLowercase then out ++ [chCap] ++ [db.lowerFirst c] ++ r
        else if r.all db.isUppercase then out ++ [chUpper] ++ db.lowerStr (c :: r)
        else out ++ (c :: r)
      else out ++ (c :: r)) ++ [chEnd]) := rfl
    rw [e]
    have h1 : (∀ c ∈ r, db.isLowercase c = true) ↔ r.all db.isLowercase = true := by simp
    have h2 : (∀ c ∈ r, db.isUppercase c = true) ↔ r.all db.isUppercase = true := by simp
    simp only [caseMarked, h1, h2]
    by_cases hu : db.isUppercase c <;> by_cases hl : r.all db.isLowercase <;>
      by_cases hr : r.all db.isUppercase <;> simp only [hu, hl, hr, and_self, and_true, and_false,
        if_true, if_false, Bool.false_eq_true, chCap, chUpper, chEnd] <;> simp

theorem charType_letter {c : Char} (h : db.isAlphabetic c = true) : getCharType db c = .letter := by
  simp [getCharType, h]

theorem charType_space (h : db.isAlphabetic ' ' = false) : getCharType db ' ' = .space := by
  simp [getCharType, h]

theorem charType_other {c : Char} (h : db.isAlphabetic c = false) (hc : c ≠ ' ') :
    getCharType db c = .nonLetter := by
  simp [getCharType, h, hc]

theorem run_letters (out : List Char) (st : State) (acc w text : List Char)
    (hw : ∀ c ∈ w, db.isAlphabetic c = true) (hne : w ≠ []) :
    run db out st acc (w ++ text) = run db out .word (acc ++ w) text := by
  have single : ∀ st acc c text, db.isAlphabetic c = true →
      run db out st acc (c :: text) = run db out .word (acc ++ [c]) text := by
    intro st acc c text hc
    rw [run]
    cases st <;> simp only [step, charType_letter hc, R.ok_bind]
  induction w generalizing st acc with
  | nil => exact absurd rfl hne
  | cons c w ih =>
    rw [List.cons_append, single _ _ _ _ (hw c (by simp))]
    by_cases h : w = []
    · subst h; simp
    · rw [ih _ _ (fun x hx => hw x (by simp [hx])) h]
      simp

theorem run_nonWord (out : List Char) (c : Char) (text : List Char) (h : db.isAlphabetic c = false) :
    run db out .nonWord [] (c :: text) = run db (out ++ [c]) .nonWord [] text := by
  rw [run]
  by_cases hc : c = ' '
  · subst hc; simp only [step, charType_space h, R.ok_bind]
  · simp only [step, charType_other h hc, R.ok_bind]

theorem rewritten_word_not_space (w : List Char) {l : List Item}
    (h : ∀ v l', l ≠ .other ' ' :: .word v :: l') :
    rewritten db (.word w :: l) = caseMarked db w ++ [Char.ofNat 0x16] ++ rewritten db l := by
  rw [rewritten]
  rintro v l' rfl
  exact h v l' rfl

theorem run_items (n : Nat) : ∀ (l : List Item), l.length ≤ n → Maximal db l →
    (∀ out, run db out .nonWord [] (textOf l) = .ok (out ++ rewritten db l)) ∧
    ∀ out w, w ≠ [] → Maximal db (.word w :: l) →
      run db out .word w (textOf l) = .ok (out ++ rewritten db (.word w :: l)) := by
  induction n with
  | zero =>
    intro l hl hm
    have : l = [] := List.length_eq_zero_iff.1 (by omega)
    subst this
    refine ⟨fun out => by simp [textOf, run, rewritten], fun out w hw _ => ?_⟩
    simp only [textOf, run, addWord_eq out hw, rewritten]
    simp
  | succ n ih =>
    intro l hl hm
    have B : ∀ out w, w ≠ [] → Maximal db (.word w :: l) →
      run db out .word w (textOf l) = .ok (out ++ rewritten db (.word w :: l)) := by
      intro out w hw hmw
      cases l with
      | nil =>
        simp only [textOf, run, addWord_eq out hw, rewritten]
        simp
      | cons x l =>
        cases x with
        | word v => exact absurd rfl (hmw.2.2.1 v l)
        | other c =>
          obtain ⟨hc, hml⟩ := hm
          simp at hl
          have ihl := ih l (by omega) hml
          by_cases hsp : c = ' '
          · subst hsp
            simp only [textOf]
            rw [run]
            simp only [step, charType_space hc, addWord_eq out hw, R.ok_bind]
            cases l with
            | nil =>
              rw [rewritten_word_not_space w (by simp)]
              simp [textOf, run, rewritten]
            | cons y l =>
              simp at hl
              cases y with
              | word v =>
                obtain ⟨hv, hvl, hvn, hvm⟩ := hml
                simp only [textOf]
                rw [run_letters _ _ _ _ _ hvl hv, List.nil_append,
                  (ih l (by omega) hvm).2 _ v hv ⟨hv, hvl, hvn, hvm⟩, rewritten]
                simp
              | other d =>
                obtain ⟨hd, hdm⟩ := hml
                simp only [textOf]
                rw [run]
                have : step db (out ++ caseMarked db w ++ [Char.ofNat 0x16]) .spaceAfterWord [] d =
                    .ok (out ++ caseMarked db w ++ [Char.ofNat 0x16] ++ [' '] ++ [d], .nonWord, []) := by
                  by_cases h : d = ' '
                  · subst h; simp only [step, charType_space hd]
                  · simp only [step, charType_other hd h]
                rw [this]
                simp only [R.ok_bind]
                rw [(ih l (by omega) hdm).1, rewritten_word_not_space w (by simp)]
                simp [rewritten]
          · simp only [textOf]
            rw [run]
            simp only [step, charType_other hc hsp, addWord_eq out hw, R.ok_bind]
            rw [ihl.1, rewritten_word_not_space w (by
              intro v l' he
              simp at he
              exact hsp he.1)]
            simp [rewritten]
    refine ⟨?_, B⟩
    intro out
    cases l with
    | nil => simp [textOf, run, rewritten]
    | cons x l =>
      simp at hl
      cases x with
      | word v =>
        obtain ⟨hv, hvl, hvn, hvm⟩ := hm
        simp only [textOf]
        rw [run_letters _ _ _ _ _ hvl hv, List.nil_append,
          (ih l (by omega) hvm).2 _ v hv ⟨hv, hvl, hvn, hvm⟩]
      | other c =>
        obtain ⟨hc, hml⟩ := hm
        simp only [textOf]
        rw [run_nonWord _ _ _ hc, (ih l (by omega) hml).1]
        simp [rewritten]

theorem process_items {l : List Item} (h : Maximal db l) :
    process db (textOf l) = .ok (rewritten db l) := by
  have := (run_items l.length l (Nat.le_refl _) h).1 []
  rw [process, this]
  simp

theorem exists_items (db : CharTables) (text : List Char) :
    ∃ l, Maximal db l ∧ textOf l = text := by
  induction text with
  | nil => exact ⟨[], trivial, rfl⟩
  | cons c text ih =>
    obtain ⟨l, hm, rfl⟩ := ih
    by_cases hc : db.isAlphabetic c = true
    · cases l with
      | nil => exact ⟨[.word [c]], by simp [Maximal, hc], rfl⟩
      | cons x l =>
        cases x with
        | word w =>
          obtain ⟨hv, hvl, hvn, hvm⟩ := hm
          exact ⟨.word (c :: w) :: l, ⟨by simp, by simpa [hc] using hvl, hvn, hvm⟩, rfl⟩
        | other d =>
          exact ⟨.word [c] :: .other d :: l, ⟨by simp, by simp [hc], by simp, hm⟩, rfl⟩
    · exact ⟨.other c :: l, ⟨by simpa using hc, hm⟩, rfl⟩

/-- The division into items is unique. -/
theorem items_unique {a b : List Item} (ha : Maximal db a) (hb : Maximal db b)
    (h : textOf a = textOf b) : a = b := by
  induction a generalizing b with
  | nil =>
    cases b with
    | nil => rfl
    | cons y b =>
      cases y with
      | word w => simp [textOf, hb.1] at h
      | other c => simp [textOf] at h
  | cons x a ih =>
    cases x with
    | other c =>
      cases b with
      | nil => simp [textOf] at h
      | cons y b =>
        cases y with
        | word w =>
          obtain ⟨h1, h2, h3, h4⟩ := hb
          cases w with
          | nil => exact absurd rfl h1
          | cons d w =>
            simp only [textOf, List.cons_append, List.cons.injEq] at h
            have := h2 d (by simp)
            rw [← h.1, ha.1] at this
            cases this
        | other d =>
          simp only [textOf, List.cons.injEq] at h
          rw [h.1, ih ha.2 hb.2 h.2]
    | word v =>
      obtain ⟨g1, g2, g3, g4⟩ := ha
      cases b with
      | nil => simp [textOf, g1] at h
      | cons y b =>
        cases y with
        | other d =>
          cases v with
          | nil => exact absurd rfl g1
          | cons e v =>
            simp only [textOf, List.cons_append, List.cons.injEq] at h
            have := g2 e (by simp)
            rw [h.1, hb.1] at this
            cases this
        | word w =>
          obtain ⟨h1, h2, h3, h4⟩ := hb
          -- what follows a word is not a letter
          have tail : ∀ l : List Item, Maximal db l → (∀ u l', l ≠ .word u :: l') →
              ∀ c ∈ (textOf l).head?, db.isAlphabetic c = false := by
            intro l hl hne c hc
            cases l with
            | nil => simp [textOf] at hc
            | cons z l =>
              cases z with
              | word u => exact absurd rfl (hne u l)
              | other e => simp [textOf] at hc; rw [← hc]; exact hl.1
          have run : ∀ (v w x y : List Char), (∀ c ∈ v, db.isAlphabetic c = true) →
              (∀ c ∈ w, db.isAlphabetic c = true) → (∀ c ∈ x.head?, db.isAlphabetic c = false) →
              (∀ c ∈ y.head?, db.isAlphabetic c = false) → v ++ x = w ++ y → v = w ∧ x = y := by
            intro v
            induction v with
            | nil =>
              intro w x y _ hw hx _ e
              cases w with
              | nil => exact ⟨rfl, e⟩
              | cons c w =>
                simp at e
                have := hx c (by rw [e]; simp)
                rw [hw c (by simp)] at this
                cases this
            | cons d v ihv =>
              intro w x y hv hw hx hy e
              cases w with
              | nil =>
                simp at e
                have := hy d (by rw [← e]; simp)
                rw [hv d (by simp)] at this
                cases this
              | cons c w =>
                simp only [List.cons_append, List.cons.injEq] at e
                obtain ⟨e1, e2⟩ := ihv w x y (fun c hc => hv c (by simp [hc]))
                  (fun c hc => hw c (by simp [hc])) hx hy e.2
                exact ⟨by rw [e.1, e1], e2⟩
          simp only [textOf] at h
          obtain ⟨e1, e2⟩ := run v w _ _ g2 h2 (tail a g4 g3) (tail b h4 h3) h
          rw [e1, ih g4 h4 e2]

theorem textOf_append (a b : List Item) : textOf (a ++ b) = textOf a ++ textOf b := by
  induction a with
  | nil => rfl
  | cons x a ih => cases x <;> simp [textOf, ih]

/-- A non-letter other than a space separates. -/
theorem maximal_sep {c : Char} (hc : db.isAlphabetic c = false) {a b : List Item}
    (ha : Maximal db a) (hb : Maximal db b) : Maximal db (a ++ .other c :: b) := by
  induction a with
  | nil => exact ⟨hc, hb⟩
  | cons x a ih =>
    cases x with
    | word w =>
      obtain ⟨h1, h2, h3, h4⟩ := ha
      refine ⟨h1, h2, ?_, ih h4⟩
      intro v l' he
      cases a with
      | nil => simp at he
      | cons y a =>
        simp at he
        exact h3 v a (by rw [he.1])
    | other d => exact ⟨ha.1, ih ha.2⟩

theorem rewritten_sep {c : Char} (hsp : c ≠ ' ') (a b : List Item) :
    rewritten db (a ++ .other c :: b) = rewritten db a ++ c :: rewritten db b := by
  fun_induction rewritten db a with
  | case1 => simp [rewritten]
  | case2 w v l ih =>
    simp only [List.cons_append, rewritten]
    simp only [List.cons_append] at ih
    rw [ih]
    simp
  | case3 w l hne ih =>
    rw [List.cons_append, rewritten_word_not_space]
    · rw [ih]; simp
    · rintro v l' he
      rcases l with _ | ⟨x, _ | ⟨y, l⟩⟩
      · rw [List.nil_append, List.cons.injEq, Item.other.injEq] at he
        exact hsp he.1
      · rw [List.cons_append, List.nil_append, List.cons.injEq, List.cons.injEq] at he
        exact absurd he.2.1 (by simp)
      · rw [List.cons_append, List.cons_append, List.cons.injEq, List.cons.injEq] at he
        exact hne v l (by rw [he.1, he.2.1])
  | case4 c' l ih =>
    simp only [List.cons_append, rewritten, ih]

theorem process_newline (hnl : db.isAlphabetic '\n' = false) (a b : List Char) :
    ∃ x y, process db a = .ok x ∧ process db b = .ok y ∧
      process db (a ++ '\n' :: b) = .ok (x ++ '\n' :: y) := by
  obtain ⟨la, ha, rfl⟩ := exists_items db a
  obtain ⟨lb, hb, rfl⟩ := exists_items db b
  refine ⟨_, _, process_items ha, process_items hb, ?_⟩
  have := process_items (maximal_sep hnl ha hb)
  rw [textOf_append, rewritten_sep (by decide)] at this
  exact this

/-- What lines contribute: each with a newline after it. -/
theorem processLines_eq (hnl : db.isAlphabetic '\n' = false) (ls : List (List Char)) :
    ∃ z, process db (ls.flatMap (· ++ ['\n'])) = .ok z ∧
      ∀ w, processLines db w ls = .ok (w ++ z) := by
  induction ls with
  | nil => exact ⟨[], rfl, fun w => by simp [processLines]⟩
  | cons l ls ih =>
    obtain ⟨z, hz, hw⟩ := ih
    obtain ⟨x, y, hx, hy, hxy⟩ := process_newline hnl l (ls.flatMap (· ++ ['\n']))
    rw [hz] at hy
    injection hy with hy
    subst hy
    refine ⟨x ++ '\n' :: z, by simpa using hxy, fun w => ?_⟩
    rw [processLines, hx]
    simp only [R.ok_bind]
    rw [hw]
    simp

theorem linesFrom_append (cur l text : List Char) (h : '\n' ∉ l) :
    linesFrom cur (l ++ '\n' :: text) =
      (if (cur ++ l).getLast? = some '\r' then (cur ++ l).dropLast else cur ++ l) ::
        linesFrom [] text := by
  induction l generalizing cur with
  | nil => simp [linesFrom]
  | cons c l ih =>
    simp at h
    rw [List.cons_append, linesFrom, if_neg (fun e => h.1 e.symm), ih _ h.2]
    simp

theorem linesFrom_last (cur l : List Char) (h : '\n' ∉ l) :
    linesFrom cur l = if (cur ++ l).isEmpty then [] else [cur ++ l] := by
  induction l generalizing cur with
  | nil => simp [linesFrom]
  | cons c l ih =>
    simp at h
    rw [linesFrom, if_neg (fun e => h.1 e.symm), ih _ h.2]
    simp

theorem lines_unix (ls : List (List Char)) (h : ∀ l ∈ ls, '\n' ∉ l ∧ l.getLast? ≠ some '\r') :
    lines (ls.flatMap (· ++ ['\n'])) = ls := by
  induction ls with
  | nil => rfl
  | cons l ls ih =>
    have hl := h l (by simp)
    have := ih (fun x hx => h x (by simp [hx]))
    unfold lines at this ⊢
    rw [List.flatMap_cons, List.append_assoc, List.singleton_append, linesFrom_append _ _ _ hl.1]
    simp [hl.2, this]

/-- Every text is a list of newline-terminated lines and a rest without newline. -/
theorem split_lines (text : List Char) : ∃ (ls : List (List Char)) (r : List Char),
    (∀ l ∈ ls, '\n' ∉ l) ∧ '\n' ∉ r ∧ text = ls.flatMap (· ++ ['\n']) ++ r := by
  induction text with
  | nil => exact ⟨[], [], by simp, by simp, rfl⟩
  | cons c text ih =>
    obtain ⟨ls, r, h1, h2, h3⟩ := ih
    by_cases hc : c = '\n'
    · subst hc
      exact ⟨[] :: ls, r, by simpa using h1, h2, by simp [h3]⟩
    · cases ls with
      | nil => exact ⟨[], c :: r, by simp, by simp [h2, Ne.symm hc], by simp [h3]⟩
      | cons l ls =>
        refine ⟨(c :: l) :: ls, r, ?_, h2, by simp [h3]⟩
        intro x hx
        simp at hx
        rcases hx with rfl | hx
        · simp [Ne.symm hc, h1 l (by simp)]
        · exact h1 x (by simp [hx])

/-- One line without its `\r`. -/
def strip (l : List Char) : List Char := if l.getLast? = some '\r' then l.dropLast else l

theorem dropCR_cons {c d : Char} {t : List Char} (h : c ≠ '\r' ∨ d ≠ '\n') :
    dropCR (c :: d :: t) = c :: dropCR (d :: t) := by
  rw [dropCR]
  rintro t' rfl he
  simp only [List.cons.injEq] at he
  rcases h with h | h
  · exact h rfl
  · exact h he.1

theorem dropCR_append (x y : List Char) : dropCR (x ++ '.' :: y) = dropCR x ++ '.' :: dropCR y := by
  have dot : dropCR ('.' :: y) = '.' :: dropCR y := by
    cases y with
    | nil => rfl
    | cons d y => rw [dropCR_cons (.inl (by decide))]
  fun_induction dropCR x with
  | case1 t ih => rw [List.cons_append, List.cons_append, dropCR, ih, List.cons_append]
  | case2 c t h ih =>
    cases t with
    | nil =>
      rw [List.cons_append, List.nil_append, dropCR_cons (.inr (by decide)), dot]
      simp [dropCR]
    | cons d t =>
      rw [List.cons_append] at ih
      rw [List.cons_append, List.cons_append, dropCR_cons, ih, List.cons_append]
      by_cases hc : c = '\r'
      · right
        rintro rfl
        exact h t hc rfl
      · exact .inl hc
  | case3 => simpa [dropCR] using dot

theorem dropCR_line (l t : List Char) (h : '\n' ∉ l) :
    dropCR (l ++ '\n' :: t) = strip l ++ '\n' :: dropCR t := by
  induction l with
  | nil =>
    have : dropCR ('\n' :: t) = '\n' :: dropCR t := by
      cases t with
      | nil => rfl
      | cons d t => rw [dropCR_cons (.inl (by decide))]
    simpa [strip] using this
  | cons c l ih =>
    simp only [List.mem_cons, not_or] at h
    cases l with
    | nil =>
      by_cases hc : c = '\r'
      · subst hc; simp [dropCR, strip]
      · have := ih (by simp)
        rw [List.cons_append, List.nil_append, dropCR_cons (.inl hc)]
        simp only [List.nil_append] at this
        rw [this]
        simp [strip, hc]
    | cons d l =>
      simp only [List.mem_cons, not_or] at h
      rw [List.cons_append, List.cons_append, dropCR_cons (.inr (Ne.symm h.2.1))]
      rw [List.cons_append] at ih
      rw [ih (by simp [h.2])]
      unfold strip
      rw [List.getLast?_cons_cons]
      split <;> simp

theorem dropCR_rest (l : List Char) (h : '\n' ∉ l) : dropCR l = l := by
  induction l with
  | nil => rfl
  | cons c l ih =>
    simp only [List.mem_cons, not_or] at h
    cases l with
    | nil => simp [dropCR]
    | cons d l =>
      have h2 := h.2
      simp only [List.mem_cons, not_or] at h2
      rw [dropCR_cons (.inr (Ne.symm h2.1)), ih h.2]

theorem lines_split (ls : List (List Char)) (r : List Char) (h : ∀ l ∈ ls, '\n' ∉ l) (hr : '\n' ∉ r) :
    lines (ls.flatMap (· ++ ['\n']) ++ r) = ls.map strip ++ (if r.isEmpty then [] else [r]) ∧
    dropCR (ls.flatMap (· ++ ['\n']) ++ r) = (ls.map strip).flatMap (· ++ ['\n']) ++ r := by
  induction ls with
  | nil =>
    refine ⟨?_, by simpa using dropCR_rest r hr⟩
    rw [lines, List.flatMap_nil, List.nil_append, linesFrom_last _ _ hr]
    simp
  | cons l ls ih =>
    obtain ⟨h1, h2⟩ := ih (fun x hx => h x (by simp [hx]))
    unfold lines at h1 ⊢
    rw [List.flatMap_cons, List.append_assoc, List.append_assoc, List.singleton_append,
      linesFrom_append _ _ _ (h l (by simp)), dropCR_line _ _ (h l (by simp)), h1, h2]
    simp [strip]

theorem processFile_eq (hnl : db.isAlphabetic '\n' = false) (text : List Char) :
    ∃ z, processFile db text = .ok z ∧ process db (finalNewline (dropCR text)) = .ok z := by
  obtain ⟨ls, r, h1, h2, rfl⟩ := split_lines text
  obtain ⟨e1, e2⟩ := lines_split ls r h1 h2
  rw [processFile, e1, e2]
  obtain ⟨z, hz, hw⟩ := processLines_eq hnl (ls.map strip ++ (if r.isEmpty then [] else [r]))
  refine ⟨z, by simpa using hw [], ?_⟩
  rw [← hz]
  congr 1
  unfold finalNewline
  cases r with
  | nil =>
    simp only [List.isEmpty_nil, if_true, List.append_nil]
    rw [if_pos]
    rcases List.eq_nil_or_concat (ls.map strip) with h | ⟨x, y, h⟩
    · rw [h]; exact .inl rfl
    · right; rw [h]; simp
  | cons c r =>
    rw [if_neg]
    · simp
    · rintro (h | h)
      · simp at h
      · rw [List.getLast?_append] at h
        rw [List.getLast?_eq_some_getLast (by simp : c :: r ≠ []), Option.some_or, Option.some.injEq] at h
        apply h2
        rw [← h]
        exact List.getLast_mem _

theorem dropCR_of_unix {text : List Char} (h : ∀ a b, text ≠ a ++ '\r' :: '\n' :: b) :
    dropCR text = text := by
  induction text with
  | nil => rfl
  | cons c t ih =>
    have ht : dropCR t = t := ih (fun a b e => h (c :: a) b (by rw [e]; rfl))
    cases t with
    | nil => simp [dropCR]
    | cons d t =>
      rw [dropCR_cons, ht]
      by_cases hc : c = '\r'
      · right
        rintro rfl
        exact h [] t (by rw [hc]; rfl)
      · exact .inl hc

/-! ### Injectivity -/

theorem caseMarked_head {K : Char → Prop} {w : List Char} (hw : w ≠ []) :
    ∃ c r, caseMarked db w = c :: r ∧
      (c = Char.ofNat 0x14 ∨ c = Char.ofNat 0x15 ∨ c ∈ w) := by
  cases w with
  | nil => exact absurd rfl hw
  | cons c r =>
    simp only [caseMarked]
    split
    · exact ⟨_, _, rfl, .inl rfl⟩
    · split
      · exact ⟨_, _, rfl, .inr (.inl rfl)⟩
      · exact ⟨_, _, rfl, .inr (.inr (by simp))⟩

theorem caseMarked_noEnd {K : Char → Prop} (hK : OneToOne db K) {w : List Char} (hw : ∀ c ∈ w, K c) :
    Char.ofNat 0x16 ∉ caseMarked db w := by
  have hnot : Char.ofNat 0x16 ∉ w := fun h => hK.noMarker.2.2 (hw _ h)
  cases w with
  | nil => simp [caseMarked]
  | cons c r =>
    simp only [caseMarked]
    simp only [List.mem_cons, not_or] at hnot
    split
    · simp only [List.mem_cons, not_or]
      exact ⟨by decide, fun e => hK.firstNoEnd c (hw c (by simp)) e.symm, hnot.2⟩
    · split
      · simp only [List.mem_cons, not_or]
        exact ⟨by decide, hK.wordNoEnd _ hw⟩
      · simp only [List.mem_cons, not_or]
        exact hnot

theorem caseMarked_inj {K : Char → Prop} (hK : OneToOne db K) {v w : List Char} (hv0 : v ≠ [])
    (hw0 : w ≠ []) (hv : ∀ c ∈ v, K c)
    (hw : ∀ c ∈ w, K c) (h : caseMarked db v = caseMarked db w) : v = w := by
  cases v with
  | nil => exact absurd rfl hv0
  | cons a r =>
    cases w with
    | nil => exact absurd rfl hw0
    | cons b t =>
      have h14 : Char.ofNat 0x14 ≠ Char.ofNat 0x15 := by decide
      have ha := hv a (by simp)
      have hb := hw b (by simp)
      have a14 : a ≠ Char.ofNat 0x14 := fun e => hK.noMarker.1 (e ▸ ha)
      have b14 : b ≠ Char.ofNat 0x14 := fun e => hK.noMarker.1 (e ▸ hb)
      have a15 : a ≠ Char.ofNat 0x15 := fun e => hK.noMarker.2.1 (e ▸ ha)
      have b15 : b ≠ Char.ofNat 0x15 := fun e => hK.noMarker.2.1 (e ▸ hb)
      unfold caseMarked at h
      simp only at h
      split at h
      · next c1 =>
        split at h
        · next c2 =>
          simp only [List.cons.injEq, true_and] at h
          rw [hK.first a b ha hb c1.1 c2.1 h.1, h.2]
        · split at h
          · simp only [List.cons.injEq] at h; exact absurd h.1 h14
          · simp only [List.cons.injEq] at h; exact absurd h.1.symm b14
      · split at h
        · next c1 =>
          split at h
          · simp only [List.cons.injEq] at h; exact absurd h.1.symm h14
          · split at h
            · next c2 =>
              simp only [List.cons.injEq, true_and] at h
              refine hK.word _ _ ?_ ?_ h
              · intro c hc
                refine ⟨hv c hc, ?_⟩
                rcases List.mem_cons.1 hc with rfl | hc
                · exact c1.1
                · exact c1.2 c hc
              · intro c hc
                refine ⟨hw c hc, ?_⟩
                rcases List.mem_cons.1 hc with rfl | hc
                · exact c2.1
                · exact c2.2 c hc
            · simp only [List.cons.injEq] at h; exact absurd h.1.symm b15
        · split at h
          · simp only [List.cons.injEq] at h; exact absurd h.1 a14
          · split at h
            · simp only [List.cons.injEq] at h; exact absurd h.1 a15
            · exact h

theorem split_at_end {x y a b : List Char} {e : Char} (hx : e ∉ x) (hy : e ∉ y)
    (h : x ++ [e] ++ a = y ++ [e] ++ b) : x = y ∧ a = b := by
  induction x generalizing y with
  | nil =>
    cases y with
    | nil => simpa using h
    | cons c y => simp at h; simp [h.1] at hy
  | cons c x ih =>
    cases y with
    | nil => simp at h; simp [h.1] at hx
    | cons d y =>
      simp only [List.cons_append, List.cons.injEq] at h
      simp only [List.mem_cons, not_or] at hx hy
      obtain ⟨h1, h2⟩ := ih hx.2 hy.2 h.2
      exact ⟨by rw [h.1, h1], h2⟩

/-- The rewriting of a list that starts with a word starts with a marker or a letter. -/
theorem rewritten_word_head (w : List Char) (l : List Item) (hw : w ≠ [])
    (hl : ∀ c ∈ w, db.isAlphabetic c = true) :
    ∃ c r, rewritten db (.word w :: l) = c :: r ∧
      (c = Char.ofNat 0x14 ∨ c = Char.ofNat 0x15 ∨ db.isAlphabetic c = true) := by
  obtain ⟨c, r, h1, h2⟩ := caseMarked_head (db := db) (K := fun _ => True) hw
  have : ∃ x, rewritten db (.word w :: l) = caseMarked db w ++ x := by
    by_cases h : ∃ v l', l = .other ' ' :: .word v :: l'
    · obtain ⟨v, l', rfl⟩ := h
      rw [rewritten, List.append_assoc]
      exact ⟨_, rfl⟩
    · rw [rewritten_word_not_space w (fun v l' e => h ⟨v, l', e⟩), List.append_assoc]
      exact ⟨_, rfl⟩
  obtain ⟨x, hx⟩ := this
  rw [hx, h1]
  refine ⟨c, r ++ x, rfl, ?_⟩
  rcases h2 with h | h | h
  · exact .inl h
  · exact .inr (.inl h)
  · exact .inr (.inr (hl c h))

/-- Items with characters of a class. -/
def ItemsIn (K : Char → Prop) (l : List Item) : Prop := ∀ c ∈ textOf l, K c

theorem rewritten_other_ne_word {K : Char → Prop} (hK : OneToOne db K) {c : Char} (hc : K c)
    (ha : db.isAlphabetic c = false) (w : List Char) (l l' : List Item) (hw : w ≠ [])
    (hl : ∀ c ∈ w, db.isAlphabetic c = true) (y : List Char) :
    c :: y ≠ rewritten db (.word w :: l) := by
  obtain ⟨d, r, h1, h2⟩ := rewritten_word_head (db := db) w l hw hl
  rw [h1]
  intro h
  simp only [List.cons.injEq] at h
  obtain ⟨rfl, _⟩ := h
  rcases h2 with h | h | h
  · exact hK.noMarker.1 (h ▸ hc)
  · exact hK.noMarker.2.1 (h ▸ hc)
  · rw [ha] at h; cases h

theorem rewritten_nil_ne_word (w : List Char) (l : List Item) (hw : w ≠ [])
    (hl : ∀ c ∈ w, db.isAlphabetic c = true) : [] ≠ rewritten db (.word w :: l) := by
  obtain ⟨d, r, h1, h2⟩ := rewritten_word_head (db := db) w l hw hl
  rw [h1]
  simp

theorem rewritten_inj {K : Char → Prop} (hK : OneToOne db K) (n : Nat) :
    ∀ a b : List Item, a.length ≤ n → Maximal db a → Maximal db b → ItemsIn K a → ItemsIn K b →
    rewritten db a = rewritten db b → a = b := by
  induction n with
  | zero =>
    intro a b hn ha hb ka kb h
    have : a = [] := List.length_eq_zero_iff.1 (by omega)
    subst this
    cases b with
    | nil => rfl
    | cons y b =>
      cases y with
      | word w => exact absurd h (rewritten_nil_ne_word w b hb.1 hb.2.1)
      | other c => simp [rewritten] at h
  | succ n ih =>
    intro a b hn ha hb ka kb h
    cases a with
    | nil =>
      cases b with
      | nil => rfl
      | cons y b =>
        cases y with
        | word w => exact absurd h (rewritten_nil_ne_word w b hb.1 hb.2.1)
        | other c => simp [rewritten] at h
    | cons x a =>
      simp at hn
      cases x with
      | other c =>
        have kc : K c := ka c (by simp [textOf])
        cases b with
        | nil => simp [rewritten] at h
        | cons y b =>
          cases y with
          | word w =>
            rw [rewritten.eq_4] at h
            exact absurd h (rewritten_other_ne_word hK kc ha.1 w b [] hb.1 hb.2.1 _)
          | other d =>
            simp only [rewritten, List.cons.injEq] at h
            rw [h.1, ih a b (by omega) ha.2 hb.2 (fun c hc => ka c (by simp [textOf, hc]))
              (fun c hc => kb c (by simp [textOf, hc])) h.2]
      | word v =>
        cases b with
        | nil => exact absurd h.symm (rewritten_nil_ne_word v a ha.1 ha.2.1)
        | cons y b =>
          cases y with
          | other d =>
            rw [rewritten.eq_4] at h
            exact absurd h.symm (rewritten_other_ne_word hK (kb d (by simp [textOf])) hb.1 v a [] ha.1
              ha.2.1 _)
          | word w =>
            have kv : ∀ c ∈ v, K c := fun c hc => ka c (by simp [textOf, hc])
            have kw : ∀ c ∈ w, K c := fun c hc => kb c (by simp [textOf, hc])
            have nv := caseMarked_noEnd hK kv
            have nw := caseMarked_noEnd hK kw
            -- the tail of a word
            have ka' : ItemsIn K a := fun c hc => ka c (by simp [textOf, hc])
            have kb' : ItemsIn K b := fun c hc => kb c (by simp [textOf, hc])
            have clash : ∀ (p q : List Item), Maximal db p → ItemsIn K p → (∀ u l', p ≠ .word u :: l') →
                ∀ u l', Maximal db (.word u :: l') → rewritten db p ≠ rewritten db (.word u :: l') := by
              intro p q hp kp hpw u l' hu
              cases p with
              | nil => exact rewritten_nil_ne_word u l' hu.1 hu.2.1
              | cons z p =>
                cases z with
                | word t => exact absurd rfl (hpw t p)
                | other c =>
                  rw [rewritten.eq_4]
                  exact rewritten_other_ne_word hK (kp c (by simp [textOf])) hp.1 u l' [] hu.1 hu.2.1 _
            by_cases h1 : ∃ t a', a = .other ' ' :: .word t :: a'
            · obtain ⟨t, a', rfl⟩ := h1
              by_cases h2 : ∃ s b', b = .other ' ' :: .word s :: b'
              · obtain ⟨s, b', rfl⟩ := h2
                rw [rewritten.eq_2, rewritten.eq_2] at h
                obtain ⟨e1, e2⟩ := split_at_end nv nw h
                have := ih (.word t :: a') (.word s :: b') (by simp at hn ⊢; omega)
                  ha.2.2.2.2 hb.2.2.2.2 (fun c hc => ka' c (by simp only [textOf] at hc ⊢; simp [hc]))
                  (fun c hc => kb' c (by simp only [textOf] at hc ⊢; simp [hc])) e2
                rw [caseMarked_inj hK ha.1 hb.1 kv kw e1, this]
              · rw [rewritten.eq_2, rewritten_word_not_space w (fun u l' e => h2 ⟨u, l', e⟩)] at h
                obtain ⟨e1, e2⟩ := split_at_end nv nw h
                exact absurd e2.symm (clash b [] hb.2.2.2 kb' hb.2.2.1 t a' ha.2.2.2.2)
            · by_cases h2 : ∃ s b', b = .other ' ' :: .word s :: b'
              · obtain ⟨s, b', rfl⟩ := h2
                rw [rewritten.eq_2, rewritten_word_not_space v (fun u l' e => h1 ⟨u, l', e⟩)] at h
                obtain ⟨e1, e2⟩ := split_at_end nv nw h
                exact absurd e2 (clash a [] ha.2.2.2 ka' ha.2.2.1 s b' hb.2.2.2.2)
              · rw [rewritten_word_not_space w (fun u l' e => h2 ⟨u, l', e⟩),
                  rewritten_word_not_space v (fun u l' e => h1 ⟨u, l', e⟩)] at h
                obtain ⟨e1, e2⟩ := split_at_end nv nw h
                rw [caseMarked_inj hK ha.1 hb.1 kv kw e1, ih a b (by omega) ha.2.2.2 hb.2.2.2 ka' kb' e2]

theorem process_inj {K : Char → Prop} (hK : OneToOne db K) {s t : List Char} (hs : ∀ c ∈ s, K c)
    (ht : ∀ c ∈ t, K c) (h : process db s = process db t) : s = t := by
  obtain ⟨a, ha, rfl⟩ := exists_items db s
  obtain ⟨b, hb, rfl⟩ := exists_items db t
  rw [process_items ha, process_items hb] at h
  injection h with h
  rw [rewritten_inj hK a.length a b (Nat.le_refl _) ha hb hs ht h]

theorem toLower_inj {a b : Char} (ha : a.isUpper = true) (hb : b.isUpper = true)
    (h : a.toLower = b.toLower) : a = b := by
  have key : ∀ c : Char, c.isUpper = true → c.toLower.toNat = c.toNat + 32 ∧ c.toNat < 128 := by
    intro c hc
    have h1 : 65 ≤ c.toNat ∧ c.toNat ≤ 90 := by
      simpa [Char.isUpper, UInt32.le_iff_toNat_le] using hc
    have h2 : ∀ n : Nat, 65 ≤ n → n ≤ 90 → (Char.ofNat n).toLower.toNat = n + 32 := by
      intro n
      have : ∀ n < 91, 65 ≤ n → (Char.ofNat n).toLower.toNat = n + 32 := by decide
      intro a b
      exact this n (by omega) a
    have := h2 c.toNat h1.1 h1.2
    rw [Char.ofNat_toNat] at this
    exact ⟨this, by omega⟩
  have h1 := key a ha
  have h2 := key b hb
  have : a.toNat = b.toNat := by
    have := congrArg Char.toNat h
    omega
  rw [← Char.ofNat_toNat a, ← Char.ofNat_toNat b, this]

theorem toLower_ne_end {c : Char} (hc : Ascii c) (hne : c ≠ Char.ofNat 0x16) :
    c.toLower ≠ Char.ofNat 0x16 := by
  have : ∀ n < 128, n ≠ 0x16 → (Char.ofNat n).toLower ≠ Char.ofNat 0x16 := by decide
  have h := this c.toNat hc (by
    intro e
    apply hne
    rw [← e, Char.ofNat_toNat])
  rwa [Char.ofNat_toNat] at h

/-- ASCII without the three markers. -/
def PlainAscii (c : Char) : Prop := Ascii c ∧ c.toNat ≠ 0x14 ∧ c.toNat ≠ 0x15 ∧ c.toNat ≠ 0x16

theorem ascii_oneToOne (h : AsciiTables db) :
    OneToOne db PlainAscii where
  noMarker := by
    refine ⟨fun h => h.2.1 rfl, fun h => h.2.2.1 rfl, fun h => h.2.2.2 rfl⟩
  first := by
    intro a b ha hb ua ub e
    rw [h.upper a ha.1] at ua
    rw [h.upper b hb.1] at ub
    rw [h.lowerFirst a ha.1, h.lowerFirst b hb.1] at e
    exact toLower_inj ua ub e
  firstNoEnd := by
    intro a ha
    rw [h.lowerFirst a ha.1]
    exact toLower_ne_end ha.1 (fun e => ha.2.2.2 (by rw [e]; rfl))
  word := by
    intro v w hv hw e
    rw [h.lowerStr v (fun c hc => (hv c hc).1.1), h.lowerStr w (fun c hc => (hw c hc).1.1)] at e
    induction v generalizing w with
    | nil => simp at e; rw [e]
    | cons a v ih =>
      cases w with
      | nil => simp at e
      | cons b w =>
        simp only [List.map_cons, List.cons.injEq] at e
        have ha := hv a (by simp)
        have hb := hw b (by simp)
        rw [toLower_inj (by rw [← h.upper a ha.1.1]; exact ha.2) (by rw [← h.upper b hb.1.1]; exact hb.2)
          e.1, ih w (fun c hc => hv c (by simp [hc])) (fun c hc => hw c (by simp [hc])) e.2]
  wordNoEnd := by
    intro v hv
    rw [h.lowerStr v (fun c hc => (hv c hc).1)]
    intro hm
    obtain ⟨c, hc, e⟩ := List.mem_map.1 hm
    exact toLower_ne_end (hv c hc).1 (fun e => (hv c hc).2.2.2 (by rw [e]; rfl)) e

end Tokens.Processing
