import Verif.Model.CountLog
import Verif.Spec.CountLog
import Verif.Proofs.CountChars
import Verif.Proofs.ProcessBytes
import Verif.Proofs.Show

/-! What `count_chars` prints. -/

set_option linter.unusedSimpArgs false
set_option linter.unusedVariables false

namespace Tokens
open Spec Input Show Json Processing
namespace Main

/-! ### The text of a character -/

theorem escapeCharLit_cases (plain : Char → Bool) (c : Char) :
    (∃ d, escapeCharLit plain c = ['\\', d] ∧ ((d = '0' ∧ c = Char.ofNat 0) ∨ (d = 't' ∧ c = '\t') ∨
      (d = 'r' ∧ c = '\r') ∨ (d = 'n' ∧ c = '\n') ∨ (d = '\\' ∧ c = '\\') ∨ (d = '\'' ∧ c = '\''))) ∨
    (escapeCharLit plain c = [c] ∧ c ≠ '\\') ∨
    escapeCharLit plain c = ['\\', 'u', '{'] ++ Nat.toDigits 16 c.toNat ++ ['}'] := by
  unfold escapeCharLit
  split
  · exact .inl ⟨_, rfl, by simp [*]⟩
  split
  · rename_i h
    exact .inr (.inl ⟨by rw [h], by rw [h]; decide⟩)
  rcases debugChar_cases plain c with ⟨d, h, h'⟩ | ⟨h, h2, h3⟩ | h
  · refine .inl ⟨d, h, ?_⟩
    rcases h' with h' | h' | h' | h' | h' | h'
    · exact .inl h'
    · exact .inr (.inl h')
    · exact .inr (.inr (.inl h'))
    · exact .inr (.inr (.inr (.inl h')))
    · exact .inr (.inr (.inr (.inr (.inl h'))))
    · rename_i hq
      exact absurd h'.2 hq
  · exact .inr (.inl ⟨h, h2⟩)
  · exact .inr (.inr h)

theorem escapeCharLit_split (plain : Char → Bool) (c d : Char) (x y : Text)
    (h : escapeCharLit plain c ++ x = escapeCharLit plain d ++ y) : c = d ∧ x = y := by
  rcases escapeCharLit_cases plain c with ⟨p, h1, h2⟩ | ⟨h1, h2⟩ | h1 <;>
    rcases escapeCharLit_cases plain d with ⟨q, g1, g2⟩ | ⟨g1, g2⟩ | g1 <;> rw [h1, g1] at h
  · simp only [List.cons_append, List.nil_append, List.cons.injEq, true_and] at h
    obtain ⟨rfl, rfl⟩ := h
    refine ⟨?_, rfl⟩
    rcases h2 with ⟨rfl, rfl⟩ | ⟨rfl, rfl⟩ | ⟨rfl, rfl⟩ | ⟨rfl, rfl⟩ | ⟨rfl, rfl⟩ | ⟨rfl, rfl⟩ <;>
      simpa [eq_comm] using g2
  · simp only [List.cons_append, List.nil_append, List.cons.injEq] at h
    exact absurd h.1.symm g2
  · simp only [List.cons_append, List.nil_append, List.cons.injEq, true_and] at h
    exfalso
    obtain ⟨rfl, _⟩ := h
    simp at h2
  · simp only [List.cons_append, List.nil_append, List.cons.injEq] at h
    exact absurd h.1 h2
  · simp only [List.cons_append, List.nil_append, List.cons.injEq] at h
    exact h
  · simp only [List.cons_append, List.nil_append, List.cons.injEq] at h
    exact absurd h.1 h2
  · simp only [List.cons_append, List.nil_append, List.cons.injEq, true_and] at h
    exfalso
    obtain ⟨rfl, _⟩ := h
    simp at g2
  · simp only [List.cons_append, List.nil_append, List.cons.injEq] at h
    exact absurd h.1.symm g2
  · simp only [List.append_assoc, List.cons_append, List.nil_append, List.cons.injEq, true_and] at h
    obtain ⟨e1, e2⟩ := hex_split h
    exact ⟨char_toNat_inj e1, e2⟩

theorem debugCharLit_split (plain : Char → Bool) (c d : Char) (x y : Text)
    (h : debugCharLit plain c ++ x = debugCharLit plain d ++ y) : c = d ∧ x = y := by
  unfold debugCharLit at h
  simp only [List.cons_append, List.append_assoc, List.cons.injEq, true_and, List.nil_append] at h
  obtain ⟨h1, h2⟩ := escapeCharLit_split plain c d _ _ h
  exact ⟨h1, by simpa using h2⟩

/-! ### Reading the output -/

/-- One line with a number. -/
def numLine (n : Nat) : Text := Nat.toDigits 10 n ++ ['\n']

/-- One line with a character and a number. -/
def charLine (plain : Char → Bool) (e : Char × Nat) : Text :=
  debugCharLit plain e.1 ++ [' '] ++ Nat.toDigits 10 e.2 ++ ['\n']

theorem noDigit_nl (t : Text) : NoDigit ('\n' :: t) := noDigit_cons (by decide) t

theorem numLines_split : ∀ (a b : List Nat) (x y : Text),
    a.flatMap numLine ++ 'T' :: x = b.flatMap numLine ++ 'T' :: y → a = b ∧ x = y
  | [], [], x, y, h => by simpa using h
  | [], n :: b, x, y, h => by
    obtain ⟨c, r, h1, h2⟩ := toDigits_head n
    rw [List.flatMap_cons, numLine, h1] at h
    simp only [List.flatMap_nil, List.nil_append, List.cons_append, List.cons.injEq] at h
    rw [← h.1] at h2
    exact absurd h2 (by decide)
  | n :: a, [], x, y, h => by
    obtain ⟨c, r, h1, h2⟩ := toDigits_head n
    rw [List.flatMap_cons, numLine, h1] at h
    simp only [List.flatMap_nil, List.nil_append, List.cons_append, List.cons.injEq] at h
    rw [h.1] at h2
    exact absurd h2 (by decide)
  | n :: a, k :: b, x, y, h => by
    simp only [List.flatMap_cons, numLine, List.append_assoc, List.cons_append, List.nil_append] at h
    obtain ⟨rfl, h1⟩ := digits_split n k _ _ (noDigit_nl _) (noDigit_nl _) h
    have h2 := List.tail_eq_of_cons_eq h1
    obtain ⟨rfl, rfl⟩ := numLines_split a b x y h2
    exact ⟨rfl, rfl⟩

theorem charLines_split (plain : Char → Bool) : ∀ (a b : List (Char × Nat)) (x y : Text),
    a.flatMap (charLine plain) ++ 'M' :: x = b.flatMap (charLine plain) ++ 'M' :: y → a = b ∧ x = y
  | [], [], x, y, h => by simpa using h
  | [], e :: b, x, y, h => by
    simp only [List.flatMap_cons, List.flatMap_nil, charLine, debugCharLit, List.nil_append,
      List.cons_append, List.cons.injEq] at h
    exact absurd h.1 (by decide)
  | e :: a, [], x, y, h => by
    simp only [List.flatMap_cons, List.flatMap_nil, charLine, debugCharLit, List.nil_append,
      List.cons_append, List.cons.injEq] at h
    exact absurd h.1 (by decide)
  | e :: a, f :: b, x, y, h => by
    obtain ⟨c, n⟩ := e
    obtain ⟨d, k⟩ := f
    simp only [List.flatMap_cons, charLine, List.append_assoc, List.cons_append, List.nil_append] at h
    obtain ⟨rfl, h1⟩ := debugCharLit_split plain c d _ _ h
    have h1 := List.tail_eq_of_cons_eq h1
    obtain ⟨rfl, h2⟩ := digits_split n k _ _ (noDigit_nl _) (noDigit_nl _) h1
    have h2 := List.tail_eq_of_cons_eq h2
    obtain ⟨rfl, rfl⟩ := charLines_split plain a b x y h2
    exact ⟨rfl, rfl⟩

/-! ### The progress -/

/-- The numbers printed while counting. -/
def progress (total : Nat) : List Text → List Nat
  | [] => []
  | t :: ts =>
    (if total / 1000000000 ≠ (total + t.length) / 1000000000 then [total + t.length] else []) ++
      progress (total + t.length) ts

theorem progressLine_eq (total next : Nat) : progressLine total next =
    (if total / 1000000000 ≠ next / 1000000000 then [next] else []).flatMap numLine := by
  unfold progressLine
  split <;> simp [numLine]

theorem countLinesT_eq (ts : List Text) (s : CharCounts) (hl : s.low.length = 256) (more : List Bytes)
    (s' : CharCounts) (h : countLines s (ts.map utf8Encode) = .ok s') :
    countLinesT s (ts.map utf8Encode ++ more) =
      ((progress s.total ts).flatMap numLine ++ (countLinesT s' more).1, (countLinesT s' more).2) := by
  induction ts generalizing s with
  | nil =>
    have := Except.ok.inj h
    subst this
    simp [progress]
  | cons t ts ih =>
    obtain ⟨low', counts', h1, h2, _⟩ := countLine_spec t s.low s.counts hl
    rw [List.map_cons, countLines, utf8Decode_encode] at h
    simp only [h1, R.ok_bind] at h
    rw [List.map_cons, List.cons_append, countLinesT, utf8Decode_encode]
    simp only [h1]
    rw [ih ⟨s.total + t.length, low', counts'⟩ h2 h, progressLine_eq, progress, List.flatMap_append]
    simp

theorem progress_lt (total : Nat) (ts : List Text) : ∀ n ∈ progress total ts,
    total / 1000000000 < n / 1000000000 := by
  induction ts generalizing total with
  | nil => intro n hn; simp [progress] at hn
  | cons t ts ih =>
    intro n hn
    have hle : total / 1000000000 ≤ (total + t.length) / 1000000000 := Nat.div_le_div_right (by omega)
    rw [progress, List.mem_append] at hn
    rcases hn with hn | hn
    · split at hn
      · rw [List.mem_singleton] at hn
        subst hn
        omega
      · simp at hn
    · have := ih _ n hn
      omega

theorem progress_sorted (total : Nat) (ts : List Text) : (progress total ts).Pairwise (· < ·) := by
  induction ts generalizing total with
  | nil => exact List.Pairwise.nil
  | cons t ts ih =>
    rw [progress, List.pairwise_append]
    refine ⟨by split <;> simp, ih _, ?_⟩
    intro a ha b hb
    split at ha
    · rw [List.mem_singleton] at ha
      subst ha
      have := progress_lt _ _ b hb
      by_contra hc
      have := Nat.div_le_div_right (c := 1000000000) (Nat.le_of_not_lt hc)
      omega
    · simp at ha

/-- Lines: each but the last has its only newline at the end; the last is not empty and has a newline at
most at the end. -/
inductive LinesOf : List Text → Prop where
  | nil : LinesOf []
  | last {r} (h : '\n' ∉ r) (hne : r ≠ []) : LinesOf [r]
  | cons {l ts} (h : '\n' ∉ l) (ht : LinesOf ts) : LinesOf ((l ++ ['\n']) :: ts)

theorem lineEnd_last {r : Text} (h : '\n' ∉ r) (hne : r ≠ []) (p : Nat) : LineEnd r p ↔ p = r.length := by
  constructor
  · rintro ⟨h1, h2 | h2⟩
    · exact h2
    · exact absurd (List.mem_of_getElem? h2) h
  · rintro rfl
    exact ⟨List.length_pos_iff.2 hne, .inl rfl⟩

theorem lineEnd_cons {l f : Text} (h : '\n' ∉ l) (p : Nat) :
    LineEnd (l ++ ['\n'] ++ f) p ↔ p = l.length + 1 ∨ ∃ q, p = l.length + 1 + q ∧ LineEnd f q := by
  unfold LineEnd
  have hlen : (l ++ ['\n'] ++ f).length = l.length + 1 + f.length := by simp; omega
  rw [hlen]
  constructor
  · rintro ⟨h1, h2⟩
    by_cases hp : p ≤ l.length
    · exfalso
      rcases h2 with h2 | h2
      · omega
      · rw [List.append_assoc, List.getElem?_append_left (by omega)] at h2
        exact h (List.mem_of_getElem? h2)
    · by_cases hp2 : p = l.length + 1
      · exact .inl hp2
      · refine .inr ⟨p - (l.length + 1), by omega, by omega, ?_⟩
        rcases h2 with h2 | h2
        · exact .inl (by omega)
        · right
          rw [List.getElem?_append_right (by simp; omega)] at h2
          rw [← h2]
          congr 1
          simp
          omega
  · rintro (rfl | ⟨q, rfl, h1, h2⟩)
    · refine ⟨by omega, .inr ?_⟩
      rw [List.append_assoc, List.getElem?_append_right (by omega)]
      simp
    · refine ⟨by omega, ?_⟩
      rcases h2 with h2 | h2
      · exact .inl (by omega)
      · right
        rw [List.getElem?_append_right (by simp; omega), ← h2]
        congr 1
        simp
        omega

theorem progress_iff {ts : List Text} (h : LinesOf ts) (T n : Nat) : n ∈ progress T ts ↔
    ∃ p, n = T + p ∧ LineEnd ts.flatten p ∧ T / 1000000000 < n / 1000000000 ∧
      ∀ q < p, LineEnd ts.flatten q → (T + q) / 1000000000 < n / 1000000000 := by
  induction h generalizing T with
  | nil =>
    simp only [progress, List.not_mem_nil, List.flatten_nil, false_iff]
    rintro ⟨p, _, ⟨h1, h2⟩, _⟩
    rcases h2 with h2 | h2
    · simp at h2; omega
    · simp at h2
  | @last r h hne =>
    simp only [progress, List.append_nil, List.flatten_cons, List.flatten_nil, lineEnd_last h hne]
    have hle : T / 1000000000 ≤ (T + r.length) / 1000000000 := Nat.div_le_div_right (by omega)
    constructor
    · intro hn
      split at hn
      · rw [List.mem_singleton] at hn
        subst hn
        exact ⟨r.length, rfl, rfl, by omega, fun q hq e => by omega⟩
      · simp at hn
    · rintro ⟨p, rfl, rfl, h1, _⟩
      rw [if_pos (by omega)]
      simp
  | @cons l ts h ht ih =>
    have hlen : (l ++ ['\n']).length = l.length + 1 := by simp
    simp only [progress, List.flatten_cons, lineEnd_cons h, List.mem_append, hlen, ih]
    have hle : T / 1000000000 ≤ (T + (l.length + 1)) / 1000000000 := Nat.div_le_div_right (by omega)
    constructor
    · rintro (hn | ⟨p, rfl, h1, h2, h3⟩)
      · split at hn
        · rw [List.mem_singleton] at hn
          subst hn
          refine ⟨l.length + 1, rfl, .inl rfl, by omega, ?_⟩
          rintro q hq (rfl | ⟨q', rfl, h9⟩)
          · omega
          · omega
        · simp at hn
      · refine ⟨l.length + 1 + p, by omega, .inr ⟨p, rfl, h1⟩, by omega, ?_⟩
        rintro q hq (rfl | ⟨q', rfl, h9⟩)
        · exact h2
        · have := h3 q' (by omega) h9
          rw [Nat.add_assoc] at this
          exact this
    · rintro ⟨p, rfl, rfl | ⟨p', rfl, h1⟩, h2, h3⟩
      · left
        rw [if_pos (by omega)]
        simp
      · right
        refine ⟨p', by omega, h1, ?_, ?_⟩
        · exact h3 _ (by have := h1.1; omega) (.inl rfl)
        · intro q hq h9
          have := h3 (l.length + 1 + q) (by omega) (.inr ⟨q, rfl, h9⟩)
          rw [← Nat.add_assoc] at this
          exact this

theorem progress_marks {ts : List Text} (h : LinesOf ts) : BillionMarks ts.flatten (progress 0 ts) where
  sorted := progress_sorted 0 ts
  exact_ := by
    intro n
    rw [progress_iff h]
    constructor
    · rintro ⟨p, rfl, h1, h2, h3⟩
      rw [Nat.zero_add] at h2 ⊢
      refine ⟨h1, ?_, ?_⟩
      · by_contra hc
        rw [Nat.div_eq_of_lt (by omega : p < 1000000000)] at h2
        omega
      · intro q hq h9
        have := h3 q hq h9
        simpa using this
    · rintro ⟨h1, h2, h3⟩
      refine ⟨n, by omega, h1, ?_, ?_⟩
      · have := Nat.div_le_div_right (c := 1000000000) h2
        simp only [Nat.zero_div]
        omega
      · intro q hq h9
        simpa using h3 q hq h9

/-- The lines of a text. -/
theorem text_lines (text : Text) : ∃ ts : List Text, LinesOf ts ∧ ts.flatten = text ∧
    splitLines (utf8Encode text) = ts.map utf8Encode := by
  obtain ⟨ls, r, h1, h2, rfl⟩ := split_lines text
  refine ⟨ls.map (· ++ ['\n']) ++ (if r.isEmpty then [] else [r]), ?_, ?_, ?_⟩
  · have hr : LinesOf (if r.isEmpty then [] else [r]) := by
      cases r with
      | nil => exact .nil
      | cons c r => exact .last h2 (List.cons_ne_nil _ _)
    generalize (if r.isEmpty then [] else [r]) = R at hr
    induction ls with
    | nil => exact hr
    | cons l ls ih => exact .cons (h1 l (by simp)) (ih (fun x hx => h1 x (by simp [hx])))
  · rw [List.flatten_append, List.flatMap_def]
    congr 1
    cases r <;> simp
  · rw [utf8Encode_append, splitLines_text ls r h1 h2 _ (.inl rfl), splitLines_last _ (newline_encode h2),
      List.map_append, List.map_map]
    congr 1
    cases r with
    | nil => rfl
    | cons c r =>
      obtain ⟨f, t, k, _⟩ := char_shape c
      rw [utf8Encode_cons, k]
      simp [utf8Encode_cons, k]

end Main
end Tokens
