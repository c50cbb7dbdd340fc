import Verif.Model.Json
import Verif.Proofs.Utf8
import Verif.Proofs.TokenSetOps

/-! The text serde writes determines the value; single tokens round-trip. -/

set_option linter.unusedSimpArgs false
set_option linter.unusedVariables false

namespace Tokens
open Spec
namespace Json

/-- A value without non-integer numbers. -/
inductive Plain : Json → Prop
  | null : Plain .null
  | bool (b) : Plain (.bool b)
  | num (n) : Plain (.num n)
  | str (s) : Plain (.str s)
  | arr (l) (h : ∀ j ∈ l, Plain j) : Plain (.arr l)
  | obj (l) (h : ∀ kv ∈ l, Plain kv.2) : Plain (.obj l)

/-! ### strings -/

/-- Value of a hexadecimal digit. -/
def hexVal (c : Char) : Nat := if c.toNat < 58 then c.toNat - 48 else c.toNat - 87

/-- Reads back one escaped character. -/
def unescape1 : Text → Option (Char × Text)
  | '\\' :: 'u' :: _ :: _ :: a :: b :: r => some (Char.ofNat (16 * hexVal a + hexVal b), r)
  | '\\' :: x :: r =>
    if x = 'b' then some (Char.ofNat 8, r)
    else if x = 't' then some (Char.ofNat 9, r)
    else if x = 'n' then some (Char.ofNat 10, r)
    else if x = 'f' then some (Char.ofNat 12, r)
    else if x = 'r' then some (Char.ofNat 13, r)
    else some (x, r)
  | x :: r => some (x, r)
  | [] => none

theorem unescape1_escape (c : Char) (r : Text) : unescape1 (escapeChar c ++ r) = some (c, r) := by
  by_cases h : c.toNat < 32
  · have hc : c = Char.ofNat c.toNat := (Char.ofNat_toNat c).symm
    generalize c.toNat = k at h hc
    subst hc
    match k, h with
    | 0, _ | 1, _ | 2, _ | 3, _ | 4, _ | 5, _ | 6, _ | 7, _ | 8, _ | 9, _ | 10, _ | 11, _ | 12, _
    | 13, _ | 14, _ | 15, _ | 16, _ | 17, _ | 18, _ | 19, _ | 20, _ | 21, _ | 22, _ | 23, _ | 24, _
    | 25, _ | 26, _ | 27, _ | 28, _ | 29, _ | 30, _ | 31, _ => rfl
    | k + 32, h => omega
  · unfold escapeChar
    by_cases h1 : c = '"'
    · subst h1; rfl
    by_cases h2 : c = '\\'
    · subst h2; rfl
    rw [if_neg h1, if_neg h2, if_neg (by omega), if_neg (by omega), if_neg (by omega),
      if_neg (by omega), if_neg (by omega), if_neg h]
    show unescape1 (c :: r) = _
    unfold unescape1
    split
    · next h => simp at h; exact absurd h.1 h2
    · next h => simp at h; exact absurd h.1 h2
    · next h => simp at h; rw [h.1, h.2]
    · next h => simp at h

theorem escape_ne_quote (c : Char) (r t : Text) : escapeChar c ++ r ≠ '"' :: t := by
  intro h
  unfold escapeChar at h
  repeat' split at h
  all_goals simp at h
  next h1 _ _ _ _ _ _ _ => exact h1 h.1

theorem escape_inj (s1 s2 t1 t2 : Text)
    (h : s1.flatMap escapeChar ++ '"' :: t1 = s2.flatMap escapeChar ++ '"' :: t2) :
    s1 = s2 ∧ t1 = t2 := by
  induction s1 generalizing s2 with
  | nil =>
    cases s2 with
    | nil => simpa using h
    | cons c s2 =>
      simp only [List.flatMap_nil, List.nil_append, List.flatMap_cons, List.append_assoc] at h
      exact absurd h.symm (escape_ne_quote _ _ _)
  | cons c s1 ih =>
    cases s2 with
    | nil =>
      simp only [List.flatMap_nil, List.nil_append, List.flatMap_cons, List.append_assoc] at h
      exact absurd h (escape_ne_quote _ _ _)
    | cons d s2 =>
      simp only [List.flatMap_cons, List.append_assoc] at h
      have h1 := unescape1_escape c (s1.flatMap escapeChar ++ '"' :: t1)
      rw [h, unescape1_escape] at h1
      simp at h1
      obtain ⟨rfl, h1⟩ := h1
      obtain ⟨rfl, rfl⟩ := ih s2 h1.symm
      exact ⟨rfl, rfl⟩

theorem renderStr_inj (s1 s2 t1 t2 : Text) (h : renderStr s1 ++ t1 = renderStr s2 ++ t2) :
    s1 = s2 ∧ t1 = t2 := by
  unfold renderStr at h
  simp only [List.cons_append, List.append_assoc, List.cons.injEq, true_and, List.nil_append] at h
  exact escape_inj s1 s2 t1 t2 h

/-! ### numbers -/

/-- The text does not continue a number. -/
def NoDigit (t : Text) : Prop := ∀ c, t.head? = some c → c.isDigit = false

theorem digits_split (a b : Nat) (t1 t2 : Text) (h1 : NoDigit t1) (h2 : NoDigit t2)
    (h : Nat.toDigits 10 a ++ t1 = Nat.toDigits 10 b ++ t2) : a = b ∧ t1 = t2 := by
  have key : ∀ (n : Nat) (t : Text), NoDigit t →
      (Nat.toDigits 10 n ++ t).takeWhile Char.isDigit = Nat.toDigits 10 n := by
    intro n t ht
    rw [List.takeWhile_append_of_pos (fun c hc => Nat.isDigit_of_mem_toDigits (by omega) (by omega) hc)]
    cases t with
    | nil => simp
    | cons c t => rw [List.takeWhile_cons_of_neg (by simp [ht c rfl])]; simp
  have e := key a t1 h1
  rw [h, key b t2 h2] at e
  have : a = b := by
    have := congrArg (Nat.ofDigitChars 10 · 0) e
    simpa [Nat.ofDigitChars_ten_toDigits] using this.symm
  subst this
  exact ⟨rfl, by simpa using h⟩

theorem toDigits_head (n : Nat) : ∃ c r, Nat.toDigits 10 n = c :: r ∧ c.isDigit = true := by
  obtain ⟨c, r, h⟩ := List.exists_cons_of_ne_nil (Nat.toDigits_ne_nil (b := 10) (n := n))
  exact ⟨c, r, h, Nat.isDigit_of_mem_toDigits (b := 10) (n := n) (by omega) (by omega) (by rw [h]; simp)⟩

theorem renderInt_inj (a b : Int) (t1 t2 : Text) (h1 : NoDigit t1) (h2 : NoDigit t2)
    (h : renderInt a ++ t1 = renderInt b ++ t2) : a = b ∧ t1 = t2 := by
  have hm : ∀ (n : Nat) (t u : Text), Nat.toDigits 10 n ++ t ≠ '-' :: u := by
    intro n t u he
    obtain ⟨c, r, hc, hd⟩ := toDigits_head n
    rw [hc] at he
    simp at he
    rw [he.1] at hd
    exact absurd hd (by decide)
  cases a with
  | ofNat a =>
    cases b with
    | ofNat b =>
      obtain ⟨rfl, hh⟩ := digits_split a b t1 t2 h1 h2 h
      exact ⟨rfl, hh⟩
    | negSucc b => exact absurd h (hm _ _ _)
  | negSucc a =>
    cases b with
    | ofNat b => exact absurd h.symm (hm _ _ _)
    | negSucc b =>
      simp only [renderInt, List.cons_append, List.cons.injEq, true_and] at h
      obtain ⟨h, h'⟩ := digits_split _ _ t1 t2 h1 h2 h
      exact ⟨by congr 1; omega, h'⟩

/-! ### values -/

/-- Class of a first character. -/
def cls (c : Char) : Nat :=
  if c = 'n' then 1 else if c = 't' then 2 else if c = 'f' then 3 else if c = '"' then 4
  else if c = '[' then 5 else if c = '{' then 6 else if c = '-' then 7 else if c.isDigit then 7
  else 0

/-- Class of a value. -/
def tag : Json → Nat
  | .null => 1
  | .bool true => 2
  | .bool false => 3
  | .str _ => 4
  | .arr _ => 5
  | .obj _ => 6
  | .num _ => 7
  | .float _ => 8

theorem cls_digit {c : Char} (h : c.isDigit = true) : cls c = 7 := by
  unfold cls
  rw [if_neg (by rintro rfl; exact absurd h (by decide)), if_neg (by rintro rfl; exact absurd h (by decide)),
    if_neg (by rintro rfl; exact absurd h (by decide)), if_neg (by rintro rfl; exact absurd h (by decide)),
    if_neg (by rintro rfl; exact absurd h (by decide)), if_neg (by rintro rfl; exact absurd h (by decide)),
    h]
  simp

theorem render_head {j : Json} (hj : Plain j) : ∃ c r, render j = c :: r ∧ cls c = tag j := by
  cases hj with
  | null => exact ⟨'n', ['u', 'l', 'l'], by rw [render]; rfl, rfl⟩
  | bool b =>
    cases b
    · exact ⟨'f', ['a', 'l', 's', 'e'], by rw [render]; rfl, rfl⟩
    · exact ⟨'t', ['r', 'u', 'e'], by rw [render]; rfl, rfl⟩
  | num n =>
    rw [render]
    cases n with
    | ofNat n =>
      obtain ⟨c, r, h1, h2⟩ := toDigits_head n
      exact ⟨c, r, h1, cls_digit h2⟩
    | negSucc n => exact ⟨'-', _, rfl, rfl⟩
  | str s => exact ⟨'"', _, by rw [render, renderStr], rfl⟩
  | arr l => exact ⟨'[', _, by rw [render], rfl⟩
  | obj l => exact ⟨'{', _, by rw [render], rfl⟩

theorem tag_pos {j : Json} : tag j ≠ 0 := by
  unfold tag; split <;> simp

theorem noDigit_arr (l : List Json) (t : Text) : NoDigit (renderArr false l ++ t) := by
  intro c hc
  cases l with
  | nil => rw [renderArr] at hc; simp at hc; subst hc; rfl
  | cons j l => rw [renderArr] at hc; simp at hc; subst hc; rfl

theorem noDigit_obj (l : List (Text × Json)) (t : Text) : NoDigit (renderObj false l ++ t) := by
  intro c hc
  cases l with
  | nil => rw [renderObj] at hc; simp at hc; subst hc; rfl
  | cons j l => rw [renderObj] at hc; simp at hc; subst hc; rfl

/-- The rest of an array is determined, given that its elements are. -/
theorem renderArr_inj (l1 l2 : List Json) (first : Bool) (t1 t2 : Text)
    (ih : ∀ j ∈ l1, ∀ j2, Plain j2 → ∀ t1 t2, NoDigit t1 → NoDigit t2 →
      render j ++ t1 = render j2 ++ t2 → j = j2 ∧ t1 = t2)
    (hp1 : ∀ j ∈ l1, Plain j) (hp : ∀ j ∈ l2, Plain j)
    (h : renderArr first l1 ++ t1 = renderArr first l2 ++ t2) : l1 = l2 ∧ t1 = t2 := by
  have hne : ∀ (j : Json) (l : List Json) (t t' : Text), Plain j →
      renderArr first (j :: l) ++ t ≠ ']' :: t' := by
    intro j l t t' hj he
    rw [renderArr] at he
    cases first
    · simp at he
    · obtain ⟨c, r, h1, h2⟩ := render_head hj
      simp [h1] at he
      rw [he.1] at h2
      exact tag_pos h2.symm
  induction l1 generalizing l2 first with
  | nil =>
    cases l2 with
    | nil => rw [renderArr] at h; simpa using h
    | cons j l =>
      conv at h => lhs; rw [renderArr]
      exact absurd h.symm (hne j l t2 t1 (hp j (by simp)))
  | cons j1 l1 ihl =>
    cases l2 with
    | nil =>
      conv at h => rhs; rw [renderArr]
      exact absurd h (hne j1 l1 t1 t2 (hp1 j1 (by simp)))
    | cons j2 l2 =>
      rw [renderArr, renderArr] at h
      simp only [List.append_assoc, List.append_cancel_left_eq] at h
      obtain ⟨rfl, hh⟩ := ih j1 (by simp) j2 (hp j2 (by simp)) _ _ (noDigit_arr _ _) (noDigit_arr _ _) h
      have hne' : ∀ (j : Json) (l : List Json) (t t' : Text), Plain j →
          renderArr false (j :: l) ++ t ≠ ']' :: t' := by
        intro j l t t' hj he
        rw [renderArr] at he
        simp at he
      obtain ⟨rfl, hg⟩ := ihl l2 false (fun j hj => ih j (by simp [hj])) (fun j hj => hp1 j (by simp [hj]))
        (fun j hj => hp j (by simp [hj])) hh hne'
      exact ⟨rfl, hg⟩

theorem renderObj_inj (l1 l2 : List (Text × Json)) (first : Bool) (t1 t2 : Text)
    (ih : ∀ j ∈ l1, ∀ j2, Plain j2 → ∀ t1 t2, NoDigit t1 → NoDigit t2 →
      render j.2 ++ t1 = render j2 ++ t2 → j.2 = j2 ∧ t1 = t2)
    (hp : ∀ j ∈ l2, Plain j.2)
    (h : renderObj first l1 ++ t1 = renderObj first l2 ++ t2) : l1 = l2 ∧ t1 = t2 := by
  induction l1 generalizing l2 first with
  | nil =>
    cases l2 with
    | nil => rw [renderObj] at h; simpa using h
    | cons j l =>
      obtain ⟨k, j⟩ := j
      rw [renderObj, renderObj] at h
      cases first <;> simp [renderStr] at h
  | cons j1 l1 ihl =>
    obtain ⟨k1, j1⟩ := j1
    cases l2 with
    | nil =>
      rw [renderObj, renderObj] at h
      cases first <;> simp [renderStr] at h
    | cons j2 l2 =>
      obtain ⟨k2, j2⟩ := j2
      rw [renderObj, renderObj] at h
      simp only [List.append_assoc, List.append_cancel_left_eq, List.cons_append] at h
      obtain ⟨rfl, hh⟩ := renderStr_inj k1 k2 _ _ h
      simp only [List.cons.injEq, true_and] at hh
      obtain ⟨e, hf⟩ := ih (k1, j1) (by simp) j2 (hp (k1, j2) (by simp)) _ _ (noDigit_obj _ _)
        (noDigit_obj _ _) hh
      simp only at e
      subst e
      obtain ⟨rfl, hg⟩ := ihl l2 false (fun j hj => ih j (by simp [hj])) (fun j hj => hp j (by simp [hj])) hf
      exact ⟨rfl, hg⟩

theorem render_split {j1 : Json} (h1 : Plain j1) : ∀ j2, Plain j2 → ∀ t1 t2, NoDigit t1 → NoDigit t2 →
    render j1 ++ t1 = render j2 ++ t2 → j1 = j2 ∧ t1 = t2 := by
  induction h1 with
  | null =>
    intro j2 h2 t1 t2 n1 n2 h
    obtain ⟨c, r, g1, g2⟩ := render_head h2
    obtain ⟨c', r', g3, g4⟩ := render_head .null
    have hc : c' = c := by rw [g1, g3] at h; simp at h; exact h.1
    subst hc
    rw [g4] at g2
    cases h2 with
    | null => exact ⟨rfl, by simpa using h⟩
    | bool b => cases b <;> simp [tag] at g2
    | _ => simp [tag] at g2
  | bool b =>
    intro j2 h2 t1 t2 n1 n2 h
    obtain ⟨c, r, g1, g2⟩ := render_head h2
    obtain ⟨c', r', g3, g4⟩ := render_head (.bool b)
    have hc : c' = c := by rw [g1, g3] at h; simp at h; exact h.1
    subst hc
    rw [g4] at g2
    cases h2 with
    | bool b2 => cases b <;> cases b2 <;> simp [tag] at g2 <;> exact ⟨rfl, by simpa using h⟩
    | _ => cases b <;> simp [tag] at g2
  | num n =>
    intro j2 h2 t1 t2 n1 n2 h
    obtain ⟨c, r, g1, g2⟩ := render_head h2
    obtain ⟨c', r', g3, g4⟩ := render_head (.num n)
    have hc : c' = c := by rw [g1, g3] at h; simp at h; exact h.1
    subst hc
    rw [g4] at g2
    cases h2 with
    | num m =>
      rw [render, render] at h
      obtain ⟨rfl, hh⟩ := renderInt_inj n m t1 t2 n1 n2 h
      exact ⟨rfl, hh⟩
    | bool b => cases b <;> simp [tag] at g2
    | _ => simp [tag] at g2
  | str s =>
    intro j2 h2 t1 t2 n1 n2 h
    obtain ⟨c, r, g1, g2⟩ := render_head h2
    obtain ⟨c', r', g3, g4⟩ := render_head (.str s)
    have hc : c' = c := by rw [g1, g3] at h; simp at h; exact h.1
    subst hc
    rw [g4] at g2
    cases h2 with
    | str s2 =>
      rw [render, render] at h
      obtain ⟨rfl, hh⟩ := renderStr_inj s s2 t1 t2 h
      exact ⟨rfl, hh⟩
    | bool b => cases b <;> simp [tag] at g2
    | _ => simp [tag] at g2
  | arr l hl ih =>
    intro j2 h2 t1 t2 n1 n2 h
    obtain ⟨c, r, g1, g2⟩ := render_head h2
    obtain ⟨c', r', g3, g4⟩ := render_head (.arr l hl)
    have hc : c' = c := by rw [g1, g3] at h; simp at h; exact h.1
    subst hc
    rw [g4] at g2
    cases h2 with
    | arr l2 hl2 =>
      rw [render, render] at h
      simp only [List.cons_append, List.cons.injEq, true_and] at h
      obtain ⟨rfl, hh⟩ := renderArr_inj l l2 true t1 t2 ih hl hl2 h
      exact ⟨rfl, hh⟩
    | bool b => cases b <;> simp [tag] at g2
    | _ => simp [tag] at g2
  | obj l hl ih =>
    intro j2 h2 t1 t2 n1 n2 h
    obtain ⟨c, r, g1, g2⟩ := render_head h2
    obtain ⟨c', r', g3, g4⟩ := render_head (.obj l hl)
    have hc : c' = c := by rw [g1, g3] at h; simp at h; exact h.1
    subst hc
    rw [g4] at g2
    cases h2 with
    | obj l2 hl2 =>
      rw [render, render] at h
      simp only [List.cons_append, List.cons.injEq, true_and] at h
      obtain ⟨rfl, hh⟩ := renderObj_inj l l2 true t1 t2 ih hl2 h
      exact ⟨rfl, hh⟩
    | bool b => cases b <;> simp [tag] at g2
    | _ => simp [tag] at g2

theorem render_inj {j1 j2 : Json} (h1 : Plain j1) (h2 : Plain j2) (h : render j1 = render j2) :
    j1 = j2 :=
  (render_split h1 j2 h2 [] [] (by intro c hc; simp at hc) (by intro c hc; simp at hc) (by rw [h])).1

end Json
end Tokens
