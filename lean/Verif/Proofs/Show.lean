import Verif.Model.Show
import Verif.Proofs.Json
import Verif.Proofs.Utf8
import Mathlib.Data.List.Sort

/-! Printed tokens can be read back. -/

namespace Tokens
namespace Show
open Json

/-- Hexadecimal digits up to a closing brace. -/
theorem hex_split {a b : Nat} {t1 t2 : Text} (h : Nat.toDigits 16 a ++ '}' :: t1 = Nat.toDigits 16 b ++ '}' :: t2) :
    a = b ∧ t1 = t2 := by
  have hno : ∀ n, '}' ∉ Nat.toDigits 16 n := by
    intro n hn
    have key : ∀ m (k : Nat) , '}' ∉ Nat.toDigits 16 m := by
      intro m
      induction m using Nat.strongRecOn with
      | ind m ih =>
        intro _
        by_cases hb : m < 16
        · rw [Nat.toDigits_of_lt_base hb]
          have : ∀ m < 16, '}' ∉ [Nat.digitChar m] := by decide
          exact this m hb
        · rw [Nat.toDigits_of_base_le (by omega) (by omega)]
          rw [List.mem_append]
          rintro (h | h)
          · exact ih (m / 16) (by omega) 0 h
          · have : ∀ m < 16, '}' ∉ [Nat.digitChar m] := by decide
            exact this (m % 16) (by omega) h
    exact key n 0 hn
  have hinj : ∀ (x y u v : Text), '}' ∉ x → '}' ∉ y → x ++ '}' :: u = y ++ '}' :: v → x = y ∧ u = v := by
    intro x
    induction x with
    | nil =>
      intro y u v _ hy h
      cases y with
      | nil => simp at h; exact ⟨rfl, h⟩
      | cons c y => simp at h; exact absurd (List.mem_cons.2 (.inl h.1)) hy
    | cons a x ih =>
      intro y u v hx hy h
      cases y with
      | nil => simp at h; exact absurd (by simp [h.1] : '}' ∈ a :: x) hx
      | cons c y =>
        simp only [List.cons_append, List.cons.injEq] at h
        simp only [List.mem_cons, not_or] at hx hy
        obtain ⟨h1, h2⟩ := ih y u v hx.2 hy.2 h.2
        exact ⟨by rw [h.1, h1], h2⟩
  obtain ⟨h1, h2⟩ := hinj _ _ _ _ (hno a) (hno b) h
  refine ⟨?_, h2⟩
  have key : ∀ a b, Nat.toDigits 16 a = Nat.toDigits 16 b → a = b := by
    intro a
    induction a using Nat.strongRecOn with
    | ind a ih =>
      intro b h
      have hd : ∀ x < 16, ∀ y < 16, Nat.digitChar x = Nat.digitChar y → x = y := by decide
      have hne : ∀ n, Nat.toDigits 16 n ≠ [] := fun n => Nat.toDigits_ne_nil
      by_cases ha : a < 16 <;> by_cases hb : b < 16
      · rw [Nat.toDigits_of_lt_base ha, Nat.toDigits_of_lt_base hb] at h
        exact hd a ha b hb (by simpa using h)
      · rw [Nat.toDigits_of_lt_base ha, Nat.toDigits_of_base_le (by omega) (by omega)] at h
        have := congrArg List.length h
        have h3 := List.length_pos_iff.2 (hne (b / 16))
        simp at this; try omega
      · rw [Nat.toDigits_of_lt_base hb, Nat.toDigits_of_base_le (by omega) (by omega)] at h
        have := congrArg List.length h
        have h3 := List.length_pos_iff.2 (hne (a / 16))
        simp at this; try omega
      · rw [Nat.toDigits_of_base_le (b := 16) (n := a) (by omega) (by omega),
          Nat.toDigits_of_base_le (b := 16) (n := b) (by omega) (by omega)] at h
        obtain ⟨g1, g2⟩ := List.append_inj' h rfl
        have e1 := ih (a / 16) (by omega) _ g1
        have e2 := hd (a % 16) (by omega) (b % 16) (by omega) (by simpa using g2)
        omega
  exact key a b h1

theorem char_toNat_inj {a b : Char} (h : a.toNat = b.toNat) : a = b := by
  rw [← Char.ofNat_toNat a, h, Char.ofNat_toNat]

/-- The three shapes of a printed character. -/
theorem debugChar_cases (plain : Char → Bool) (c : Char) :
    (∃ d, debugChar plain c = ['\\', d] ∧ ((d = '0' ∧ c = Char.ofNat 0) ∨ (d = 't' ∧ c = '\t') ∨ (d = 'r' ∧ c = '\r') ∨
      (d = 'n' ∧ c = '\n') ∨ (d = '\\' ∧ c = '\\') ∨ (d = '"' ∧ c = '"'))) ∨
    (debugChar plain c = [c] ∧ c ≠ '\\' ∧ c ≠ '"') ∨
    debugChar plain c = ['\\', 'u', '{'] ++ Nat.toDigits 16 c.toNat ++ ['}'] := by
  unfold debugChar
  split
  · exact .inl ⟨_, rfl, by simp [*]⟩
  split
  · exact .inl ⟨_, rfl, by simp [*]⟩
  split
  · exact .inl ⟨_, rfl, by simp [*]⟩
  split
  · exact .inl ⟨_, rfl, by simp [*]⟩
  split
  · exact .inl ⟨_, rfl, by simp [*]⟩
  split
  · exact .inl ⟨_, rfl, by simp [*]⟩
  split
  · exact .inr (.inl ⟨rfl, by assumption, by assumption⟩)
  · exact .inr (.inr rfl)

theorem debugChar_head (plain : Char → Bool) (c : Char) (x y : Text) : debugChar plain c ++ x ≠ '"' :: y := by
  rcases debugChar_cases plain c with ⟨d, h, _⟩ | ⟨h, _, h2⟩ | h
  · rw [h]; simp
  · rw [h]; simp [h2]
  · rw [h]; simp

theorem debugChar_split (plain : Char → Bool) (c d : Char) (x y : Text)
    (h : debugChar plain c ++ x = debugChar plain d ++ y) : c = d ∧ x = y := by
  rcases debugChar_cases plain c with ⟨p, h1, h2⟩ | ⟨h1, h2, h3⟩ | h1 <;>
    rcases debugChar_cases plain d with ⟨q, g1, g2⟩ | ⟨g1, g2, g3⟩ | g1 <;> rw [h1, g1] at h
  · simp only [List.cons_append, List.nil_append, List.cons.injEq, true_and] at h
    obtain ⟨rfl, rfl⟩ := h
    refine ⟨?_, rfl⟩
    rcases h2 with ⟨rfl, rfl⟩ | ⟨rfl, rfl⟩ | ⟨rfl, rfl⟩ | ⟨rfl, rfl⟩ | ⟨rfl, rfl⟩ | ⟨rfl, rfl⟩ <;>
      simpa [eq_comm] using g2
  · simp only [List.cons_append, List.nil_append, List.cons.injEq] at h
    exact absurd h.1.symm g2
  · simp only [List.cons_append, List.nil_append, List.cons.injEq, true_and] at h
    exfalso
    obtain ⟨rfl, _⟩ := h
    simp at h2
  · simp only [List.cons_append, List.nil_append, List.cons.injEq] at h
    exact absurd h.1 h2
  · simp only [List.cons_append, List.nil_append, List.cons.injEq] at h
    exact h
  · simp only [List.cons_append, List.nil_append, List.cons.injEq] at h
    exact absurd h.1 h2
  · simp only [List.cons_append, List.nil_append, List.cons.injEq, true_and] at h
    exfalso
    obtain ⟨rfl, _⟩ := h
    simp at g2
  · simp only [List.cons_append, List.nil_append, List.cons.injEq] at h
    exact absurd h.1.symm g2
  · simp only [List.append_assoc, List.cons_append, List.nil_append, List.cons.injEq, true_and] at h
    obtain ⟨e1, e2⟩ := hex_split h
    exact ⟨char_toNat_inj e1, e2⟩

theorem debugStr_split (plain : Char → Bool) : ∀ (s t x y : Text),
    s.flatMap (debugChar plain) ++ '"' :: x = t.flatMap (debugChar plain) ++ '"' :: y → s = t ∧ x = y
  | [], [], x, y, h => by simpa using h
  | [], d :: t, x, y, h => by
    rw [List.flatMap_cons, List.append_assoc] at h
    exact absurd h.symm (debugChar_head plain d _ _)
  | c :: s, [], x, y, h => by
    rw [List.flatMap_cons, List.append_assoc] at h
    exact absurd h (debugChar_head plain c _ _)
  | c :: s, d :: t, x, y, h => by
    rw [List.flatMap_cons, List.flatMap_cons, List.append_assoc, List.append_assoc] at h
    obtain ⟨rfl, h1⟩ := debugChar_split plain c d _ _ h
    obtain ⟨rfl, h2⟩ := debugStr_split plain s t x y h1
    exact ⟨rfl, h2⟩

theorem noDigit_cons {c : Char} (h : c.isDigit = false) (t : Text) : NoDigit (c :: t) := by
  intro d hd
  simp at hd
  rw [← hd, h]

theorem bytes_split : ∀ (a b : List UInt8) (x y : Text), a ≠ [] → b ≠ [] →
    joined [',', ' '] (a.map (fun x => Nat.toDigits 10 x.toNat)) ++ ']' :: x =
      joined [',', ' '] (b.map (fun x => Nat.toDigits 10 x.toNat)) ++ ']' :: y → a = b ∧ x = y
  | [], _, _, _, h, _, _ => absurd rfl h
  | _, [], _, _, _, h, _ => absurd rfl h
  | [a], [b], x, y, _, _, h => by
    simp only [List.map_cons, List.map_nil, joined] at h
    obtain ⟨e1, e2⟩ := digits_split _ _ _ _ (noDigit_cons rfl _) (noDigit_cons rfl _) h
    exact ⟨by rw [UInt8.toNat_inj.1 e1], by simpa using e2⟩
  | [a], b :: b' :: l, x, y, _, _, h => by
    simp only [List.map_cons, List.map_nil, joined, List.append_assoc] at h
    obtain ⟨e1, e2⟩ := digits_split _ _ _ _ (noDigit_cons rfl _) (noDigit_cons rfl _) h
    simp at e2
  | a :: a' :: l, [b], x, y, _, _, h => by
    simp only [List.map_cons, List.map_nil, joined, List.append_assoc] at h
    obtain ⟨e1, e2⟩ := digits_split _ _ _ _ (noDigit_cons rfl _) (noDigit_cons rfl _) h
    simp at e2
  | a :: a' :: l, b :: b' :: l', x, y, _, _, h => by
    simp only [List.map_cons, joined, List.append_assoc] at h
    obtain ⟨e1, e2⟩ := digits_split _ _ _ _ (noDigit_cons rfl _) (noDigit_cons rfl _) h
    simp only [List.cons_append, List.nil_append, List.cons.injEq, true_and] at e2
    obtain ⟨e3, e4⟩ := bytes_split (a' :: l) (b' :: l') x y (by simp) (by simp)
      (by simpa [List.map_cons] using e2)
    exact ⟨by rw [UInt8.toNat_inj.1 e1, e3], e4⟩

/-- What follows a printed token in a line: nothing or a space. -/
def AtSpace (r : Text) : Prop := r = [] ∨ ∃ r', r = ' ' :: r'

theorem atSpace_noDigit {r : Text} (h : AtSpace r) : NoDigit r := by
  rcases h with rfl | ⟨r', rfl⟩
  · intro c hc; simp at hc
  · exact noDigit_cons rfl _

/-- The first character of a printed token. -/
theorem showToken_head (plain : Char → Bool) (t : Token) :
    ∃ c r, showToken plain t = c :: r ∧ ((∃ n, t = .ext n ∧ c.isDigit = true) ∨
      (∃ s u, t = .str s ∧ utf8Decode s = some u ∧ c = '"' ∧ r = u.flatMap (debugChar plain) ++ ['"']) ∨
      (∃ s, t = .str s ∧ utf8Decode s = none ∧ s ≠ [] ∧ c = '[' ∧
        r = joined [',', ' '] (s.map (fun x => Nat.toDigits 10 x.toNat)) ++ [']'])) := by
  cases t with
  | ext n =>
    obtain ⟨c, r, h1, h2⟩ := toDigits_head n.toNat
    exact ⟨c, r, h1, .inl ⟨n, rfl, h2⟩⟩
  | str s =>
    cases hs : utf8Decode s with
    | some u =>
      refine ⟨_, _, by simp [showToken, showBytes, hs, debugStr]; try exact ⟨rfl, rfl⟩, .inr (.inl ⟨s, u, rfl, hs, rfl, rfl⟩)⟩
    | none =>
      refine ⟨_, _, by simp [showToken, showBytes, hs, debugBytes]; try exact ⟨rfl, rfl⟩,
        .inr (.inr ⟨s, rfl, hs, ?_, rfl, rfl⟩)⟩
      rintro rfl
      have : utf8Decode [] = some [] := utf8Decode_encode []
      rw [this] at hs
      cases hs

/-- A printed token can be read off the start of a line. -/
theorem showToken_split (plain : Char → Bool) (t t' : Token) (r r' : Text) (hr : AtSpace r) (hr' : AtSpace r')
    (h : showToken plain t ++ r = showToken plain t' ++ r') : t = t' ∧ r = r' := by
  obtain ⟨c, q, e1, h1⟩ := showToken_head plain t
  obtain ⟨d, q', e2, h2⟩ := showToken_head plain t'
  have h0 := h
  rw [e1, e2, List.cons_append, List.cons_append, List.cons.injEq] at h
  obtain ⟨rfl, hq⟩ := h
  rcases h1 with ⟨n, rfl, hc⟩ | ⟨s, u, rfl, hs, rfl, rfl⟩ | ⟨s, rfl, hs, hne, rfl, rfl⟩ <;>
    rcases h2 with ⟨m, rfl, hd⟩ | ⟨s', u', rfl, hs', hc', rfl⟩ | ⟨s', rfl, hs', hne', hc', rfl⟩
  · obtain ⟨g1, g2⟩ := digits_split _ _ _ _ (atSpace_noDigit hr) (atSpace_noDigit hr') h0
    exact ⟨by rw [UInt8.toNat_inj.1 g1], g2⟩
  · subst hc'; simp at hc
  · subst hc'; simp at hc
  · simp at hd
  · rw [List.append_assoc, List.append_assoc] at hq
    obtain ⟨rfl, g⟩ := debugStr_split plain u u' _ _ hq
    rw [utf8Decode_iff] at hs hs'
    rw [hs, hs']
    exact ⟨rfl, g⟩
  · simp at hc'
  · simp at hd
  · simp at hc'
  · rw [List.append_assoc, List.append_assoc] at hq
    obtain ⟨rfl, g⟩ := bytes_split s s' _ _ hne hne' hq
    exact ⟨rfl, g⟩

theorem showToken_inj (plain : Char → Bool) : Function.Injective (showToken plain) := by
  intro t t' h
  exact (showToken_split plain t t' [] [] (.inl rfl) (.inl rfl) (by rw [h])).1

theorem showToken_start (plain : Char → Bool) (t : Token) (x y : Text) :
    showToken plain t ++ x ≠ ' ' :: y ∧ showToken plain t ++ x ≠ '-' :: y ∧ showToken plain t ++ x ≠ [] := by
  obtain ⟨c, q, e1, h1⟩ := showToken_head plain t
  rw [e1]
  have hc : c ≠ ' ' ∧ c ≠ '-' := by
    rcases h1 with ⟨n, rfl, hc⟩ | ⟨s, u, rfl, hs, rfl, rfl⟩ | ⟨s, rfl, hs, hne, rfl, rfl⟩
    · constructor <;> rintro rfl <;> simp at hc
    · decide
    · decide
  simp [hc.1, hc.2]

/-- What comes after the tokens of one side: the end of the line, or the arrow. -/
def AtEnd (r : Text) : Prop := r = [] ∨ ∃ r', r = ' ' :: '-' :: r'

/-- The tokens of one side can be read off the line. -/
theorem joined_split (plain : Char → Bool) : ∀ (l l' : List Token) (r r' : Text), AtEnd r → AtEnd r' →
    joined [' '] (l.map (showToken plain)) ++ r = joined [' '] (l'.map (showToken plain)) ++ r' →
    l = l' ∧ r = r'
  | [], [], r, r', _, _, h => by simpa [joined] using h
  | [], t :: l', r, r', hr, _, h => by
    exfalso
    obtain ⟨x, hx⟩ : ∃ x, joined [' '] ((t :: l').map (showToken plain)) ++ r' = showToken plain t ++ x := by
      cases l' with
      | nil => exact ⟨r', by simp [joined]⟩
      | cons u l' => exact ⟨_, by simp only [List.map_cons, joined, List.append_assoc]; rfl⟩
    rw [hx] at h
    simp only [List.map_nil, joined, List.nil_append] at h
    rcases hr with rfl | ⟨y, rfl⟩
    · exact (showToken_start plain t x []).2.2 h.symm
    · exact (showToken_start plain t x _).1 h.symm
  | t :: l, [], r, r', _, hr', h => by
    exfalso
    obtain ⟨x, hx⟩ : ∃ x, joined [' '] ((t :: l).map (showToken plain)) ++ r = showToken plain t ++ x := by
      cases l with
      | nil => exact ⟨r, by simp [joined]⟩
      | cons u l => exact ⟨_, by simp only [List.map_cons, joined, List.append_assoc]; rfl⟩
    rw [hx] at h
    simp only [List.map_nil, joined, List.nil_append] at h
    rcases hr' with rfl | ⟨y, rfl⟩
    · exact (showToken_start plain t x []).2.2 h
    · exact (showToken_start plain t x _).1 h
  | [t], [t'], r, r', hr, hr', h => by
    simp only [List.map_cons, List.map_nil, joined] at h
    obtain ⟨rfl, g⟩ := showToken_split plain t t' r r'
      (by rcases hr with h | ⟨x, h⟩ <;> [exact .inl h; exact .inr ⟨_, h⟩])
      (by rcases hr' with h | ⟨x, h⟩ <;> [exact .inl h; exact .inr ⟨_, h⟩]) h
    exact ⟨rfl, g⟩
  | [t], t' :: u :: l', r, r', hr, hr', h => by
    exfalso
    simp only [List.map_cons, List.map_nil, joined, List.append_assoc] at h
    obtain ⟨rfl, g⟩ := showToken_split plain t t' r _
      (by rcases hr with h | ⟨x, h⟩ <;> [exact .inl h; exact .inr ⟨_, h⟩]) (.inr ⟨_, rfl⟩) h
    obtain ⟨x, hx⟩ : ∃ x, joined [' '] (showToken plain u :: l'.map (showToken plain)) ++ r' = showToken plain u ++ x := by
      cases l' with
      | nil => exact ⟨r', by simp [joined]⟩
      | cons v l' => exact ⟨_, by simp only [List.map_cons, joined, List.append_assoc]; rfl⟩
    rw [hx] at g
    rcases hr with rfl | ⟨y, rfl⟩
    · simp at g
    · simp only [List.cons_append, List.nil_append, List.cons.injEq, true_and] at g
      exact (showToken_start plain u x y).2.1 g.symm
  | t :: u :: l, [t'], r, r', hr, hr', h => by
    exfalso
    simp only [List.map_cons, List.map_nil, joined, List.append_assoc] at h
    obtain ⟨rfl, g⟩ := showToken_split plain t t' _ r' (.inr ⟨_, rfl⟩)
      (by rcases hr' with h | ⟨x, h⟩ <;> [exact .inl h; exact .inr ⟨_, h⟩]) h
    obtain ⟨x, hx⟩ : ∃ x, joined [' '] (showToken plain u :: l.map (showToken plain)) ++ r = showToken plain u ++ x := by
      cases l with
      | nil => exact ⟨r, by simp [joined]⟩
      | cons v l => exact ⟨_, by simp only [List.map_cons, joined, List.append_assoc]; rfl⟩
    rw [hx] at g
    rcases hr' with rfl | ⟨y, rfl⟩
    · simp at g
    · simp only [List.cons_append, List.nil_append, List.cons.injEq, true_and] at g
      exact (showToken_start plain u x y).2.1 g
  | t :: u :: l, t' :: u' :: l', r, r', hr, hr', h => by
    simp only [List.map_cons, joined, List.append_assoc] at h
    obtain ⟨rfl, g⟩ := showToken_split plain t t' _ _ (.inr ⟨_, rfl⟩) (.inr ⟨_, rfl⟩) h
    simp only [List.cons_append, List.nil_append, List.cons.injEq, true_and] at g
    obtain ⟨e, g⟩ := joined_split plain (u :: l) (u' :: l') r r' hr hr' (by simpa [List.map_cons] using g)
    exact ⟨by rw [e], g⟩

theorem strLe_trans (a b c : Text) (h1 : strLe a b = true) (h2 : strLe b c = true) : strLe a c = true := by
  simp only [strLe, decide_eq_true_eq] at *
  exact List.le_trans h1 h2

theorem strLe_total (a b : Text) : (strLe a b || strLe b a) = true := by
  simp only [strLe, Bool.or_eq_true, decide_eq_true_eq]
  exact List.le_total _ _

theorem strLe_antisymm (a b : Text) (h1 : strLe a b = true) (h2 : strLe b a = true) : a = b := by
  simp only [strLe, decide_eq_true_eq] at *
  exact utf8Encode_inj (List.le_antisymm h1 h2)

/-- The sorted texts are the texts of the same tokens in some order. -/
theorem sorted_texts (plain : Char → Bool) (l : List Token) :
    ∃ l' : List Token, l'.Perm l ∧ (l.map (showToken plain)).mergeSort strLe = l'.map (showToken plain) := by
  have hp := List.mergeSort_perm (l.map (showToken plain)) strLe
  generalize (l.map (showToken plain)).mergeSort strLe = m at hp ⊢
  have hsub : ∀ x ∈ m, ∃ t, showToken plain t = x := by
    intro x hx
    obtain ⟨t, _, h⟩ := List.mem_map.1 (hp.subset hx)
    exact ⟨t, h⟩
  obtain ⟨l', rfl⟩ : ∃ l' : List Token, m = l'.map (showToken plain) := by
    clear hp
    induction m with
    | nil => exact ⟨[], rfl⟩
    | cons x m ih =>
      obtain ⟨l', rfl⟩ := ih (fun y hy => hsub y (List.mem_cons_of_mem _ hy))
      obtain ⟨t, rfl⟩ := hsub x (by simp)
      exact ⟨t :: l', rfl⟩
  exact ⟨l', (List.map_perm_map_iff (showToken_inj plain)).1 hp, rfl⟩

end Show
end Tokens
