import Verif.Model.JsonRead
import Verif.Spec.JsonText
import Verif.Proofs.Json
import Mathlib.Data.List.Lex
import Mathlib.Data.Char

/-! Reading JSON texts. -/

set_option linter.unusedSimpArgs false
set_option linter.unusedVariables false

namespace Tokens
open Spec
namespace JsonRead

/-! ### White space -/

theorem isWs_iff (c : Char) : isWs c = true ↔ c = ' ' ∨ c = '\n' ∨ c = '\t' ∨ c = '\r' := by
  simp [isWs, or_assoc]

theorem skipWs_append {w : Text} (h : Ws w) (t : Text) : skipWs (w ++ t) = skipWs t := by
  unfold skipWs
  induction w with
  | nil => rfl
  | cons c w ih =>
    rw [List.cons_append, List.dropWhile_cons_of_pos ((isWs_iff c).2 (h c (by simp)))]
    exact ih (fun x hx => h x (by simp [hx]))

theorem skipWs_cons {c : Char} (h : isWs c = false) (t : Text) : skipWs (c :: t) = c :: t := by
  unfold skipWs
  rw [List.dropWhile_cons_of_neg (by simp [h])]

theorem skipWs_ws {w : Text} (h : Ws w) : skipWs w = [] := by
  have := skipWs_append h []
  simpa [skipWs] using this

/-! ### Strings -/

theorem hexDigit_of {c : Char} {n : Nat} (h : hexValue c = some n) : hexDigit? c = some n := by
  unfold hexValue at h
  split at h <;> first | (simp at h; subst h; rfl) | simp at h

theorem hex4_of {a b c d : Char} {n : Nat} (h : Hex4 a b c d n) : hex4 a b c d = some n := by
  obtain ⟨w, x, y, z, h1, h2, h3, h4, rfl⟩ := h
  simp only [hex4, hexDigit_of h1, hexDigit_of h2, hexDigit_of h3, hexDigit_of h4]
  congr 1
  omega

theorem readStr_chars {t s : Text} (h : Chars t s) (r : Text) :
    readStr (t ++ '"' :: r) = some (s, r) := by
  induction h with
  | nil => rw [List.nil_append, readStr]
  | @plain c t s h1 h2 h3 _ ih =>
    rw [List.cons_append, readStr]
    · rw [if_neg (by rintro (h | h); omega; exact h3 h), ih]; rfl
    · exact h2
    · intro a b c' d r' h; exact absurd h h3
    · intro x r' h; exact absurd h h3
  | @short x c t s h1 _ ih =>
    have hx : x ≠ 'u' ∧ unescape x = some c := by
      simp only [shortEscapes, List.mem_cons, Prod.mk.injEq, List.not_mem_nil, or_false] at h1
      rcases h1 with ⟨rfl, rfl⟩ | ⟨rfl, rfl⟩ | ⟨rfl, rfl⟩ | ⟨rfl, rfl⟩ | ⟨rfl, rfl⟩ | ⟨rfl, rfl⟩ |
        ⟨rfl, rfl⟩ | ⟨rfl, rfl⟩ <;> exact ⟨by decide, rfl⟩
    rw [List.cons_append, List.cons_append, readStr]
    · simp only [hx.2, ih]; rfl
    · intro a b c' d r' h; exact absurd h hx.1
  | @hex a b c d n t s h1 h2 _ ih =>
    simp only [List.cons_append]
    rw [readStr]
    simp only [hex4_of h1]
    rw [if_neg (by omega), if_neg (by omega), ih]
    rfl
  | @pair a b c d n a' b' c' d' m t s h1 h2 h3 h4 _ ih =>
    simp only [List.cons_append]
    rw [readStr]
    simp only [hex4_of h1]
    rw [if_pos (by omega)]
    simp only [hex4_of h3]
    rw [if_pos (by omega), ih]
    simp

/-! ### Numbers -/

/-- The text does not continue a number. -/
def Stop (t : Text) : Prop :=
  ∀ c, t.head? = some c → c.isDigit = false ∧ c ≠ '.' ∧ c ≠ 'e' ∧ c ≠ 'E'

theorem takeWhile_digits {ds r : Text} (h : ∀ c ∈ ds, c.isDigit = true)
    (hr : ∀ c, r.head? = some c → c.isDigit = false) :
    (ds ++ r).takeWhile Char.isDigit = ds ∧ (ds ++ r).dropWhile Char.isDigit = r := by
  rw [List.takeWhile_append_of_pos h, List.dropWhile_append_of_pos h]
  cases r with
  | nil => simp
  | cons c r =>
    have := hr c rfl
    rw [List.takeWhile_cons_of_neg (by simp [this]), List.dropWhile_cons_of_neg (by simp [this])]
    simp

theorem readInt_of {ip r : Text} (h : ip = ['0'] ∨ Digits ip ∧ ip.head? ≠ some '0')
    (hr : ∀ c, r.head? = some c → c.isDigit = false) : readInt (ip ++ r) = some (ip, r) := by
  rcases h with rfl | ⟨⟨h1, h2⟩, h3⟩
  · cases r with
    | nil => rfl
    | cons c r => simp [readInt, hr c rfl]
  · cases ip with
    | nil => exact absurd rfl h1
    | cons c ip =>
      have h0 : c ≠ '0' := by rintro rfl; exact h3 rfl
      obtain ⟨h4, h5⟩ := takeWhile_digits h2 hr
      rw [List.cons_append] at h4 h5
      rw [List.cons_append]
      unfold readInt
      simp only [if_neg h0, if_pos (h2 c (by simp)), h4, h5]

theorem readFrac_of {fp r : Text} (h : fp = [] ∨ ∃ ds, Digits ds ∧ fp = '.' :: ds)
    (hr : ∀ c, r.head? = some c → c.isDigit = false ∧ c ≠ '.') : readFrac (fp ++ r) = some (fp, r) := by
  rcases h with rfl | ⟨ds, ⟨h1, h2⟩, rfl⟩
  · cases r with
    | nil => rfl
    | cons c r => rw [List.nil_append, readFrac, if_neg (hr c rfl).2]
  · obtain ⟨h4, h5⟩ := takeWhile_digits h2 (fun c hc => (hr c hc).1)
    rw [List.cons_append, readFrac, if_pos rfl]
    simp only [h4, h5]
    rw [if_neg (by simpa using h1)]

theorem readExp_of {ep r : Text}
    (h : ep = [] ∨ ∃ e s ds, (e = 'e' ∨ e = 'E') ∧ (s = [] ∨ s = ['+'] ∨ s = ['-']) ∧ Digits ds ∧
      ep = e :: (s ++ ds))
    (hr : ∀ c, r.head? = some c → c.isDigit = false ∧ c ≠ 'e' ∧ c ≠ 'E') :
    readExp (ep ++ r) = some (ep, r) := by
  rcases h with rfl | ⟨e, s, ds, he, hs, ⟨h1, h2⟩, rfl⟩
  · cases r with
    | nil => rfl
    | cons c r =>
      have := hr c rfl
      rw [List.nil_append, readExp, if_neg (by tauto)]
  · obtain ⟨h4, h5⟩ := takeWhile_digits h2 (fun c hc => (hr c hc).1)
    rw [List.cons_append, readExp, if_pos he]
    have hsign : readSign (s ++ ds ++ r) = (s, ds ++ r) := by
      rcases hs with rfl | rfl | rfl
      · cases ds with
        | nil => exact absurd rfl h1
        | cons c ds =>
          have := h2 c (by simp)
          simp only [List.nil_append, List.cons_append, readSign]
          rw [if_neg (by rintro (rfl | rfl) <;> exact absurd this (by decide))]
      · rfl
      · rfl
    simp only [hsign, h4, h5]
    rw [if_neg (by simpa using h1)]

theorem frac_head {fp : Text} (h : fp = [] ∨ ∃ ds, Digits ds ∧ fp = '.' :: ds) {c : Char} {r : Text}
    (hc : (fp ++ r).head? = some c) : c = '.' ∨ fp = [] ∧ r.head? = some c := by
  rcases h with rfl | ⟨ds, _, rfl⟩
  · exact .inr ⟨rfl, hc⟩
  · simp at hc; exact .inl hc.symm

theorem exp_head {ep : Text}
    (h : ep = [] ∨ ∃ e s ds, (e = 'e' ∨ e = 'E') ∧ (s = [] ∨ s = ['+'] ∨ s = ['-']) ∧ Digits ds ∧
      ep = e :: (s ++ ds)) {c : Char} {r : Text} (hc : (ep ++ r).head? = some c) :
    (c = 'e' ∨ c = 'E') ∨ ep = [] ∧ r.head? = some c := by
  rcases h with rfl | ⟨e, s, ds, he, _, _, rfl⟩
  · exact .inr ⟨rfl, hc⟩
  · simp at hc; subst hc; exact .inl he

/-- Reading the four parts of a number. -/
theorem readNumber_of {sg ip fp ep r : Text} (hs : sg = [] ∨ sg = ['-'])
    (hi : ip = ['0'] ∨ Digits ip ∧ ip.head? ≠ some '0')
    (hf : fp = [] ∨ ∃ ds, Digits ds ∧ fp = '.' :: ds)
    (he : ep = [] ∨ ∃ e s ds, (e = 'e' ∨ e = 'E') ∧ (s = [] ∨ s = ['+'] ∨ s = ['-']) ∧ Digits ds ∧
      ep = e :: (s ++ ds)) (hr : Stop r) :
    readNumber (sg ++ ip ++ fp ++ ep ++ r) =
      if fp.isEmpty ∧ ep.isEmpty then
        (let n := Nat.ofDigitChars 10 ip 0
         if sg = ['-'] then
           if n ≠ 0 ∧ n ≤ 2 ^ 63 then some (.num (-(n : Int)), r) else some (.float (sg ++ ip), r)
         else if n < 2 ^ 64 then some (.num n, r) else some (.float ip, r))
      else some (.float (sg ++ ip ++ fp ++ ep), r) := by
  have hne : ∀ c, (ep ++ r).head? = some c → c.isDigit = false ∧ c ≠ '.' := by
    intro c hc
    rcases exp_head he hc with (rfl | rfl) | ⟨_, h⟩
    · decide
    · decide
    · exact ⟨(hr c h).1, (hr c h).2.1⟩
  have hnf : ∀ c, (fp ++ (ep ++ r)).head? = some c → c.isDigit = false := by
    intro c hc
    rcases frac_head hf hc with rfl | ⟨_, h⟩
    · decide
    · exact (hne c h).1
  have h1 : readInt (ip ++ (fp ++ (ep ++ r))) = some (ip, fp ++ (ep ++ r)) := readInt_of hi hnf
  have h2 : readFrac (fp ++ (ep ++ r)) = some (fp, ep ++ r) := readFrac_of hf hne
  have h3 : readExp (ep ++ r) = some (ep, r) :=
    readExp_of he (fun c hc => ⟨(hr c hc).1, (hr c hc).2.2⟩)
  have hmin : ∀ t : Text, (ip ++ t).head? ≠ some '-' := by
    intro t
    rcases hi with rfl | ⟨⟨g1, g2⟩, _⟩
    · simp
    · cases ip with
      | nil => exact absurd rfl g1
      | cons c ip =>
        intro h
        simp at h
        subst h
        exact absurd (g2 '-' (by simp)) (by decide)
  unfold readNumber
  simp only [List.append_assoc]
  rcases hs with rfl | rfl
  · have h0 := hmin (fp ++ (ep ++ r))
    simp only [List.nil_append, h0, if_false, h1, h2, h3, decide_false, Bool.false_eq_true]
    rfl
  · simp only [List.cons_append, List.nil_append, List.head?_cons, if_true, List.tail_cons, h1, h2, h3]

theorem readNumber_float {t r : Text} (h : FloatText t) (hr : Stop r) :
    readNumber (t ++ r) = some (.float t, r) := by
  obtain ⟨sg, ip, fp, ep, rfl, h0, h1, h2, h3, h4⟩ := h
  rw [readNumber_of h1 h2 h3 h4 hr, if_neg]
  simpa using h0

theorem readNumber_negZero {r : Text} (hr : Stop r) :
    readNumber ("-0".toList ++ r) = some (.float "-0".toList, r) := by
  have := readNumber_of (sg := ['-']) (ip := ['0']) (fp := []) (ep := []) (.inr rfl) (.inl rfl) (.inl rfl)
    (.inl rfl) hr
  have e : "-0".toList = ['-', '0'] := rfl
  rw [e]
  simp only [List.append_nil, List.cons_append, List.nil_append] at this ⊢
  rw [this]
  rfl

theorem toDigits_head_ne (n : Nat) (h : 0 < n) : (Nat.toDigits 10 n).head? ≠ some '0' := by
  induction n using Nat.strongRecOn with
  | _ n ih =>
    by_cases hb : n < 10
    · rw [Nat.toDigits_of_lt_base hb]
      match n, hb, h with
      | 1, _, _ | 2, _, _ | 3, _, _ | 4, _, _ | 5, _, _ | 6, _, _ | 7, _, _ | 8, _, _ | 9, _, _ => decide
    · rw [Nat.toDigits_of_base_le (by omega) (by omega)]
      have := ih (n / 10) (by omega) (by omega)
      rw [List.head?_append]
      cases hh : (Nat.toDigits 10 (n / 10)).head? with
      | none => rw [List.head?_eq_none_iff] at hh; exact absurd hh Nat.toDigits_ne_nil
      | some c => rw [hh] at this; simpa using this

theorem toDigits_int (n : Nat) :
    Nat.toDigits 10 n = ['0'] ∨ Digits (Nat.toDigits 10 n) ∧ (Nat.toDigits 10 n).head? ≠ some '0' := by
  rcases Nat.eq_zero_or_pos n with rfl | h
  · exact .inl (Nat.toDigits_zero 10)
  · exact .inr ⟨⟨Nat.toDigits_ne_nil, fun c hc => Nat.isDigit_of_mem_toDigits (by omega) (by omega) hc⟩,
      toDigits_head_ne n h⟩

theorem toString_int (n : Int) : (toString n).toList = Json.renderInt n := by
  cases n with
  | ofNat n =>
    show (Nat.repr n).toList = _
    rw [Nat.toList_repr]; rfl
  | negSucc n =>
    show ("-" ++ Nat.repr (n + 1)).toList = _
    rw [String.toList_append, Nat.toList_repr]; rfl

theorem readNumber_int (n : Int) {r : Text} (hr : Stop r) (h1 : -2 ^ 63 ≤ n) (h2 : n < 2 ^ 64) :
    readNumber ((toString n).toList ++ r) = some (.num n, r) := by
  rw [toString_int]
  cases n with
  | ofNat n =>
    have := readNumber_of (sg := []) (fp := []) (ep := []) (.inl rfl) (toDigits_int n) (.inl rfl)
      (.inl rfl) hr
    simp only [List.nil_append, List.append_nil] at this
    simp only [Json.renderInt]
    rw [this]
    have hn : n < 2 ^ 64 := by have : ((n : Nat) : Int) < 2 ^ 64 := h2; omega
    rw [if_pos (by decide), if_neg (by decide), Nat.ofDigitChars_ten_toDigits, if_pos hn]
    rfl
  | negSucc n =>
    have := readNumber_of (sg := ['-']) (fp := []) (ep := []) (.inr rfl) (toDigits_int (n + 1)) (.inl rfl)
      (.inl rfl) hr
    simp only [List.append_nil] at this
    simp only [Json.renderInt]
    rw [List.cons_append, List.nil_append] at this
    rw [this]
    have hn : n + 1 ≤ 2 ^ 63 := by omega
    rw [if_pos (by decide), if_pos trivial, Nat.ofDigitChars_ten_toDigits, if_pos ⟨by omega, hn⟩]
    rfl

/-! ### Values -/

theorem digit_char {c : Char} (h : c.isDigit = true) : isWs c = false ∧ c ≠ ']' ∧ c ≠ '}' ∧ c ≠ '"' ∧
    c ≠ '[' ∧ c ≠ '{' ∧ c ≠ 'n' ∧ c ≠ 't' ∧ c ≠ 'f' := by
  have h' : 48 ≤ c.toNat ∧ c.toNat ≤ 57 := by
    simp [Char.isDigit] at h
    exact h
  refine ⟨?_, ?_, ?_, ?_, ?_, ?_, ?_, ?_, ?_⟩
  · cases hw : isWs c with
    | false => rfl
    | true => rcases (isWs_iff c).1 hw with rfl | rfl | rfl | rfl <;> exact absurd h (by decide)
  all_goals (rintro rfl; exact absurd h (by decide))

/-- What a number starts with. -/
theorem number_head {c : Char} (h : c.isDigit = true ∨ c = '-') : isWs c = false ∧ c ≠ ']' ∧ c ≠ '}' ∧
    c ≠ '"' ∧ c ≠ '[' ∧ c ≠ '{' ∧ c ≠ 'n' ∧ c ≠ 't' ∧ c ≠ 'f' := by
  rcases h with h | rfl
  · exact digit_char h
  · decide

theorem int_head (n : Int) : ∃ c t, (toString n).toList = c :: t ∧ (c.isDigit = true ∨ c = '-') := by
  rw [toString_int]
  cases n with
  | ofNat n =>
    obtain ⟨c, r, h1, h2⟩ := Json.toDigits_head n
    exact ⟨c, r, h1, .inl h2⟩
  | negSucc n => exact ⟨'-', _, rfl, .inr rfl⟩

theorem float_head {t : Text} (h : FloatText t) : ∃ c r, t = c :: r ∧ (c.isDigit = true ∨ c = '-') := by
  obtain ⟨sg, ip, fp, ep, rfl, h0, h1, h2, h3, h4⟩ := h
  rcases h1 with rfl | rfl
  · rcases h2 with rfl | ⟨⟨g1, g2⟩, _⟩
    · exact ⟨'0', fp ++ ep, by simp, .inl (by decide)⟩
    · cases ip with
      | nil => exact absurd rfl g1
      | cons c ip => exact ⟨c, ip ++ fp ++ ep, by simp, .inl (g2 c (by simp))⟩
  · exact ⟨'-', ip ++ fp ++ ep, by simp, .inr rfl⟩

theorem denotes_head {t : Text} {v : Json} (h : Denotes t v) :
    ∃ c r, t = c :: r ∧ isWs c = false ∧ c ≠ ']' ∧ c ≠ '}' := by
  cases h with
  | null => exact ⟨'n', _, rfl, by decide⟩
  | «true» => exact ⟨'t', _, rfl, by decide⟩
  | «false» => exact ⟨'f', _, rfl, by decide⟩
  | int n =>
    obtain ⟨c, r, h1, h2⟩ := int_head n
    have := number_head h2
    exact ⟨c, r, h1, this.1, this.2.1, this.2.2.1⟩
  | negZero => exact ⟨'-', _, rfl, by decide⟩
  | float hf =>
    obtain ⟨c, r, h1, h2⟩ := float_head hf
    have := number_head h2
    exact ⟨c, r, h1, this.1, this.2.1, this.2.2.1⟩
  | str _ => exact ⟨'"', _, rfl, by decide⟩
  | emptyArr _ => exact ⟨'[', _, rfl, by decide⟩
  | arr _ => exact ⟨'[', _, rfl, by decide⟩
  | emptyObj _ => exact ⟨'{', _, rfl, by decide⟩
  | obj _ => exact ⟨'{', _, rfl, by decide⟩

theorem skip_denotes {w t : Text} {v : Json} (hw : Ws w) (h : Denotes t v) (r : Text) :
    skipWs (w ++ (t ++ r)) = t ++ r := by
  obtain ⟨c, u, rfl, h1, _⟩ := denotes_head h
  rw [skipWs_append hw, List.cons_append, skipWs_cons h1]

/-- White space and a delimiter end a number. -/
theorem stop_ws {w : Text} (hw : Ws w) {c : Char} (hc : c = ',' ∨ c = ']' ∨ c = '}') (r : Text) :
    Stop (w ++ c :: r) := by
  intro x hx
  cases w with
  | nil => simp at hx; subst hx; rcases hc with rfl | rfl | rfl <;> decide
  | cons y w =>
    simp at hx
    subst hx
    rcases hw y (by simp) with rfl | rfl | rfl | rfl <;> decide

theorem stop_end {w : Text} (hw : Ws w) : Stop w := by
  intro x hx
  cases w with
  | nil => simp at hx
  | cons y w =>
    simp at hx
    subst hx
    rcases hw y (by simp) with rfl | rfl | rfl | rfl <;> decide

theorem elements_head {t : Text} {l : List Json} (h : Elements t l) (r : Text) :
    ∃ c u, skipWs (t ++ r) = c :: u ∧ c ≠ ']' := by
  cases h with
  | @one w t w' v hw hd hw' =>
    obtain ⟨c, u, rfl, h1, h2, _⟩ := denotes_head hd
    exact ⟨c, _, by
      rw [List.append_assoc, List.append_assoc, skip_denotes hw hd, List.cons_append], h2⟩
  | @cons w t w' v t' l hw hd hw' _ =>
    obtain ⟨c, u, rfl, h1, h2, _⟩ := denotes_head hd
    exact ⟨c, _, by
      rw [List.append_assoc, List.append_assoc, skip_denotes hw hd, List.cons_append], h2⟩

theorem members_head {t : Text} {l : List (Text × Json)} (h : Members t l) (r : Text) :
    ∃ u, skipWs (t ++ r) = '"' :: u := by
  cases h with
  | one hw _ _ _ _ _ =>
    rw [List.append_assoc, skipWs_append hw, List.cons_append, skipWs_cons (by decide)]
    exact ⟨_, rfl⟩
  | cons hw _ _ _ _ _ _ =>
    rw [List.append_assoc, skipWs_append hw, List.cons_append, skipWs_cons (by decide)]
    exact ⟨_, rfl⟩

theorem insertKey_last {k : Text} {v : Json} {l : List (Text × Json)}
    (h : ∀ m ∈ l, m.1 < k) : insertKey k v l = l ++ [(k, v)] := by
  induction l with
  | nil => rfl
  | cons m l ih =>
    obtain ⟨k', v'⟩ := m
    have h1 : k' < k := h (k', v') (by simp)
    rw [insertKey, if_neg (not_lt_of_gt h1), if_neg (ne_of_gt h1), ih (fun m hm => h m (by simp [hm]))]
    rfl

mutual
theorem value_of {t : Text} {v : Json} (h : Denotes t v) (r : Text) (f d k : Nat) (hr : Stop r)
    (hs : Storable k v) (hd : k < d) (hf : 2 * (t.length + r.length) ≤ f) :
    value f d (t ++ r) = some (v, r) := by
  have hf1 : ∃ g, f = g + 1 := by
    obtain ⟨c, u, rfl, _⟩ := denotes_head h
    simp at hf
    exact ⟨f - 1, by omega⟩
  obtain ⟨g, rfl⟩ := hf1
  cases h with
  | null => rfl
  | «true» => rfl
  | «false» => rfl
  | int n =>
    cases hs with
    | num _ _ h1 h2 =>
      have := readNumber_int n hr h1 h2
      obtain ⟨c, u, h3, h4⟩ := int_head n
      have hh := number_head h4
      rw [h3, List.cons_append] at this ⊢
      simp only [value, hh.2.2.2.1, hh.2.2.2.2.1, hh.2.2.2.2.2.1, hh.2.2.2.2.2.2.1, hh.2.2.2.2.2.2.2.1,
        hh.2.2.2.2.2.2.2.2, if_false]
      exact this
  | negZero => exact readNumber_negZero hr
  | float hfl =>
    have := readNumber_float hfl hr
    obtain ⟨c, u, h3, h4⟩ := float_head hfl
    have hh := number_head h4
    rw [h3, List.cons_append] at this ⊢
    simp only [value, hh.2.2.2.1, hh.2.2.2.2.1, hh.2.2.2.2.2.1, hh.2.2.2.2.2.2.1, hh.2.2.2.2.2.2.2.1,
      hh.2.2.2.2.2.2.2.2, if_false]
    rw [← h3] at this ⊢
    exact this
  | @str t s hc =>
    have := readStr_chars hc r
    simp only [List.cons_append, List.append_assoc, List.nil_append, value, if_true, this,
      Option.map_some]
  | @emptyArr w hw =>
    cases hs with
    | arr k _ _ =>
      simp only [List.cons_append, List.append_assoc, List.nil_append, value]
      rw [if_neg (by decide), if_pos (by decide), if_neg (by omega), skipWs_append hw, skipWs_cons (by decide)]
      rfl
  | @arr t l he =>
    cases hs with
    | arr k _ hl =>
      simp only [List.cons_append, List.append_assoc, List.nil_append, value]
      rw [if_neg (by decide), if_pos (by decide), if_neg (by omega)]
      obtain ⟨c, u, h1, h2⟩ := elements_head he (']' :: r)
      have := elements_of he r [] g (d - 1) k hl (by omega) (by simp at hf ⊢; omega)
      rw [h1] at this ⊢
      simp only [if_neg h2]
      simpa using this
  | @emptyObj w hw =>
    cases hs with
    | obj k _ _ _ =>
      simp only [List.cons_append, List.append_assoc, List.nil_append, value]
      rw [if_neg (by decide), if_neg (by decide), if_pos (by decide), if_neg (by omega), skipWs_append hw,
        skipWs_cons (by decide)]
      rfl
  | @obj t l he =>
    cases hs with
    | obj k _ hp hl =>
      simp only [List.cons_append, List.append_assoc, List.nil_append, value]
      rw [if_neg (by decide), if_neg (by decide), if_pos (by decide), if_neg (by omega)]
      obtain ⟨u, h1⟩ := members_head he ('}' :: r)
      have := members_of he r [] g (d - 1) k hl (by simpa using hp) (by omega) (by simp at hf ⊢; omega)
      rw [h1] at this ⊢
      simp only
      rw [if_neg (by decide)]
      simpa using this

theorem elements_of {t : Text} {l : List Json} (h : Elements t l) (r : Text) (acc : List Json)
    (f d k : Nat) (hs : ∀ v ∈ l, Storable k v) (hd : k < d)
    (hf : 2 * (t.length + 1 + r.length) + 1 ≤ f) :
    elements f d acc (skipWs (t ++ ']' :: r)) = some (.arr (acc ++ l), r) := by
  obtain ⟨g, rfl⟩ : ∃ g, f = g + 1 := ⟨f - 1, by omega⟩
  cases h with
  | @one w t w' v hw hdn hw' =>
    simp only [List.append_assoc]
    rw [skip_denotes hw hdn, elements, value_of hdn (w' ++ ']' :: r) g d k (stop_ws hw' (by simp) r)
      (hs v (by simp)) hd (by simp at hf ⊢; omega)]
    simp only [skipWs_append hw', skipWs_cons (show isWs ']' = false by decide)]
    rfl
  | @cons w t w' v t' l hw hdn hw' he =>
    simp only [List.append_assoc]
    rw [skip_denotes hw hdn, elements, value_of hdn (w' ++ (',' :: t' ++ ']' :: r)) g d k
      (stop_ws hw' (by simp) _) (hs v (by simp)) hd (by simp at hf ⊢; omega)]
    rw [List.cons_append]
    simp only [skipWs_append hw', skipWs_cons (show isWs ',' = false by decide), if_true]
    rw [elements_of he r (acc ++ [v]) g d k (fun v hv => hs v (by simp [hv])) hd
      (by simp at hf ⊢; omega)]
    simp

theorem members_of {t : Text} {l : List (Text × Json)} (h : Members t l) (r : Text)
    (acc : List (Text × Json)) (f d k : Nat) (hs : ∀ m ∈ l, Storable k m.2)
    (hp : ((acc ++ l).map Prod.fst).Pairwise (· < ·)) (hd : k < d)
    (hf : 2 * (t.length + 1 + r.length) + 1 ≤ f) :
    members f d acc (skipWs (t ++ '}' :: r)) = some (.obj (acc ++ l), r) := by
  obtain ⟨g, rfl⟩ : ∃ g, f = g + 1 := ⟨f - 1, by omega⟩
  cases h with
  | @one w q s w₁ w₂ t w' v hw hk hw1 hw2 hdn hw' =>
    have hins : insertKey s v acc = acc ++ [(s, v)] := by
      apply insertKey_last
      intro m hm
      rw [List.map_append, List.pairwise_append] at hp
      exact hp.2.2 m.1 (List.mem_map.2 ⟨m, hm, rfl⟩) s (by simp)
    simp only [List.append_assoc, List.cons_append]
    rw [skipWs_append hw, skipWs_cons (by decide), members, if_pos rfl, readStr_chars hk]
    simp only [skipWs_append hw1, skipWs_cons (show isWs ':' = false by decide), if_true]
    rw [skip_denotes hw2 hdn, value_of hdn (w' ++ '}' :: r) g d k (stop_ws hw' (by simp) r)
      (hs (s, v) (by simp)) hd (by simp at hf ⊢; omega)]
    simp only [skipWs_append hw', skipWs_cons (show isWs '}' = false by decide), hins]
    rfl
  | @cons w q s w₁ w₂ t w' v t' l hw hk hw1 hw2 hdn hw' he =>
    have hins : insertKey s v acc = acc ++ [(s, v)] := by
      apply insertKey_last
      intro m hm
      rw [List.map_append, List.pairwise_append] at hp
      exact hp.2.2 m.1 (List.mem_map.2 ⟨m, hm, rfl⟩) s (by simp)
    simp only [List.append_assoc, List.cons_append]
    rw [skipWs_append hw, skipWs_cons (by decide), members, if_pos rfl, readStr_chars hk]
    simp only [skipWs_append hw1, skipWs_cons (show isWs ':' = false by decide), if_true]
    rw [skip_denotes hw2 hdn, value_of hdn (w' ++ (',' :: (t' ++ '}' :: r))) g d k
      (stop_ws hw' (by simp) _) (hs (s, v) (by simp)) hd (by simp at hf ⊢; omega)]
    simp only [skipWs_append hw', skipWs_cons (show isWs ',' = false by decide), hins, if_true]
    rw [members_of he r (acc ++ [(s, v)]) g d k (fun v hv => hs v (by simp [hv]))
      (by simpa using hp) hd (by simp at hf ⊢; omega)]
    simp
end

/-- A JSON text of a value that can be stored is read as that value. -/
theorem parse_of {t : Text} {v : Json} (h : JsonText t v) {k : Nat} (hs : Storable k v) (hk : k < 128) :
    parse t = some v := by
  obtain ⟨w, t', w', hw, hw', rfl, hd⟩ := h
  unfold parse
  rw [skip_denotes hw hd, value_of hd w' _ 128 k (stop_end hw') hs hk (by simp; omega)]
  simp only [skipWs_ws hw']
  rfl

end JsonRead
end Tokens
