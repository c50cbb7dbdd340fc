import Verif.Proofs.JsonExact
import Verif.Proofs.JsonPrefix

/-! Reading JSON texts: nothing but JSON is read. -/

set_option linter.unusedSimpArgs false
set_option linter.unusedVariables false

namespace Tokens
open Spec
namespace JsonRead


theorem skipWs_split (t : Text) : ∃ w, Ws w ∧ t = w ++ skipWs t := by
  refine ⟨t.takeWhile isWs, ?_, (List.takeWhile_append_dropWhile).symm⟩
  intro c hc
  exact (isWs_iff c).1 (List.all_eq_true.1 (List.all_takeWhile (p := isWs) (l := t)) c hc)

theorem Ws.append {w w' : Text} (h : Ws w) (h' : Ws w') : Ws (w ++ w') := by
  intro c hc
  rcases List.mem_append.1 hc with g | g
  · exact h c g
  · exact h' c g

theorem hexDigit_inv {c : Char} {n : Nat} (h : hexDigit? c = some n) : hexValue c = some n := by
  have key : ∀ m < 128, ∀ n, hexDigit? (Char.ofNat m) = some n → hexValue (Char.ofNat m) = some n := by
    intro m hm
    have : (hexDigit? (Char.ofNat m)) = hexValue (Char.ofNat m) := by
      revert m
      decide +kernel
    intro n h
    rw [← this]; exact h
  have hlt : c.toNat < 128 := by
    by_contra hc
    have hc : 128 ≤ c.toNat := by omega
    have e1 : ¬ c ≤ '9' := by
      intro g
      have : c.toNat ≤ '9'.toNat := g
      have : ('9' : Char).toNat = 57 := rfl
      omega
    have e2 : ¬ c ≤ 'f' := by
      intro g
      have : c.toNat ≤ 'f'.toNat := g
      have : ('f' : Char).toNat = 102 := rfl
      omega
    have e3 : ¬ c ≤ 'F' := by
      intro g
      have : c.toNat ≤ 'F'.toNat := g
      have : ('F' : Char).toNat = 70 := rfl
      omega
    simp [hexDigit?, e1, e2, e3] at h
  have := key c.toNat hlt n
  rw [Char.ofNat_toNat] at this
  exact this h

theorem hex4_inv {a b c d : Char} {n : Nat} (h : hex4 a b c d = some n) : Hex4 a b c d n := by
  unfold hex4 at h
  split at h
  · rename_i w x y z h1 h2 h3 h4
    refine ⟨w, x, y, z, hexDigit_inv h1, hexDigit_inv h2, hexDigit_inv h3, hexDigit_inv h4, ?_⟩
    have := Option.some.inj h
    omega
  · simp at h

theorem unescape_inv {x c : Char} (h : unescape x = some c) : (x, c) ∈ shortEscapes := by
  unfold unescape at h
  split at h
  · rename_i e; subst e; cases h; decide
  split at h
  · rename_i e; subst e; cases h; decide
  split at h
  · rename_i e; subst e; cases h; decide
  split at h
  · rename_i e; subst e; cases h; decide
  split at h
  · rename_i e; subst e; cases h; decide
  split at h
  · rename_i e; subst e; cases h; decide
  split at h
  · rename_i e; subst e; cases h; decide
  split at h
  · rename_i e; subst e; cases h; decide
  · simp at h

theorem readStr_inv (t s r : Text) (h : readStr t = some (s, r)) :
    ∃ u, t = u ++ '"' :: r ∧ Chars u s := by
  fun_induction readStr t generalizing s r with
  | case1 => simp at h
  | case2 r' =>
    simp only [Option.some.injEq, Prod.mk.injEq] at h
    obtain ⟨rfl, rfl⟩ := h
    exact ⟨[], rfl, .nil⟩
  | case5 a b c d n h1 hn a' b' c' d' r' m h2 hm ih =>
    obtain ⟨⟨s', r2⟩, g1, g2⟩ := Option.map_eq_some_iff.1 h
    simp only [Prod.mk.injEq] at g2
    obtain ⟨rfl, rfl⟩ := g2
    obtain ⟨u, rfl, hu⟩ := ih s' r2 g1
    refine ⟨'\\' :: 'u' :: a :: b :: c :: d :: '\\' :: 'u' :: a' :: b' :: c' :: d' :: u, rfl, ?_⟩
    have e1 : n = 0xD800 + (n - 0xD800) := by omega
    have e2 : m = 0xDC00 + (m - 0xDC00) := by omega
    exact Chars.pair (e1 ▸ hex4_inv h1) (by omega) (e2 ▸ hex4_inv h2) (by omega) hu
  | case9 a b c d r' n h1 hn hn' ih =>
    obtain ⟨⟨s', r2⟩, g1, g2⟩ := Option.map_eq_some_iff.1 h
    simp only [Prod.mk.injEq] at g2
    obtain ⟨rfl, rfl⟩ := g2
    obtain ⟨u, rfl, hu⟩ := ih s' r2 g1
    exact ⟨'\\' :: 'u' :: a :: b :: c :: d :: u, rfl, Chars.hex (hex4_inv h1) (by omega) hu⟩
  | case11 x r' h0 c h1 ih =>
    obtain ⟨⟨s', r2⟩, g1, g2⟩ := Option.map_eq_some_iff.1 h
    simp only [Prod.mk.injEq] at g2
    obtain ⟨rfl, rfl⟩ := g2
    obtain ⟨u, rfl, hu⟩ := ih s' r2 g1
    exact ⟨'\\' :: x :: u, rfl, Chars.short (unescape_inv h1) hu⟩
  | case13 c r' h1 h2 h3 h4 ih =>
    obtain ⟨⟨s', r2⟩, g1, g2⟩ := Option.map_eq_some_iff.1 h
    simp only [Prod.mk.injEq] at g2
    obtain ⟨rfl, rfl⟩ := g2
    obtain ⟨u, rfl, hu⟩ := ih s' r2 g1
    refine ⟨c :: u, rfl, Chars.plain (by omega) (fun e => h1 e) (fun e => h4 (.inr e)) hu⟩
  | _ => simp at h

/-! Numbers -/

theorem takeWhile_mem {t : Text} {c : Char} (h : c ∈ t.takeWhile Char.isDigit) : c.isDigit = true :=
  List.all_eq_true.1 (List.all_takeWhile (p := Char.isDigit) (l := t)) c h

theorem readInt_inv {t ip r : Text} (h : readInt t = some (ip, r)) :
    t = ip ++ r ∧ (ip = ['0'] ∨ Digits ip ∧ ip.head? ≠ some '0') := by
  unfold readInt at h
  split at h
  · simp at h
  · rename_i c r'
    split at h
    · rename_i e
      subst e
      split at h
      · simp only [Option.some.injEq, Prod.mk.injEq] at h
        obtain ⟨rfl, rfl⟩ := h
        exact ⟨rfl, .inl rfl⟩
      · split at h
        · simp at h
        · simp only [Option.some.injEq, Prod.mk.injEq] at h
          obtain ⟨rfl, rfl⟩ := h
          exact ⟨rfl, .inl rfl⟩
    · rename_i h0
      split at h
      · rename_i hd
        simp only [Option.some.injEq, Prod.mk.injEq] at h
        obtain ⟨rfl, rfl⟩ := h
        refine ⟨List.takeWhile_append_dropWhile.symm, .inr ⟨⟨?_, fun x hx => takeWhile_mem hx⟩, ?_⟩⟩
        · rw [List.takeWhile_cons_of_pos hd]; simp
        · rw [List.takeWhile_cons_of_pos hd]; simpa using h0
      · simp at h

theorem readFrac_inv {t fp r : Text} (h : readFrac t = some (fp, r)) :
    t = fp ++ r ∧ (fp = [] ∨ ∃ ds, Digits ds ∧ fp = '.' :: ds) := by
  unfold readFrac at h
  split at h
  · simp only [Option.some.injEq, Prod.mk.injEq] at h
    obtain ⟨rfl, rfl⟩ := h
    exact ⟨rfl, .inl rfl⟩
  · rename_i c r'
    split at h
    · rename_i e
      subst e
      simp only at h
      split at h
      · simp at h
      · rename_i hne
        simp only [Option.some.injEq, Prod.mk.injEq] at h
        obtain ⟨rfl, rfl⟩ := h
        refine ⟨?_, .inr ⟨_, ⟨by simpa using hne, fun x hx => takeWhile_mem hx⟩, rfl⟩⟩
        rw [List.cons_append, List.takeWhile_append_dropWhile]
    · simp only [Option.some.injEq, Prod.mk.injEq] at h
      obtain ⟨rfl, rfl⟩ := h
      exact ⟨rfl, .inl rfl⟩

theorem readSign_inv (t : Text) : t = (readSign t).1 ++ (readSign t).2 ∧
    ((readSign t).1 = [] ∨ (readSign t).1 = ['+'] ∨ (readSign t).1 = ['-']) := by
  unfold readSign
  split
  · exact ⟨rfl, .inl rfl⟩
  · split
    · rename_i h
      rcases h with rfl | rfl
      · exact ⟨rfl, .inr (.inl rfl)⟩
      · exact ⟨rfl, .inr (.inr rfl)⟩
    · exact ⟨rfl, .inl rfl⟩

theorem readExp_inv {t ep r : Text} (h : readExp t = some (ep, r)) :
    t = ep ++ r ∧ (ep = [] ∨ ∃ e s ds, (e = 'e' ∨ e = 'E') ∧ (s = [] ∨ s = ['+'] ∨ s = ['-']) ∧ Digits ds ∧
      ep = e :: (s ++ ds)) := by
  unfold readExp at h
  split at h
  · simp only [Option.some.injEq, Prod.mk.injEq] at h
    obtain ⟨rfl, rfl⟩ := h
    exact ⟨rfl, .inl rfl⟩
  · rename_i c r'
    split at h
    · rename_i he
      simp only at h
      split at h
      · simp at h
      · rename_i hne
        simp only [Option.some.injEq, Prod.mk.injEq] at h
        obtain ⟨rfl, rfl⟩ := h
        obtain ⟨h1, h2⟩ := readSign_inv r'
        refine ⟨?_, .inr ⟨c, _, _, he, h2, ⟨by simpa using hne, fun x hx => takeWhile_mem hx⟩, rfl⟩⟩
        rw [List.cons_append, List.append_assoc, List.takeWhile_append_dropWhile, ← h1]
    · simp only [Option.some.injEq, Prod.mk.injEq] at h
      obtain ⟨rfl, rfl⟩ := h
      exact ⟨rfl, .inl rfl⟩

theorem digit_digitChar {c : Char} (h : c.isDigit = true) :
    c.toNat - 48 < 10 ∧ Nat.digitChar (c.toNat - 48) = c := by
  have h' : 48 ≤ c.toNat ∧ c.toNat ≤ 57 := by
    simp [Char.isDigit] at h
    exact h
  refine ⟨by omega, ?_⟩
  have key : ∀ n < 58, 48 ≤ n → Nat.digitChar (n - 48) = Char.ofNat n := by decide +kernel
  rw [key c.toNat (by omega) h'.1, Char.ofNat_toNat]

/-- Digits without a leading zero are the decimal notation of their value. -/
theorem toDigits_ofDigits (ip : Text) (h1 : Digits ip) (h2 : ip.head? ≠ some '0') :
    Nat.toDigits 10 (Nat.ofDigitChars 10 ip 0) = ip := by
  suffices H : ∀ ip : Text, (∀ c ∈ ip, c.isDigit = true) → ip ≠ [] → ip.head? ≠ some '0' →
      0 < Nat.ofDigitChars 10 ip 0 ∧ Nat.toDigits 10 (Nat.ofDigitChars 10 ip 0) = ip from
    (H ip h1.2 h1.1 h2).2
  clear h1 h2 ip
  intro ip
  induction ip using List.reverseRec with
  | nil => intro _ h; exact absurd rfl h
  | append_singleton l c ih =>
    intro hd _ hz
    obtain ⟨hc1, hc2⟩ := digit_digitChar (hd c (by simp))
    rw [Nat.ofDigitChars_append]
    have e : ∀ n, Nat.ofDigitChars 10 [c] n = 10 * n + (c.toNat - 48) := by
      intro n
      rw [Nat.ofDigitChars_cons, Nat.ofDigitChars_nil]
      rfl
    rw [e]
    cases l with
    | nil =>
      rw [Nat.ofDigitChars_nil]
      have hne : c ≠ '0' := by simpa using hz
      have hpos : 0 < c.toNat - 48 := by
        rcases Nat.eq_zero_or_pos (c.toNat - 48) with g | g
        · rw [g] at hc2
          exact absurd hc2.symm hne
        · exact g
      refine ⟨by omega, ?_⟩
      rw [Nat.mul_zero, Nat.zero_add, Nat.toDigits_of_lt_base hc1, hc2]
      rfl
    | cons a l =>
      obtain ⟨g1, g2⟩ := ih (fun x hx => hd x (by simp at hx ⊢; tauto)) (by simp) (by simpa using hz)
      refine ⟨by omega, ?_⟩
      rw [Nat.toDigits_of_base_le (by omega) (by omega)]
      have e1 : (10 * Nat.ofDigitChars 10 (a :: l) 0 + (c.toNat - 48)) / 10 = Nat.ofDigitChars 10 (a :: l) 0 := by
        omega
      have e2 : (10 * Nat.ofDigitChars 10 (a :: l) 0 + (c.toNat - 48)) % 10 = c.toNat - 48 := by omega
      rw [e1, e2, g2, hc2]


theorem int_text {ip : Text} (h : ip = ['0'] ∨ Digits ip ∧ ip.head? ≠ some '0') :
    Nat.toDigits 10 (Nat.ofDigitChars 10 ip 0) = ip := by
  rcases h with rfl | ⟨h1, h2⟩
  · decide
  · exact toDigits_ofDigits ip h1 h2

theorem toString_nat_text {ip : Text} (h : ip = ['0'] ∨ Digits ip ∧ ip.head? ≠ some '0') :
    (toString ((Nat.ofDigitChars 10 ip 0 : Nat) : Int)).toList = ip := by
  rw [toString_int]
  show Nat.toDigits 10 _ = _
  exact int_text h

theorem toString_neg_text {ip : Text} (h : ip = ['0'] ∨ Digits ip ∧ ip.head? ≠ some '0')
    (h0 : Nat.ofDigitChars 10 ip 0 ≠ 0) :
    (toString (-((Nat.ofDigitChars 10 ip 0 : Nat) : Int))).toList = '-' :: ip := by
  rw [toString_int]
  have e := int_text h
  generalize Nat.ofDigitChars 10 ip 0 = n at *
  obtain ⟨m, rfl⟩ : ∃ m, n = m + 1 := ⟨n - 1, by omega⟩
  have : (-(((m + 1 : Nat)) : Int)) = Int.negSucc m := rfl
  rw [this, Json.renderInt, e]

theorem readNumber_inv {t r : Text} {v : Json} (h : readNumber t = some (v, r)) :
    ∃ (t0 : Text) (v0 : Json), t = t0 ++ r ∧ Denotes t0 v0 ∧ depth v0 = 0 ∧ stored v0 = v := by
  unfold readNumber at h
  simp only at h
  split at h
  · simp at h
  rename_i ip t2 h1
  split at h
  · simp at h
  rename_i fp t3 h2
  split at h
  · simp at h
  rename_i ep t4 h3
  obtain ⟨e1, hi⟩ := readInt_inv h1
  obtain ⟨e2, hf⟩ := readFrac_inv h2
  obtain ⟨e3, he⟩ := readExp_inv h3
  have ht : t = (if t.head? = some '-' then ['-'] else []) ++ (if t.head? = some '-' then t.tail else t) := by
    cases t with
    | nil => simp
    | cons c t => by_cases g : c = '-' <;> simp [g]
  subst e2 e3
  rw [e1] at ht
  generalize hsg : (if t.head? = some '-' then ['-'] else [] : Text) = sg at h ht
  have hs : sg = [] ∨ sg = ['-'] := by
    by_cases g : t.head? = some '-'
    · rw [if_pos g] at hsg; exact .inr hsg.symm
    · rw [if_neg g] at hsg; exact .inl hsg.symm
  split at h
  · rename_i hem
    have hfp : fp = [] := by simpa using hem.1
    have hep : ep = [] := by simpa using hem.2
    subst hfp hep
    simp only [List.nil_append, List.append_nil] at ht h
    by_cases hn : t.head? = some '-'
    · rw [if_pos hn] at h hsg
      subst hsg
      split at h
      · rename_i hr
        simp only [Option.some.injEq, Prod.mk.injEq] at h
        obtain ⟨rfl, rfl⟩ := h
        refine ⟨'-' :: ip, .num (-(Nat.ofDigitChars 10 ip 0 : Nat)), by simpa using ht, ?_, rfl, ?_⟩
        · have := Denotes.int (-((Nat.ofDigitChars 10 ip 0 : Nat) : Int))
          rwa [toString_neg_text hi hr.1] at this
        · rw [stored, if_pos]
          constructor
          · have := hr.2; omega
          · have := hr.2; omega
      · rename_i hr
        simp only [Option.some.injEq, Prod.mk.injEq] at h
        obtain ⟨rfl, rfl⟩ := h
        by_cases h0 : Nat.ofDigitChars 10 ip 0 = 0
        · have hz : ip = ['0'] := by
            have := int_text hi
            rw [h0, Nat.toDigits_zero] at this
            exact this.symm
          subst hz
          exact ⟨"-0".toList, _, by simpa using ht, .negZero, rfl, rfl⟩
        · refine ⟨'-' :: ip, .num (-(Nat.ofDigitChars 10 ip 0 : Nat)), by simpa using ht, ?_, rfl, ?_⟩
          · have := Denotes.int (-((Nat.ofDigitChars 10 ip 0 : Nat) : Int))
            rwa [toString_neg_text hi h0] at this
          · rw [stored, if_neg, toString_neg_text hi h0]
            · rfl
            · intro g
              apply hr
              refine ⟨h0, ?_⟩
              have := g.1
              omega
    · rw [if_neg hn] at h hsg
      subst hsg
      split at h
      · rename_i hr
        simp only [Option.some.injEq, Prod.mk.injEq] at h
        obtain ⟨rfl, rfl⟩ := h
        refine ⟨ip, .num (Nat.ofDigitChars 10 ip 0 : Nat), by simpa using ht, ?_, rfl, ?_⟩
        · have := Denotes.int ((Nat.ofDigitChars 10 ip 0 : Nat) : Int)
          rwa [toString_nat_text hi] at this
        · rw [stored, if_pos]
          constructor <;> omega
      · rename_i hr
        simp only [Option.some.injEq, Prod.mk.injEq] at h
        obtain ⟨rfl, rfl⟩ := h
        refine ⟨ip, .num (Nat.ofDigitChars 10 ip 0 : Nat), by simpa using ht, ?_, rfl, ?_⟩
        · have := Denotes.int ((Nat.ofDigitChars 10 ip 0 : Nat) : Int)
          rwa [toString_nat_text hi] at this
        · rw [stored, if_neg, toString_nat_text hi]
          omega
  · rename_i hem
    simp only [Option.some.injEq, Prod.mk.injEq] at h
    obtain ⟨rfl, rfl⟩ := h
    refine ⟨sg ++ ip ++ fp ++ ep, _, by simpa using ht, .float ⟨sg, ip, fp, ep, rfl, ?_, hs, hi, hf, he⟩, rfl, rfl⟩
    simpa using hem

/-! Values -/

theorem expect_inv {e t r : Text} (h : expect e t = some r) : t = e ++ r := by
  induction e generalizing t with
  | nil => simpa [expect] using h
  | cons c e ih =>
    cases t with
    | nil => simp [expect] at h
    | cons d t =>
      rw [expect] at h
      split at h
      · rename_i g
        subst g
        rw [ih h]; rfl
      · simp at h

theorem Elements.ws {w t : Text} {l : List Json} (hw : Ws w) (h : Elements t l) : Elements (w ++ t) l := by
  cases h with
  | one h1 h2 h3 =>
    rw [← List.append_assoc]
    exact .one (Ws.append hw h1) h2 h3
  | cons h1 h2 h3 h4 =>
    rw [← List.append_assoc]
    exact .cons (Ws.append hw h1) h2 h3 h4

theorem Members.ws {w t : Text} {l : List (Text × Json)} (hw : Ws w) (h : Members t l) :
    Members (w ++ t) l := by
  cases h with
  | one h1 h2 h3 h4 h5 h6 =>
    rw [← List.append_assoc]
    exact .one (Ws.append hw h1) h2 h3 h4 h5 h6
  | cons h1 h2 h3 h4 h5 h6 h7 =>
    rw [← List.append_assoc]
    exact .cons (Ws.append hw h1) h2 h3 h4 h5 h6 h7

theorem ws_nil : Ws [] := by intro c hc; simp at hc

theorem sound (f : Nat) :
    (∀ d t v r, value f d t = some (v, r) →
      ∃ (t0 : Text) (v0 : Json), t = t0 ++ r ∧ Denotes t0 v0 ∧ (0 < d → depth v0 < d) ∧ stored v0 = v) ∧
    (∀ d acc t v r, elements f d acc t = some (v, r) →
      ∃ (t0 : Text) (l : List Json), t = t0 ++ ']' :: r ∧ Elements t0 l ∧ (0 < d → depthArr l < d) ∧
        v = .arr (acc ++ storedArr l)) ∧
    (∀ d acc t v r, members f d acc t = some (v, r) →
      ∃ (t0 : Text) (l : List (Text × Json)), t = t0 ++ '}' :: r ∧ Members t0 l ∧ (0 < d → depthObj l < d) ∧
        v = .obj (insertAll acc (storedObj l))) := by
  induction f with
  | zero =>
    refine ⟨?_, ?_, ?_⟩
    · intro d t v r h; simp [value] at h
    · intro d acc t v r h; simp [elements] at h
    · intro d acc t v r h; simp [members] at h
  | succ f ih =>
    obtain ⟨ihv, ihe, ihm⟩ := ih
    refine ⟨?_, ?_, ?_⟩
    · intro d t v r h
      cases t with
      | nil => simp [value] at h
      | cons c t =>
        rw [value] at h
        split at h
        · rename_i hc
          subst hc
          obtain ⟨⟨s, r'⟩, h1, h2⟩ := Option.map_eq_some_iff.1 h
          simp only [Prod.mk.injEq] at h2
          obtain ⟨rfl, rfl⟩ := h2
          obtain ⟨u, rfl, hu⟩ := readStr_inv _ _ _ h1
          exact ⟨'"' :: (u ++ ['"']), .str s, by simp, .str hu, fun g => by simpa [depth] using g, rfl⟩
        split at h
        · rename_i hc
          subst hc
          split at h
          · simp at h
          · rename_i hd
            obtain ⟨w, hw, hsplit⟩ := skipWs_split t
            split at h
            · simp at h
            · rename_i e r' hsk
              split at h
              · rename_i he
                subst he
                simp only [Option.some.injEq, Prod.mk.injEq] at h
                obtain ⟨rfl, rfl⟩ := h
                refine ⟨'[' :: (w ++ [']']), .arr [], ?_, .emptyArr hw, ?_, rfl⟩
                · rw [hsplit, hsk]; simp
                · intro _; simp [depth, depthArr]; omega
              · obtain ⟨t0, l, g1, g2, g3, g4⟩ := ihe _ _ _ _ _ h
                refine ⟨'[' :: (w ++ t0 ++ [']']), .arr l, ?_, .arr (Elements.ws hw g2), ?_, ?_⟩
                · rw [hsplit, hsk, g1]; simp
                · intro _
                  have := g3 (by omega)
                  rw [depth]; omega
                · rw [g4, stored]; simp
        split at h
        · rename_i hc
          subst hc
          split at h
          · simp at h
          · rename_i hd
            obtain ⟨w, hw, hsplit⟩ := skipWs_split t
            split at h
            · simp at h
            · rename_i e r' hsk
              split at h
              · rename_i he
                subst he
                simp only [Option.some.injEq, Prod.mk.injEq] at h
                obtain ⟨rfl, rfl⟩ := h
                refine ⟨'{' :: (w ++ ['}']), .obj [], ?_, .emptyObj hw, ?_, ?_⟩
                · rw [hsplit, hsk]; simp
                · intro _; simp [depth, depthObj]; omega
                · simp [stored, storedObj, byKey]
              · obtain ⟨t0, l, g1, g2, g3, g4⟩ := ihm _ _ _ _ _ h
                refine ⟨'{' :: (w ++ t0 ++ ['}']), .obj l, ?_, .obj (Members.ws hw g2), ?_, ?_⟩
                · rw [hsplit, hsk, g1]; simp
                · intro _
                  have := g3 (by omega)
                  rw [depth]; omega
                · rw [g4, stored, insertAll_eq]
        split at h
        · rename_i hc
          subst hc
          obtain ⟨r', h1, h2⟩ := Option.map_eq_some_iff.1 h
          simp only [Prod.mk.injEq] at h2
          obtain ⟨rfl, rfl⟩ := h2
          exact ⟨"null".toList, .null, by rw [expect_inv h1]; rfl, .null, fun g => by simpa [depth] using g, rfl⟩
        split at h
        · rename_i hc
          subst hc
          obtain ⟨r', h1, h2⟩ := Option.map_eq_some_iff.1 h
          simp only [Prod.mk.injEq] at h2
          obtain ⟨rfl, rfl⟩ := h2
          exact ⟨"true".toList, .bool true, by rw [expect_inv h1]; rfl, .true, fun g => by simpa [depth] using g, rfl⟩
        split at h
        · rename_i hc
          subst hc
          obtain ⟨r', h1, h2⟩ := Option.map_eq_some_iff.1 h
          simp only [Prod.mk.injEq] at h2
          obtain ⟨rfl, rfl⟩ := h2
          exact ⟨"false".toList, .bool false, by rw [expect_inv h1]; rfl, .false, fun g => by simpa [depth] using g, rfl⟩
        · obtain ⟨t0, v0, g1, g2, g3, g4⟩ := readNumber_inv h
          exact ⟨t0, v0, g1, g2, fun g => by omega, g4⟩
    · intro d acc t v r h
      rw [elements] at h
      split at h
      · simp at h
      · rename_i x r1 hx
        obtain ⟨t0, v0, g1, g2, g3, g4⟩ := ihv _ _ _ _ hx
        obtain ⟨w, hw, hsplit⟩ := skipWs_split r1
        split at h
        · simp at h
        · rename_i c r' hsk
          split at h
          · rename_i hc
            subst hc
            obtain ⟨w2, hw2, hsplit2⟩ := skipWs_split r'
            obtain ⟨t1, l, k1, k2, k3, k4⟩ := ihe _ _ _ _ _ h
            refine ⟨[] ++ (t0 ++ (w ++ ',' :: (w2 ++ t1))), v0 :: l, ?_,
              .cons ws_nil g2 hw (Elements.ws hw2 k2), ?_, ?_⟩
            · rw [g1, hsplit, hsk, hsplit2, k1]; simp
            · intro g
              have := g3 g
              have := k3 g
              rw [depthArr]; omega
            · rw [k4, storedArr, g4]; simp
          · split at h
            · rename_i hc
              subst hc
              simp only [Option.some.injEq, Prod.mk.injEq] at h
              obtain ⟨rfl, rfl⟩ := h
              refine ⟨[] ++ (t0 ++ w), [v0], ?_, .one ws_nil g2 hw, ?_, ?_⟩
              · rw [g1, hsplit, hsk]; simp
              · intro g
                have := g3 g
                simp [depthArr]; omega
              · simp [storedArr, g4]
            · simp at h
    · intro d acc t v r h
      cases t with
      | nil => simp [members] at h
      | cons c t =>
        rw [members] at h
        split at h
        · rename_i hc
          subst hc
          split at h
          · simp at h
          · rename_i k r1 hk
            obtain ⟨u, hu1, hu2⟩ := readStr_inv _ _ _ hk
            obtain ⟨w1, hw1, hs1⟩ := skipWs_split r1
            split at h
            · simp at h
            · rename_i e r2 hsk1
              split at h
              · rename_i he
                subst he
                obtain ⟨w2, hw2, hs2⟩ := skipWs_split r2
                split at h
                · simp at h
                · rename_i x r3 hx
                  obtain ⟨t0, v0, g1, g2, g3, g4⟩ := ihv _ _ _ _ hx
                  obtain ⟨w3, hw3, hs3⟩ := skipWs_split r3
                  split at h
                  · simp at h
                  · rename_i e' r4 hsk3
                    split at h
                    · rename_i he'
                      subst he'
                      obtain ⟨w4, hw4, hs4⟩ := skipWs_split r4
                      obtain ⟨t1, l, k1, k2, k3, k4⟩ := ihm _ _ _ _ _ h
                      refine ⟨[] ++ ('"' :: (u ++ '"' :: (w1 ++ ':' :: (w2 ++ (t0 ++ (w3 ++ ',' :: (w4 ++ t1))))))),
                        (k, v0) :: l, ?_, .cons ws_nil hu2 hw1 hw2 g2 hw3 (Members.ws hw4 k2), ?_, ?_⟩
                      · rw [hu1, hs1, hsk1, hs2, g1, hs3, hsk3, hs4, k1]; simp
                      · intro g
                        have := g3 g
                        have := k3 g
                        rw [depthObj]; omega
                      · rw [k4, storedObj, insertAll_cons, g4]
                    · split at h
                      · rename_i he'
                        subst he'
                        simp only [Option.some.injEq, Prod.mk.injEq] at h
                        obtain ⟨rfl, rfl⟩ := h
                        refine ⟨[] ++ ('"' :: (u ++ '"' :: (w1 ++ ':' :: (w2 ++ (t0 ++ w3))))),
                          [(k, v0)], ?_, .one ws_nil hu2 hw1 hw2 g2 hw3, ?_, ?_⟩
                        · rw [hu1, hs1, hsk1, hs2, g1, hs3, hsk3]; simp
                        · intro g
                          have := g3 g
                          simp [depthObj]; omega
                        · simp [storedObj, insertAll, g4]
                      · simp at h
              · simp at h
        · simp at h

/-- Exactly the JSON texts of values nested fewer than 128 deep are read. -/
theorem parse_iff (t : Text) (v : Json) :
    parse t = some v ↔ ∃ v0, JsonText t v0 ∧ depth v0 < 128 ∧ stored v0 = v := by
  constructor
  · intro h
    unfold parse at h
    split at h
    · simp at h
    · rename_i x r hx
      split at h
      · rename_i hr
        have := Option.some.inj h
        subst this
        obtain ⟨t0, v0, g1, g2, g3, g4⟩ := (sound _).1 _ _ _ _ hx
        obtain ⟨w, hw, hs⟩ := skipWs_split t
        obtain ⟨w', hw', hs'⟩ := skipWs_split r
        have hr' : skipWs r = [] := by simpa using hr
        rw [hr', List.append_nil] at hs'
        subst hs'
        exact ⟨v0, ⟨w, t0, r, hw, hw', by rw [hs, g1], g2⟩, g3 (by decide), g4⟩
      · simp at h
  · rintro ⟨v0, h1, h2, rfl⟩
    exact parse_stored h1 h2

end JsonRead
end Tokens
