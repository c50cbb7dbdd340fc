import Verif.Proofs.JsonWrite

/-!
The JSON reader does not look beyond the end of an object, and so it accepts no beginning of the text of
an object.
-/

namespace Tokens
open Spec
namespace JsonRead

set_option linter.unusedSimpArgs false
set_option linter.unusedVariables false

theorem map_some {α β : Type} {f : α → β} {o : Option α} {y : β} (h : o.map f = some y) :
    ∃ a, o = some a ∧ f a = y := by
  cases o with
  | none => simp at h
  | some a => exact ⟨a, rfl, by simpa using h⟩

theorem readStr_ext (t x : Text) {s r : Text} (h : readStr t = some (s, r)) :
    readStr (t ++ x) = some (s, r ++ x) := by
  fun_induction readStr t generalizing s r with
  | case1 => cases h
  | case2 r' =>
    simp only [Option.some.injEq, Prod.mk.injEq] at h
    rw [List.cons_append, readStr, h.1, h.2]
  | case3 => cases h
  | case4 => cases h
  | case5 a b c d m h4 hm a' b' c' d' r' m' h4' hm' ih =>
    obtain ⟨p, h1, h2⟩ := map_some h
    simp only [Prod.mk.injEq] at h2
    simp only [List.cons_append]
    rw [readStr]
    simp only [h4, if_pos hm, h4', if_pos hm', ih h1, Option.map_some, h2.1, h2.2]
  | case6 => cases h
  | case7 => cases h
  | case8 => cases h
  | case9 a b c d r' m h4 hm hm' ih =>
    obtain ⟨p, h1, h2⟩ := map_some h
    simp only [Prod.mk.injEq] at h2
    simp only [List.cons_append]
    rw [readStr]
    simp only [h4, if_neg hm, if_neg hm', ih h1, Option.map_some, h2.1, h2.2]
  | case10 => cases h
  | case11 y r' hu c hy ih =>
    obtain ⟨p, h1, h2⟩ := map_some h
    simp only [Prod.mk.injEq] at h2
    have hyu : y ≠ 'u' := by rintro rfl; rw [show unescape 'u' = none by decide] at hy; cases hy
    rw [List.cons_append, List.cons_append, readStr]
    · simp only [hy, ih h1, Option.map_some, h2.1, h2.2]
    · intro a b c' d r'' h; exact absurd h hyu
  | case12 => cases h
  | case13 c r' hq hu hb hc ih =>
    obtain ⟨p, h1, h2⟩ := map_some h
    simp only [Prod.mk.injEq] at h2
    have hc' : c ≠ '\\' := fun h => hc (.inr h)
    rw [List.cons_append, readStr]
    · simp only [if_neg hc, ih h1, Option.map_some, h2.1, h2.2]
    · exact hq
    · intro a b c'' d r'' h; exact absurd h hc'
    · intro y r'' h; exact absurd h hc'

theorem expect_ext (e t x : Text) {r : Text} (h : expect e t = some r) :
    expect e (t ++ x) = some (r ++ x) := by
  induction e generalizing t with
  | nil =>
    simp only [expect, Option.some.injEq] at h ⊢
    rw [h]
  | cons c e ih =>
    cases t with
    | nil => simp [expect] at h
    | cons d t =>
      rw [expect] at h
      rw [List.cons_append, expect]
      split
      · rename_i hc
        rw [if_pos hc] at h
        exact ih t h
      · rename_i hc
        rw [if_neg hc] at h
        cases h

theorem skipWs_ext {t : Text} (x : Text) {c : Char} {r : Text} (h : skipWs t = c :: r) :
    skipWs (t ++ x) = c :: (r ++ x) := by
  induction t with
  | nil => simp [skipWs] at h
  | cons d t ih =>
    cases hd : isWs d with
    | true =>
      rw [skipWs, List.dropWhile_cons_of_pos hd] at h
      rw [List.cons_append, skipWs, List.dropWhile_cons_of_pos hd]
      exact ih h
    | false =>
      rw [skipWs_cons hd] at h
      rw [List.cons_append, skipWs_cons hd]
      rw [← List.cons_append, h]; rfl

theorem while_ext {p : Char → Bool} {t : Text} (x : Text) (h : t.dropWhile p ≠ []) :
    (t ++ x).takeWhile p = t.takeWhile p ∧ (t ++ x).dropWhile p = t.dropWhile p ++ x := by
  induction t with
  | nil => simp at h
  | cons d t ih =>
    cases hd : p d with
    | true =>
      rw [List.dropWhile_cons_of_pos hd] at h
      rw [List.cons_append, List.takeWhile_cons_of_pos hd, List.dropWhile_cons_of_pos hd,
        List.takeWhile_cons_of_pos hd, List.dropWhile_cons_of_pos hd, (ih h).1, (ih h).2]
      exact ⟨rfl, rfl⟩
    | false =>
      rw [List.cons_append, List.takeWhile_cons_of_neg (by simp [hd]), List.dropWhile_cons_of_neg (by simp [hd]),
        List.takeWhile_cons_of_neg (by simp [hd]), List.dropWhile_cons_of_neg (by simp [hd])]
      exact ⟨rfl, rfl⟩

theorem readInt_ext {t : Text} (x : Text) {s r : Text} (h : readInt t = some (s, r)) (hr : r ≠ []) :
    readInt (t ++ x) = some (s, r ++ x) := by
  cases t with
  | nil => simp [readInt] at h
  | cons c t =>
    rw [List.cons_append]
    simp only [readInt] at h ⊢
    split at h
    · rename_i hc
      rw [if_pos hc]
      cases t with
      | nil =>
        simp only [Option.some.injEq, Prod.mk.injEq] at h
        exact absurd h.2.symm hr
      | cons d t =>
        simp only [List.cons_append] at h ⊢
        split at h
        · cases h
        · rename_i hd
          rw [if_neg hd]
          simp only [Option.some.injEq, Prod.mk.injEq] at h ⊢
          exact ⟨h.1, by rw [← h.2]; rfl⟩
    · rename_i hc
      rw [if_neg hc]
      split at h
      · rename_i hd
        rw [if_pos hd]
        simp only [Option.some.injEq, Prod.mk.injEq] at h
        have := while_ext (p := Char.isDigit) (t := c :: t) x (by rw [h.2]; exact hr)
        rw [List.cons_append] at this
        rw [this.1, this.2, h.1, h.2]
      · cases h

theorem readFrac_ext {t : Text} (x : Text) {s r : Text} (h : readFrac t = some (s, r)) (hr : r ≠ []) :
    readFrac (t ++ x) = some (s, r ++ x) := by
  cases t with
  | nil =>
    simp only [readFrac, Option.some.injEq, Prod.mk.injEq] at h
    exact absurd h.2.symm hr
  | cons c t =>
    rw [List.cons_append]
    simp only [readFrac] at h ⊢
    split at h
    · rename_i hc
      rw [if_pos hc]
      split at h
      · cases h
      · rename_i hd
        simp only [Option.some.injEq, Prod.mk.injEq] at h
        have := while_ext (p := Char.isDigit) (t := t) x (by rw [h.2]; exact hr)
        rw [this.1, this.2, if_neg hd, ← h.1, ← h.2]
    · rename_i hc
      rw [if_neg hc]
      simp only [Option.some.injEq, Prod.mk.injEq] at h ⊢
      exact ⟨h.1, by rw [← h.2]; rfl⟩

theorem readExp_ext {t : Text} (x : Text) {s r : Text} (h : readExp t = some (s, r)) (hr : r ≠ []) :
    readExp (t ++ x) = some (s, r ++ x) := by
  cases t with
  | nil =>
    simp only [readExp, Option.some.injEq, Prod.mk.injEq] at h
    exact absurd h.2.symm hr
  | cons c t =>
    rw [List.cons_append]
    simp only [readExp] at h ⊢
    split at h
    · rename_i hc
      rw [if_pos hc]
      split at h
      · cases h
      · rename_i hd
        simp only [Option.some.injEq, Prod.mk.injEq] at h
        have hs : readSign (t ++ x) = ((readSign t).1, (readSign t).2 ++ x) := by
          cases t with
          | nil => exact absurd h.2.symm hr
          | cons d t =>
            rw [List.cons_append]
            simp only [readSign]
            split
            · rfl
            · rfl
        have := while_ext (p := Char.isDigit) (t := (readSign t).2) x (by rw [h.2]; exact hr)
        rw [hs]
        simp only
        rw [this.1, this.2, if_neg hd, ← h.1, ← h.2]
    · rename_i hc
      rw [if_neg hc]
      simp only [Option.some.injEq, Prod.mk.injEq] at h ⊢
      exact ⟨h.1, by rw [← h.2]; rfl⟩

theorem readInt_ne {s r : Text} {t : Text} (h : readInt t = some (s, r)) : t ≠ [] := by
  rintro rfl; simp [readInt] at h

/-- What a reader leaves is not longer than the text. -/
theorem readFrac_nil {s r : Text} (h : readFrac [] = some (s, r)) : r = [] := by
  simp only [readFrac, Option.some.injEq, Prod.mk.injEq] at h; exact h.2.symm

theorem readExp_nil {s r : Text} (h : readExp [] = some (s, r)) : r = [] := by
  simp only [readExp, Option.some.injEq, Prod.mk.injEq] at h; exact h.2.symm

theorem readNumber_ext {t : Text} (x : Text) {v : Json} {r : Text} (h : readNumber t = some (v, r))
    (hr : r ≠ []) : readNumber (t ++ x) = some (v, r ++ x) := by
  have hne : t ≠ [] := by rintro rfl; simp [readNumber, readInt] at h
  obtain ⟨c, t, rfl⟩ := List.exists_cons_of_ne_nil hne
  have hh : (c :: t ++ x).head? = (c :: t).head? := rfl
  have ht : (if (c :: t).head? = some '-' then (c :: t ++ x).tail else c :: t ++ x) =
      (if (c :: t).head? = some '-' then (c :: t).tail else c :: t) ++ x := by
    split
    · rfl
    · rfl
  unfold readNumber at h ⊢
  simp only at h ⊢
  simp only [hh, ht]
  generalize (if (c :: t).head? = some '-' then (c :: t).tail else c :: t) = t1 at h ⊢
  cases h1 : readInt t1 with
  | none => rw [h1] at h; cases h
  | some p1 =>
    obtain ⟨ip, t2⟩ := p1
    rw [h1] at h
    simp only at h
    cases h2 : readFrac t2 with
    | none => rw [h2] at h; cases h
    | some p2 =>
      obtain ⟨fp, t3⟩ := p2
      rw [h2] at h
      simp only at h
      cases h3 : readExp t3 with
      | none => rw [h3] at h; cases h
      | some p3 =>
        obtain ⟨ep, t4⟩ := p3
        rw [h3] at h
        simp only at h
        have hn3 : t4 ≠ [] → t3 ≠ [] := by rintro hr rfl; exact hr (readExp_nil h3)
        have hn2 : t3 ≠ [] → t2 ≠ [] := by rintro hr rfl; exact hr (readFrac_nil h2)
        obtain ⟨hv, rfl⟩ : (if fp.isEmpty ∧ ep.isEmpty then
          (if (c :: t).head? = some '-' then
            if Nat.ofDigitChars 10 ip 0 ≠ 0 ∧ Nat.ofDigitChars 10 ip 0 ≤ 2 ^ 63 then
              Json.num (-((Nat.ofDigitChars 10 ip 0 : Nat) : Int))
            else Json.float ((if (c :: t).head? = some '-' then ['-'] else []) ++ ip)
          else if Nat.ofDigitChars 10 ip 0 < 2 ^ 64 then .num (Nat.ofDigitChars 10 ip 0 : Nat) else .float ip)
          else .float ((if (c :: t).head? = some '-' then ['-'] else []) ++ ip ++ fp ++ ep)) = v ∧ t4 = r := by
          revert h
          split_ifs <;> intro h <;> (simp only [Option.some.injEq, Prod.mk.injEq] at h; exact h)
        rw [readInt_ext x h1 (hn2 (hn3 hr))]
        simp only
        rw [readFrac_ext x h2 (hn3 hr)]
        simp only
        rw [readExp_ext x h3 hr]
        simp only
        rw [← hv]
        split_ifs <;> rfl

theorem skipWs_ne {r : Text} {c : Char} {r' : Text} (h : skipWs r = c :: r') : r ≠ [] := by
  rintro rfl; simp [skipWs] at h

mutual
theorem value_ext : ∀ (f f' d : Nat) (t x : Text) {v : Json} {r : Text}, f ≤ f' →
    value f d t = some (v, r) → (r ≠ [] ∨ t.head? = some '{') → value f' d (t ++ x) = some (v, r ++ x)
  | 0, f', d, t, x, v, r, hf, h, hr => by simp [value] at h
  | f + 1, f', d, [], x, v, r, hf, h, hr => by simp [value] at h
  | f + 1, f', d, c :: t, x, v, r, hf, h, hr => by
    obtain ⟨g, rfl⟩ : ∃ g, f' = g + 1 := ⟨f' - 1, by omega⟩
    rw [List.cons_append]
    simp only [value] at h ⊢
    split at h
    · rename_i hc
      rw [if_pos hc]
      obtain ⟨p, h1, h2⟩ := map_some h
      simp only [Prod.mk.injEq] at h2
      rw [readStr_ext t x h1, Option.map_some, h2.1, h2.2]
    rename_i hc1
    rw [if_neg hc1]
    split at h
    · rename_i hc
      rw [if_pos hc]
      split at h
      · cases h
      rename_i hd
      rw [if_neg hd]
      cases hw : skipWs t with
      | nil => rw [hw] at h; cases h
      | cons e u =>
        rw [hw] at h
        rw [skipWs_ext x hw]
        simp only at h ⊢
        split at h
        · rename_i he
          rw [if_pos he]
          simp only [Option.some.injEq, Prod.mk.injEq] at h ⊢
          exact ⟨h.1, by rw [← h.2]⟩
        · rename_i he
          rw [if_neg he, ← List.cons_append]
          exact elements_ext f g (d - 1) [] (e :: u) x (by omega) h
    rename_i hc2
    rw [if_neg hc2]
    split at h
    · rename_i hc
      rw [if_pos hc]
      split at h
      · cases h
      rename_i hd
      rw [if_neg hd]
      cases hw : skipWs t with
      | nil => rw [hw] at h; cases h
      | cons e u =>
        rw [hw] at h
        rw [skipWs_ext x hw]
        simp only at h ⊢
        split at h
        · rename_i he
          rw [if_pos he]
          simp only [Option.some.injEq, Prod.mk.injEq] at h ⊢
          exact ⟨h.1, by rw [← h.2]⟩
        · rename_i he
          rw [if_neg he, ← List.cons_append]
          exact members_ext f g (d - 1) [] (e :: u) x (by omega) h
    rename_i hc3
    rw [if_neg hc3]
    split at h
    · rename_i hc
      rw [if_pos hc]
      obtain ⟨p, h1, h2⟩ := map_some h
      simp only [Prod.mk.injEq] at h2
      rw [expect_ext _ t x h1, Option.map_some, h2.1, h2.2]
    rename_i hc4
    rw [if_neg hc4]
    split at h
    · rename_i hc
      rw [if_pos hc]
      obtain ⟨p, h1, h2⟩ := map_some h
      simp only [Prod.mk.injEq] at h2
      rw [expect_ext _ t x h1, Option.map_some, h2.1, h2.2]
    rename_i hc5
    rw [if_neg hc5]
    split at h
    · rename_i hc
      rw [if_pos hc]
      obtain ⟨p, h1, h2⟩ := map_some h
      simp only [Prod.mk.injEq] at h2
      rw [expect_ext _ t x h1, Option.map_some, h2.1, h2.2]
    rename_i hc6
    rw [if_neg hc6]
    have hr' : r ≠ [] := by
      rcases hr with hr | hr
      · exact hr
      · simp at hr; exact absurd hr hc3
    have := readNumber_ext x h hr'
    rw [List.cons_append] at this
    exact this

theorem elements_ext : ∀ (f f' d : Nat) (acc : List Json) (t x : Text) {v : Json} {r : Text}, f ≤ f' →
    elements f d acc t = some (v, r) → elements f' d acc (t ++ x) = some (v, r ++ x)
  | 0, f', d, acc, t, x, v, r, hf, h => by simp [elements] at h
  | f + 1, f', d, acc, t, x, v, r, hf, h => by
    obtain ⟨g, rfl⟩ : ∃ g, f' = g + 1 := ⟨f' - 1, by omega⟩
    rw [elements] at h ⊢
    cases hv : value f d t with
    | none => rw [hv] at h; cases h
    | some p =>
      obtain ⟨w, r1⟩ := p
      rw [hv] at h
      simp only at h
      cases hw : skipWs r1 with
      | nil => rw [hw] at h; cases h
      | cons c u =>
        rw [hw] at h
        rw [value_ext f g d t x (by omega) hv (.inl (skipWs_ne hw))]
        simp only
        rw [skipWs_ext x hw]
        simp only at h ⊢
        split at h
        · rename_i hc
          rw [if_pos hc]
          obtain ⟨e, u', hu⟩ : ∃ e u', skipWs u = e :: u' := by
            cases hs : skipWs u with
            | nil =>
              exfalso
              rw [hs] at h
              cases f with
              | zero => simp [elements] at h
              | succ f =>
                rw [elements] at h
                cases f with
                | zero => simp [value] at h
                | succ f => simp [value] at h
            | cons e u' => exact ⟨e, u', rfl⟩
          have h9 := elements_ext f g d (acc ++ [w]) (skipWs u) x (by omega) h
          rw [skipWs_ext x hu]
          rw [hu, List.cons_append] at h9
          exact h9
        · rename_i hc
          rw [if_neg hc]
          split at h
          · rename_i hc'
            rw [if_pos hc']
            simp only [Option.some.injEq, Prod.mk.injEq] at h ⊢
            exact ⟨h.1, by rw [← h.2]⟩
          · cases h

theorem members_ext : ∀ (f f' d : Nat) (acc : List (Text × Json)) (t x : Text) {v : Json} {r : Text},
    f ≤ f' → members f d acc t = some (v, r) → members f' d acc (t ++ x) = some (v, r ++ x)
  | 0, f', d, acc, t, x, v, r, hf, h => by simp [members] at h
  | f + 1, f', d, acc, [], x, v, r, hf, h => by simp [members] at h
  | f + 1, f', d, acc, c :: t, x, v, r, hf, h => by
    obtain ⟨g, rfl⟩ : ∃ g, f' = g + 1 := ⟨f' - 1, by omega⟩
    rw [List.cons_append]
    rw [members] at h ⊢
    split at h
    case isFalse => cases h
    case isTrue hc =>
    rw [if_pos hc]
    cases hs : readStr t with
    | none => rw [hs] at h; cases h
    | some p =>
      obtain ⟨k, r1⟩ := p
      rw [hs] at h
      rw [readStr_ext t x hs]
      simp only at h ⊢
      cases hw1 : skipWs r1 with
      | nil => rw [hw1] at h; cases h
      | cons e r2 =>
        rw [hw1] at h
        rw [skipWs_ext x hw1]
        simp only at h ⊢
        split at h
        case isFalse => cases h
        case isTrue he =>
        rw [if_pos he]
        cases hv : value f d (skipWs r2) with
        | none => rw [hv] at h; cases h
        | some q =>
          obtain ⟨w, r3⟩ := q
          rw [hv] at h
          simp only at h
          cases hw3 : skipWs r3 with
          | nil => rw [hw3] at h; cases h
          | cons e' r4 =>
            rw [hw3] at h
            obtain ⟨e2, u2, hu2⟩ : ∃ e u', skipWs r2 = e :: u' := by
              cases hs : skipWs r2 with
              | nil =>
                exfalso
                rw [hs] at hv
                cases f with
                | zero => simp [value] at hv
                | succ f => simp [value] at hv
              | cons e u' => exact ⟨e, u', rfl⟩
            have hv' := value_ext f g d (skipWs r2) x (by omega) hv (.inl (skipWs_ne hw3))
            rw [skipWs_ext x hu2]
            rw [hu2, List.cons_append] at hv'
            rw [hv']
            simp only
            rw [skipWs_ext x hw3]
            simp only at h ⊢
            split at h
            · rename_i hc
              rw [if_pos hc]
              obtain ⟨e, u', hu⟩ : ∃ e u', skipWs r4 = e :: u' := by
                cases hs : skipWs r4 with
                | nil =>
                  exfalso
                  rw [hs] at h
                  cases f with
                  | zero => simp [members] at h
                  | succ f => simp [members] at h
                | cons e u' => exact ⟨e, u', rfl⟩
              have h9 := members_ext f g d (insertKey k w acc) (skipWs r4) x (by omega) h
              rw [skipWs_ext x hu]
              rw [hu, List.cons_append] at h9
              exact h9
            · rename_i hc
              rw [if_neg hc]
              split at h
              · rename_i hc'
                rw [if_pos hc']
                simp only [Option.some.injEq, Prod.mk.injEq] at h ⊢
                exact ⟨h.1, by rw [← h.2]⟩
              · cases h
end

/-- No proper beginning of the text of an object is accepted. -/
theorem parse_prefix {t : Text} {l : List (Text × Json)} (h : Denotes t (.obj l)) {k : Nat}
    (hs : Storable k (.obj l)) (hk : k < 128) (p x : Text) (hp : p ++ x = t) (hx : x ≠ []) :
    parse p = none := by
  have hhead : ∃ u, t = '{' :: u := by
    cases h with
    | emptyObj _ => exact ⟨_, rfl⟩
    | obj _ => exact ⟨_, rfl⟩
  obtain ⟨u, hu⟩ := hhead
  cases hpp : parse p with
  | none => rfl
  | some v =>
    exfalso
    unfold parse at hpp
    cases p with
    | nil => simp [skipWs, value] at hpp
    | cons c p =>
      have hc : c = '{' := by
        rw [hu, List.cons_append] at hp
        exact (List.cons.inj hp).1
      subst hc
      rw [skipWs_cons (by decide)] at hpp
      cases hv : value (2 * ('{' :: p).length + 2) 128 ('{' :: p) with
      | none => rw [hv] at hpp; cases hpp
      | some q =>
        obtain ⟨w, r⟩ := q
        have h1 := value_ext _ (2 * t.length + 2) 128 ('{' :: p) x
          (by rw [← hp]; simp [Nat.le_add_right]) hv (.inr rfl)
        have h2 := value_of h [] (2 * t.length + 2) 128 k (by intro c hc; simp at hc) hs hk
          (by simp)
        rw [List.append_nil] at h2
        rw [hp, h2] at h1
        simp only [Option.some.injEq, Prod.mk.injEq] at h1
        have := h1.2.symm
        rw [List.append_eq_nil_iff] at this
        exact hx this.2

/-- No proper beginning of the file of an object is accepted. -/
theorem parseBytes_prefix {t : Text} {l : List (Text × Json)} (h : Denotes t (.obj l)) {k : Nat}
    (hs : Storable k (.obj l)) (hk : k < 128) (p x : Bytes) (hp : p ++ x = utf8Encode t) (hx : x ≠ []) :
    parseBytes p = none := by
  unfold parseBytes
  cases hd : utf8Decode p with
  | none => rfl
  | some s =>
    have he := utf8Encode_of_decode hd
    have hpre : s <+: t := by
      apply List.isPrefix_of_utf8Encode_append_eq_utf8Encode (ByteArray.mk x.toArray)
      rw [← mk_utf8Encode, ← mk_utf8Encode, ← he, ← hp]
      ext1
      simp
    obtain ⟨y, hty⟩ := hpre
    have hy : x = utf8Encode y := by
      rw [← hty, utf8Encode_append, ← he] at hp
      exact List.append_cancel_left hp
    exact parse_prefix h hs hk s y hty (by rintro rfl; exact hx hy)

end JsonRead
end Tokens
