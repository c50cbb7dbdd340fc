import Verif.Model.CharsShow
import Verif.Spec.CharsShow
import Verif.Proofs.Show
import Verif.Proofs.CountLog
import Verif.Proofs.CharsFile

/-!
Reading the text of a character-based token set.
-/

namespace Tokens
namespace Chars
open Show Main Spec Json

theorem cDisplay_head (plain : Char → Bool) (t : CToken) :
    ∃ c r, t.display plain = c :: r ∧ ((∃ n, t = .ext n ∧ c.isDigit = true) ∨ (∃ d, t = .char d ∧ c = '\'') ∨
      ∃ s, t = .str s ∧ c = '"' ∧ r = s.flatMap (debugChar plain) ++ ['"']) := by
  cases t with
  | ext n =>
    obtain ⟨c, r, h1, h2⟩ := toDigits_head n
    exact ⟨c, r, h1, .inl ⟨n, rfl, h2⟩⟩
  | char d => exact ⟨_, _, rfl, .inr (.inl ⟨d, rfl, rfl⟩)⟩
  | str s => exact ⟨_, _, rfl, .inr (.inr ⟨s, rfl, rfl, rfl⟩)⟩

theorem cDisplay_split (plain : Char → Bool) (t t' : CToken) (r r' : Text) (hr : NoDigit r) (hr' : NoDigit r')
    (h : t.display plain ++ r = t'.display plain ++ r') : t = t' ∧ r = r' := by
  obtain ⟨c, q, e1, h1⟩ := cDisplay_head plain t
  obtain ⟨d, q', e2, h2⟩ := cDisplay_head plain t'
  have h0 := h
  rw [e1, e2, List.cons_append, List.cons_append, List.cons.injEq] at h
  obtain ⟨hcd, hq⟩ := h
  subst hcd
  rcases h1 with ⟨n, rfl, hc⟩ | ⟨a, rfl, rfl⟩ | ⟨s, rfl, rfl, rfl⟩ <;>
    rcases h2 with ⟨m, rfl, hd⟩ | ⟨a', rfl, hc'⟩ | ⟨s', rfl, hc', rfl⟩
  · obtain ⟨g1, g2⟩ := digits_split _ _ _ _ hr hr' h0
    exact ⟨by rw [g1], g2⟩
  · subst hc'; simp at hc
  · subst hc'; simp at hc
  · simp at hd
  · obtain ⟨g1, g2⟩ := debugCharLit_split plain _ _ _ _ h0
    exact ⟨by rw [g1], g2⟩
  · simp at hc'
  · simp at hd
  · simp at hc'
  · rw [List.append_assoc, List.append_assoc] at hq
    obtain ⟨g1, g2⟩ := debugStr_split plain s s' _ _ hq
    exact ⟨by rw [g1], g2⟩

theorem tokenLines_split (plain : Char → Bool) : ∀ (a b : List CToken) (i : Nat) (x y : Text),
    tokenLines plain i a ++ '\n' :: x = tokenLines plain i b ++ '\n' :: y → a = b ∧ x = y
  | [], [], i, x, y, h => by simpa [tokenLines] using h
  | [], t :: b, i, x, y, h => by
    obtain ⟨c, r, h1, h2⟩ := toDigits_head i
    rw [tokenLines, tokenLines, h1] at h
    simp only [List.nil_append, List.cons_append, List.cons.injEq] at h
    rw [← h.1] at h2
    exact absurd h2 (by decide)
  | t :: a, [], i, x, y, h => by
    obtain ⟨c, r, h1, h2⟩ := toDigits_head i
    rw [tokenLines, tokenLines, h1] at h
    simp only [List.nil_append, List.cons_append, List.cons.injEq] at h
    rw [h.1] at h2
    exact absurd h2 (by decide)
  | t :: a, u :: b, i, x, y, h => by
    simp only [tokenLines, List.append_assoc, List.cons_append, List.nil_append] at h
    have h1 := List.append_cancel_left h
    have h1 := List.tail_eq_of_cons_eq (List.tail_eq_of_cons_eq h1)
    obtain ⟨rfl, h2⟩ := cDisplay_split plain t u _ _ (noDigit_nl _) (noDigit_nl _) h1
    obtain ⟨rfl, rfl⟩ := tokenLines_split plain a b (i + 1) x y (List.tail_eq_of_cons_eq h2)
    exact ⟨rfl, rfl⟩

/-- A line for a character and tokens. -/
def entryLine (plain : Char → Bool) (e : Char × List CToken) : Text :=
  debugCharLit plain e.1 ++ ' ' :: (e.2.flatMap (fun t => ' ' :: t.display plain) ++ ['\n'])

theorem listing_split (plain : Char → Bool) : ∀ (a b : List CToken) (x y : Text),
    a.flatMap (fun t => ' ' :: t.display plain) ++ '\n' :: x = b.flatMap (fun t => ' ' :: t.display plain) ++ '\n' :: y →
    a = b ∧ x = y
  | [], [], x, y, h => by simpa using h
  | [], t :: b, x, y, h => by
    simp only [List.flatMap_nil, List.flatMap_cons, List.nil_append, List.cons_append, List.cons.injEq] at h
    exact absurd h.1 (by decide)
  | t :: a, [], x, y, h => by
    simp only [List.flatMap_nil, List.flatMap_cons, List.nil_append, List.cons_append, List.cons.injEq] at h
    exact absurd h.1 (by decide)
  | t :: a, u :: b, x, y, h => by
    simp only [List.flatMap_cons, List.append_assoc, List.cons_append] at h
    have h1 := List.tail_eq_of_cons_eq h
    have nd : ∀ (l : List CToken) (z : Text), NoDigit (l.flatMap (fun t => ' ' :: t.display plain) ++ '\n' :: z) := by
      intro l z
      cases l with
      | nil => exact noDigit_nl _
      | cons t l => exact noDigit_cons (by decide) _
    obtain ⟨rfl, h2⟩ := cDisplay_split plain t u _ _ (nd a x) (nd b y) h1
    obtain ⟨rfl, rfl⟩ := listing_split plain a b x y h2
    exact ⟨rfl, rfl⟩

theorem entryLines_split (plain : Char → Bool) : ∀ (a b : List (Char × List CToken)),
    a.flatMap (entryLine plain) = b.flatMap (entryLine plain) → a = b
  | [], [], _ => rfl
  | [], e :: b, h => by
    simp [entryLine, debugCharLit] at h
  | e :: a, [], h => by
    simp [entryLine, debugCharLit] at h
  | e :: a, f :: b, h => by
    obtain ⟨c, l⟩ := e
    obtain ⟨d, m⟩ := f
    simp only [List.flatMap_cons, entryLine, List.append_assoc, List.cons_append, List.nil_append] at h
    obtain ⟨rfl, h1⟩ := debugCharLit_split plain c d _ _ h
    obtain ⟨rfl, h2⟩ := listing_split plain l m _ _ (List.tail_eq_of_cons_eq h1)
    rw [entryLines_split plain a b h2]

/-! ### The lines of a set -/

theorem encodingText_iff (plain : Char → Bool) (tokens : List CToken) (enc : List Nat) (x : Text) :
    encodingText plain tokens enc = .ok x ↔ ∃ l : List CToken, enc.map (fun i => tokens[i]?) = l.map some ∧
      x = l.flatMap (fun t => ' ' :: t.display plain) := by
  induction enc generalizing x with
  | nil =>
    rw [encodingText]
    constructor
    · intro h; exact ⟨[], rfl, (Except.ok.inj h).symm⟩
    · rintro ⟨l, h1, h2⟩
      cases l with
      | nil => rw [h2]; rfl
      | cons a l => cases h1
  | cons i is ih =>
    rw [encodingText]
    cases hi : tokens[i]? with
    | none =>
      have e : getR tokens i = .error .index := by unfold getR; rw [hi]
      rw [e, R.error_bind]
      constructor
      · intro h; cases h
      · rintro ⟨l, h1, _⟩
        cases l with
        | nil => cases h1
        | cons a l => rw [List.map_cons, hi] at h1; cases (List.cons.inj h1).1
    | some t =>
      have e : getR tokens i = .ok t := by unfold getR; rw [hi]
      rw [e, R.ok_bind]
      constructor
      · intro h
        cases hr : encodingText plain tokens is with
        | error er => rw [hr] at h; cases h
        | ok rest =>
          rw [hr, R.ok_bind] at h
          obtain ⟨l, h1, h2⟩ := (ih rest).1 hr
          refine ⟨t :: l, by rw [List.map_cons, List.map_cons, hi, h1], ?_⟩
          rw [← Except.ok.inj h, List.flatMap_cons, h2]
      · rintro ⟨l, h1, h2⟩
        cases l with
        | nil => cases h1
        | cons a l =>
          rw [List.map_cons, List.map_cons, hi] at h1
          obtain ⟨h3, h4⟩ := List.cons.inj h1
          have h3 := Option.some.inj h3
          subst h3
          rw [(ih _).2 ⟨l, h4, rfl⟩, R.ok_bind, h2, List.flatMap_cons]

theorem encodingLine_iff (plain : Char → Bool) (tokens : List CToken) (c : Char) (enc : List Nat) (x : Text) :
    encodingLine plain tokens c enc = .ok x ↔ ∃ l : List CToken, enc.map (fun i => tokens[i]?) = l.map some ∧
      x = entryLine plain (c, l) := by
  unfold encodingLine
  constructor
  · intro h
    cases hr : encodingText plain tokens enc with
    | error er => rw [hr] at h; cases h
    | ok rest =>
      rw [hr, R.ok_bind] at h
      obtain ⟨l, h1, h2⟩ := (encodingText_iff plain tokens enc rest).1 hr
      refine ⟨l, h1, ?_⟩
      rw [← Except.ok.inj h, h2, entryLine]
      simp
  · rintro ⟨l, h1, h2⟩
    rw [(encodingText_iff plain tokens enc _).2 ⟨l, h1, rfl⟩, R.ok_bind, h2, entryLine]
    simp

/-- The entries that are printed for a list of characters with encodings. -/
def EntriesOf (ts : CSet) (enc : Char → Option (List Nat)) (cs : List Char) (l : List (Char × List CToken)) : Prop :=
  l.map (fun e => (e.1, e.2.map some)) = cs.filterMap (fun c => (enc c).map (fun e => (c, tokensAt ts e)))

theorem loLines_ok {plain : Char → Bool} {ts : CSet} {cs : List Char} {x : Text} (h : loLines plain ts cs = .ok x) :
    ∃ l, EntriesOf ts (fun c => if ts.loEnc c = [] then none else some (ts.loEnc c)) cs l ∧
      x = l.flatMap (entryLine plain) := by
  induction cs generalizing x with
  | nil => exact ⟨[], rfl, (Except.ok.inj h).symm⟩
  | cons c cs ih =>
    rw [loLines] at h
    by_cases hc : ts.loEnc c = []
    · rw [if_pos (by rw [hc]; rfl)] at h
      obtain ⟨l, h1, h2⟩ := ih h
      refine ⟨l, ?_, h2⟩
      unfold EntriesOf
      rw [List.filterMap_cons]
      simp only [hc, if_true, Option.map_none]
      exact h1
    · rw [if_neg (by simpa using hc)] at h
      cases hr : encodingLine plain ts.tokens c (ts.loEnc c) with
      | error er => rw [hr] at h; cases h
      | ok line =>
        rw [hr, R.ok_bind] at h
        cases hq : loLines plain ts cs with
        | error er => rw [hq] at h; cases h
        | ok rest =>
          rw [hq, R.ok_bind] at h
          obtain ⟨l, h1, h2⟩ := ih hq
          obtain ⟨m, h3, h4⟩ := (encodingLine_iff ..).1 hr
          refine ⟨(c, m) :: l, ?_, by rw [← Except.ok.inj h, List.flatMap_cons, h2, h4]⟩
          unfold EntriesOf at h1 ⊢
          rw [List.filterMap_cons, List.map_cons, h1]
          simp only [hc, if_false, Option.map_some]
          rw [← h3]; rfl

theorem hiLines_ok {plain : Char → Bool} {ts : CSet} {cs : List Char} {x : Text} (h : hiLines plain ts cs = .ok x) :
    ∃ l, EntriesOf ts ts.hiEnc cs l ∧ x = l.flatMap (entryLine plain) := by
  induction cs generalizing x with
  | nil => exact ⟨[], rfl, (Except.ok.inj h).symm⟩
  | cons c cs ih =>
    rw [hiLines] at h
    cases he : ts.hiEnc c with
    | none => rw [he] at h; cases h
    | some enc =>
      rw [he] at h
      have e : unwrapR (some enc) = (.ok enc : R (List Nat)) := rfl
      rw [e, R.ok_bind] at h
      cases hr : encodingLine plain ts.tokens c enc with
      | error er => rw [hr] at h; cases h
      | ok line =>
        rw [hr, R.ok_bind] at h
        cases hq : hiLines plain ts cs with
        | error er => rw [hq] at h; cases h
        | ok rest =>
          rw [hq, R.ok_bind] at h
          obtain ⟨l, h1, h2⟩ := ih hq
          obtain ⟨m, h3, h4⟩ := (encodingLine_iff ..).1 hr
          refine ⟨(c, m) :: l, ?_, by rw [← Except.ok.inj h, List.flatMap_cons, h2, h4]⟩
          unfold EntriesOf at h1 ⊢
          rw [List.filterMap_cons, he, List.map_cons, h1]
          simp only [Option.map_some]
          rw [← h3]; rfl

theorem exists_tokens {ts : CSet} {enc : List Nat} (h : ∀ i ∈ enc, i < ts.tokens.length) :
    ∃ l : List CToken, enc.map (fun i => ts.tokens[i]?) = l.map some := by
  induction enc with
  | nil => exact ⟨[], rfl⟩
  | cons i is ih =>
    obtain ⟨l, hl⟩ := ih (fun j hj => h j (List.mem_cons_of_mem _ hj))
    refine ⟨ts.tokens[i]'(h i (by simp)) :: l, ?_⟩
    rw [List.map_cons, List.map_cons, hl, List.getElem?_eq_getElem]

theorem loLines_exists {plain : Char → Bool} {ts : CSet} {cs : List Char}
    (h : ∀ c ∈ cs, ∀ i ∈ ts.loEnc c, i < ts.tokens.length) : ∃ x, loLines plain ts cs = .ok x := by
  induction cs with
  | nil => exact ⟨_, rfl⟩
  | cons c cs ih =>
    obtain ⟨x, hx⟩ := ih (fun d hd => h d (List.mem_cons_of_mem _ hd))
    rw [loLines]
    split
    · exact ⟨x, hx⟩
    · obtain ⟨l, hl⟩ := exists_tokens (h c (by simp))
      rw [(encodingLine_iff ..).2 ⟨l, hl, rfl⟩, R.ok_bind, hx, R.ok_bind]
      exact ⟨_, rfl⟩

theorem hiLines_exists {plain : Char → Bool} {ts : CSet} {cs : List Char}
    (h : ∀ c ∈ cs, ∃ enc, ts.hiEnc c = some enc ∧ ∀ i ∈ enc, i < ts.tokens.length) :
    ∃ x, hiLines plain ts cs = .ok x := by
  induction cs with
  | nil => exact ⟨_, rfl⟩
  | cons c cs ih =>
    obtain ⟨x, hx⟩ := ih (fun d hd => h d (List.mem_cons_of_mem _ hd))
    obtain ⟨enc, he, hr⟩ := h c (by simp)
    obtain ⟨l, hl⟩ := exists_tokens hr
    have e : unwrapR (some enc) = (.ok enc : R (List Nat)) := rfl
    rw [hiLines, he, e, R.ok_bind, (encodingLine_iff ..).2 ⟨l, hl, rfl⟩, R.ok_bind, hx, R.ok_bind]
    exact ⟨_, rfl⟩

/-- Entries say for which characters there is an encoding, and which. -/
theorem entries_mem {ts : CSet} {enc : Char → Option (List Nat)} {cs : List Char} {l : List (Char × List CToken)}
    (h : EntriesOf ts enc cs l) (c : Char) (v : List (Option CToken)) :
    (c, v) ∈ l.map (fun e => (e.1, e.2.map some)) ↔ c ∈ cs ∧ (enc c).map (tokensAt ts) = some v := by
  rw [h, List.mem_filterMap]
  constructor
  · rintro ⟨d, hd, e⟩
    cases he : enc d with
    | none => rw [he] at e; cases e
    | some a =>
      rw [he] at e
      simp only [Option.map_some, Option.some.injEq, Prod.mk.injEq] at e
      obtain ⟨e1, e2⟩ := e
      subst e1
      exact ⟨hd, by rw [he, Option.map_some, e2]⟩
  · rintro ⟨hc, e⟩
    refine ⟨c, hc, ?_⟩
    cases he : enc c with
    | none => rw [he] at e; cases e
    | some a =>
      rw [he, Option.map_some] at e
      rw [Option.map_some, Option.some.inj e]

end Chars
end Tokens
