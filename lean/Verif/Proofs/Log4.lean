import Verif.Proofs.Log3
import Verif.Props.Show

/-! The console output as text. -/

set_option linter.unusedSimpArgs false
set_option linter.unusedVariables false

namespace Tokens
open Spec Show

namespace Optimize

/-! ### No line breaks inside lines -/

theorem toDigits_noBreak (b n : Nat) (hb : 1 < b) (hb' : b ≤ 16) : '\n' ∉ Nat.toDigits b n := by
  have dig : ∀ m < 16, '\n' ∉ [Nat.digitChar m] := by decide
  induction n using Nat.strongRecOn with
  | ind m ih =>
    by_cases h : m < b
    · rw [Nat.toDigits_of_lt_base h]
      exact dig m (by omega)
    · rw [Nat.toDigits_of_base_le hb (by omega), List.mem_append]
      rintro (h' | h')
      · exact ih (m / b) (Nat.div_lt_self (by omega) hb) h'
      · exact dig (m % b) (Nat.lt_of_lt_of_le (Nat.mod_lt _ (by omega)) hb') h'

theorem debugChar_noBreak (plain : Char → Bool) (c : Char) : '\n' ∉ debugChar plain c := by
  unfold debugChar
  split
  · decide
  split
  · decide
  split
  · decide
  split
  · decide
  split
  · decide
  split
  · decide
  split
  · rename_i h1 h2 h3 h4 h5 h6 h7
    simp only [List.mem_singleton]
    exact fun e => h4 e.symm
  · simp only [List.mem_append, not_or]
    refine ⟨⟨by decide, toDigits_noBreak 16 _ (by omega) (by omega)⟩, by decide⟩

theorem joined_noBreak {sep : Text} (hs : '\n' ∉ sep) : ∀ {l : List Text}, (∀ x ∈ l, '\n' ∉ x) → '\n' ∉ joined sep l
  | [], _ => by simp [joined]
  | [x], h => h x (by simp)
  | x :: y :: l, h => by
    simp only [joined, List.mem_append, not_or]
    exact ⟨⟨h x (by simp), hs⟩, joined_noBreak hs (fun z hz => h z (by simp [hz]))⟩

theorem showBytes_noBreak (plain : Char → Bool) (s : Bytes) : '\n' ∉ showBytes plain s := by
  unfold showBytes
  split
  · unfold debugStr
    simp only [List.cons_append, List.mem_cons, List.mem_append, List.mem_flatMap, List.not_mem_nil, not_or, or_false]
    refine ⟨by decide, ?_, by decide⟩
    rintro ⟨c, _, h⟩
    exact debugChar_noBreak plain c h
  · unfold debugBytes
    simp only [List.cons_append, List.mem_cons, List.mem_append, List.not_mem_nil, not_or, or_false]
    refine ⟨by decide, joined_noBreak (by decide) ?_, by decide⟩
    intro x hx
    obtain ⟨b, _, rfl⟩ := List.mem_map.1 hx
    exact toDigits_noBreak 10 _ (by omega) (by omega)

theorem showToken_noBreak (plain : Char → Bool) (t : Token) : '\n' ∉ showToken plain t := by
  cases t with
  | ext x => exact toDigits_noBreak 10 _ (by omega) (by omega)
  | str s => exact showBytes_noBreak plain s

theorem diff_noBreak {plain : Char → Bool} {a b : TokenSet} {line : Text} (h : ShowDiff plain a b line) :
    '\n' ∉ line := by
  obtain ⟨r, d, h, _⟩ := Props.C75_line plain a b line h
  rw [h]
  have : ∀ l : List Token, '\n' ∉ joined [' '] (l.map (showToken plain)) := by
    intro l
    refine joined_noBreak (by decide) ?_
    intro x hx
    obtain ⟨t, _, rfl⟩ := List.mem_map.1 hx
    exact showToken_noBreak plain t
  simp only [List.mem_append, not_or]
  exact ⟨⟨this _, by decide⟩, this _⟩

/-! ### Lines -/

theorem fullLines_line {x : Text} (h : '\n' ∉ x) : ∀ (acc t : Text),
    fullLines acc (x ++ '\n' :: t) = (acc.reverse ++ x) :: fullLines [] t := by
  induction x with
  | nil => intro acc t; simp [fullLines]
  | cons c x ih =>
    intro acc t
    have hc : c ≠ '\n' := fun e => h (by simp [e])
    rw [List.cons_append, fullLines, if_neg hc, ih (fun hm => h (by simp [hm]))]
    simp

theorem joined_cons_head (sep x : Text) (l : List Text) : ∃ r, joined sep (x :: l) = x ++ r := by
  cases l with
  | nil => exact ⟨[], by simp [joined]⟩
  | cons y l => exact ⟨sep ++ joined sep (y :: l), by simp [joined]⟩

theorem diff_shows {plain : Char → Bool} {a b : TokenSet} {line : Text} (h : ShowDiff plain a b line) :
    showsExchange line = true := by
  obtain ⟨r, d, rfl, _⟩ := Props.C75_line plain a b line h
  cases r with
  | nil => simp [joined, showsExchange]
  | cons t r =>
    obtain ⟨q, hq⟩ := joined_cons_head [' '] (showToken plain t) (r.map (showToken plain))
    obtain ⟨c, u, hc, hk⟩ := showToken_head plain t
    rw [List.map_cons, hq, hc]
    rcases hk with ⟨n, rfl, hd⟩ | ⟨s, u, rfl, hs, rfl, rfl⟩ | ⟨s, rfl, hs, hne, rfl, rfl⟩
    · simp [showsExchange, hd]
    · simp [showsExchange]
    · simp [showsExchange]

/-- The exchanges of an output. -/
def exchanges : List Printed → List (TokenSet × TokenSet)
  | [] => []
  | .change a b :: l => (a, b) :: exchanges l
  | .initial _ _ :: l => exchanges l
  | .rate _ :: l => exchanges l
  | .removing :: l => exchanges l
  | .tried _ :: l => exchanges l
  | .newline :: l => exchanges l
  | .writing _ :: l => exchanges l

theorem console_append {sty : Style} {l m : List Printed} : ∀ {t}, Console sty (l ++ m) t →
    ∃ u v, t = u ++ v ∧ Console sty l u ∧ Console sty m v := by
  induction l with
  | nil => exact fun h => ⟨[], _, rfl, .nil, h⟩
  | cons e l ih =>
    intro t h
    cases h with
    | cons h hl =>
      obtain ⟨u, v, rfl, h1, h2⟩ := ih hl
      exact ⟨_, v, (List.append_assoc _ _ _).symm, .cons h h1, h2⟩

theorem console_tried {sty : Style} : ∀ {tr : List Bytes} {t}, Console sty (tr.map .tried) t → '\n' ∉ t
  | [], t, h => by cases h; simp
  | s :: tr, t, h => by
    cases h with
    | cons h hl =>
      cases h
      have := console_tried hl
      simp only [List.cons_append, List.mem_cons, List.mem_append, not_or]
      exact ⟨by decide, showBytes_noBreak _ _, this⟩

theorem fileName_noBreak (ts : TokenSet) : '\n' ∉ ts.name ++ ".json".toList := by
  have hp : '\n' ∉ ts.processing.text := by cases ts.processing <;> decide
  have ht : '\n' ∉ ts.tokenType.text := by cases ts.tokenType <;> decide
  unfold TokenSet.name
  simp only [List.mem_append, not_or]
  exact ⟨⟨⟨⟨⟨⟨by decide, toDigits_noBreak 10 _ (by omega) (by omega)⟩, by decide⟩, hp⟩, by decide⟩, ht⟩, by decide⟩

theorem exchange_lines {sty : Style} (hsty : OneLine sty) {out : List Printed} (h : Blocks out) : ∀ {t},
    Console sty out t →
    List.Forall₂ (fun (p : TokenSet × TokenSet) line => ShowDiff sty.plain p.1 p.2 line) (exchanges out)
      ((fullLines [] t).filter showsExchange) := by
  induction h with
  | nil => intro t h; cases h; exact .nil
  | initial _ ih =>
    intro t h
    cases h with
    | cons h hl =>
      cases h
      rw [List.append_assoc _ ['\n'], List.singleton_append, fullLines_line (by
          simp only [List.mem_append, not_or]
          exact ⟨⟨⟨by decide, toDigits_noBreak 10 _ (by omega) (by omega)⟩, by decide⟩, hsty.float _⟩),
          List.filter_cons_of_neg (by simp [showsExchange])]
      exact ih hl
  | change _ ih =>
    intro t h
    cases h with
    | cons h hl =>
      cases h with
      | change hd =>
      rw [List.append_assoc, List.singleton_append, fullLines_line (diff_noBreak hd),
        List.filter_cons_of_pos (by simpa using diff_shows hd)]
      exact .cons hd (ih hl)
  | rate _ ih =>
    intro t h
    cases h with
    | cons h hl =>
      cases h
      rw [List.append_assoc _ ['\n'], List.singleton_append, fullLines_line (by
          simp only [List.mem_append, not_or]
          exact ⟨by decide, hsty.float _⟩), List.filter_cons_of_neg (by simp [showsExchange])]
      exact ih hl
  | @writing ts l _ ih =>
    intro t h
    cases h with
    | cons h hl =>
      cases h
      have e : ("Writing the token set to ".toList ++ sty.path (ts.name ++ ".json".toList) ++ ['.', '\n']) =
        ("Writing the token set to ".toList ++ sty.path (ts.name ++ ".json".toList) ++ ['.']) ++ ['\n'] := by
        rw [List.append_assoc _ ['.']]; rfl
      rw [e, List.append_assoc _ ['\n'], List.singleton_append, fullLines_line (by
          simp only [List.mem_append, not_or]
          exact ⟨⟨by decide, hsty.path _ (fileName_noBreak _)⟩, by decide⟩), List.filter_cons_of_neg (by simp [showsExchange])]
      exact ih hl
  | @removing tr l _ ih =>
    intro t h
    cases h with
    | cons h hl =>
      cases h
      obtain ⟨u, v, rfl, h1, h2⟩ := console_append hl
      cases h2 with
      | cons h2 h3 =>
        cases h2
        have hx : ∀ tr : List Bytes, exchanges (tr.map .tried ++ .newline :: l) = exchanges l := by
          intro tr
          induction tr with
          | nil => rfl
          | cons s tr ih => exact ih
        rw [show exchanges (.removing :: (tr.map .tried ++ .newline :: l)) = exchanges l from hx tr,
          List.singleton_append, ← List.append_assoc, fullLines_line (by
            simp only [List.mem_append, not_or]
            exact ⟨by decide, console_tried h1⟩), List.filter_cons_of_neg (by simp [showsExchange])]
        exact ih h3

/-! ### Following the exchanges -/

theorem follow_exchanges (l m : List Printed) {sty : Style} {x : List Text} : ∀ {S T : Token → Prop},
    (∀ t, S t ↔ T t) →
    List.Forall₂ (fun (p : TokenSet × TokenSet) line => ShowDiff sty.plain p.1 p.2 line) (exchanges l) x →
    List.Forall₂ (fun (p : TokenSet × TokenSet) line => ShowDiff sty.plain p.1 p.2 line) (exchanges m) x →
    ∀ t, follow S l t ↔ follow T m t := by
  have red : ∀ (l : List Printed) (S : Token → Prop), follow S l = (exchanges l).foldl (fun S p t =>
      (S t ∧ ¬ (t ∈ p.1.tokens ∧ t ∉ p.2.tokens)) ∨ (t ∈ p.2.tokens ∧ t ∉ p.1.tokens)) S := by
    intro l
    induction l with
    | nil => intro S; rfl
    | cons e l ih => intro S; cases e <;> exact ih _
  intro S T hST h1 h2 t
  rw [red, red]
  generalize exchanges l = a at h1
  generalize exchanges m = b at h2
  induction h1 generalizing b S T with
  | nil => cases h2; exact hST t
  | cons hp _ ih =>
    cases h2 with
    | cons hq h2 =>
      rw [List.foldl_cons, List.foldl_cons]
      refine ih ?_ _ h2
      intro t
      obtain ⟨g1, g2⟩ := Props.C75_line_readable _ _ _ _ _ _ hp hq
      rw [g1 t, g2 t, hST t]

end Optimize
end Tokens
