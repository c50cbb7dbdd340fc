import Verif.Proofs.Sampler3
import Verif.Proofs.Counts
import Verif.Model.Main

/-! `count_chars`. -/

set_option linter.unusedSimpArgs false
set_option linter.unusedVariables false

namespace Tokens
open Spec Input
namespace Main

/-- Every line but the last ends with a newline. -/
theorem splitLines_ends (f : Bytes) : ∀ l ∈ (splitLines f).dropLast, ∃ u, l = u ++ [10] := by
  induction f with
  | nil => simp [splitLines]
  | cons b bs ih =>
    rw [splitLines]
    split
    · intro l hl
      cases hs : splitLines bs with
      | nil => rw [hs] at hl; simp at hl
      | cons x xs =>
        rw [hs] at hl
        rw [List.dropLast_cons_of_ne_nil (by simp)] at hl
        rcases List.mem_cons.1 hl with rfl | hl
        · exact ⟨[], rfl⟩
        · rw [hs] at ih; exact ih l hl
    · split
      · simp
      · next x xs hs =>
        intro l hl
        cases xs with
        | nil => simp at hl
        | cons y ys =>
          rw [List.dropLast_cons_of_ne_nil (by simp)] at hl
          rw [hs, List.dropLast_cons_of_ne_nil (by simp)] at ih
          rcases List.mem_cons.1 hl with rfl | hl
          · obtain ⟨u, hu⟩ := ih x (by simp)
            exact ⟨b :: u, by rw [hu]; simp⟩
          · exact ih l (by simp [hl])

/-- Lines of a text, cut after newlines, are texts, and together they are the text. -/
theorem lines_decode (ls : List Bytes) (text : Text) (h : ls.flatten = utf8Encode text)
    (hends : ∀ l ∈ ls.dropLast, ∃ u, l = u ++ [10]) :
    ∃ ts : List Text, ls = ts.map utf8Encode ∧ ts.flatten = text := by
  induction ls generalizing text with
  | nil =>
    refine ⟨[], rfl, ?_⟩
    exact utf8Encode_inj (a := []) (by simpa using h)
  | cons l ls ih =>
    cases ls with
    | nil => exact ⟨[text], by simpa using h, by simp⟩
    | cons x xs =>
      rw [List.dropLast_cons_of_ne_nil (by simp)] at hends
      obtain ⟨u, hu⟩ := hends l (by simp)
      rw [List.flatten_cons, hu] at h
      obtain ⟨c1, c2, h1, h2, h3⟩ := encode_split_ascii text u (x :: xs).flatten 10 (by decide)
        (by rw [← h]; simp only [List.append_assoc, List.singleton_append])
      obtain ⟨ts, g1, g2⟩ := ih c2 h3 (fun l hl => hends l (by simp [hl]))
      exact ⟨c1 :: ts, by rw [List.map_cons, ← g1, hu, h2], by simp [g2, h1]⟩

/-- The number of occurrences of the character number `c`. -/
def occ (text : Text) (c : Nat) : Nat := text.countP (fun x => x.toNat == c)

theorem bumpEntry_keys (c : Nat) (l : List (Nat × Nat)) (k : Nat) :
    k ∈ (bumpEntry c l).map Prod.fst ↔ k = c ∨ k ∈ l.map Prod.fst := by
  induction l with
  | nil => simp [bumpEntry]
  | cons e l ih =>
    obtain ⟨a, n⟩ := e
    rw [bumpEntry]
    split
    · next h => subst h; simp
    · simp only [List.map_cons, List.mem_cons, ih]; grind

theorem countLine_spec (text : Text) (low : List Nat) (counts : List (Nat × Nat))
    (hl : low.length = 256) : ∃ low' counts', countLine low counts text = .ok (low', counts') ∧
      low'.length = 256 ∧ (∀ c, c < 256 → low'.getD c 0 = low.getD c 0 + occ text c) ∧
      ∀ k, k ∈ counts'.map Prod.fst ↔ k ∈ counts.map Prod.fst ∨ ∃ c ∈ text, c.toNat = k ∧ 256 ≤ k := by
  induction text generalizing low counts with
  | nil => exact ⟨low, counts, rfl, hl, by simp [occ], by simp⟩
  | cons x xs ih =>
    rw [countLine]
    split
    · next hx =>
      have ha : addAt low x.toNat 1 = .ok (low.set x.toNat (low.getD x.toNat 0 + 1)) := by
        unfold addAt
        rw [List.getElem?_eq_getElem (by omega)]
        simp [List.getD, hl, hx]
      rw [ha, R.ok_bind]
      obtain ⟨low', counts', h1, h2, h3, h4⟩ := ih (low.set x.toNat (low.getD x.toNat 0 + 1)) counts
        (by simp [hl])
      refine ⟨low', counts', h1, h2, ?_, ?_⟩
      · intro c hc
        rw [h3 c hc]
        have ho : occ (x :: xs) c = occ xs c + if x.toNat = c then 1 else 0 := by
          simp [occ, List.countP_cons]
        rw [ho]
        by_cases e : x.toNat = c
        · subst e; simp [List.getD, hl, hx]; omega
        · have : ((low.set x.toNat (low.getD x.toNat 0 + 1)).getD c 0) = low.getD c 0 := by
            simp [List.getD, List.getElem?_set, e]
          rw [this, if_neg e]; rfl
      · intro k
        rw [h4 k]
        constructor
        · rintro (h | ⟨c, hc, e, h⟩)
          · exact .inl h
          · exact .inr ⟨c, by simp [hc], e, h⟩
        · rintro (h | ⟨c, hc, e, h⟩)
          · exact .inl h
          · rcases List.mem_cons.1 hc with rfl | hc
            · omega
            · exact .inr ⟨c, hc, e, h⟩
    · next hx =>
      obtain ⟨low', counts', h1, h2, h3, h4⟩ := ih low (bumpEntry x.toNat counts) hl
      refine ⟨low', counts', h1, h2, ?_, ?_⟩
      · intro c hc
        rw [h3 c hc]
        have ho : occ (x :: xs) c = occ xs c := by
          simp [occ, List.countP_cons]; omega
        rw [ho]
      · intro k
        rw [h4 k, bumpEntry_keys]
        constructor
        · rintro ((h | h) | ⟨c, hc, e, h⟩)
          · exact .inr ⟨x, by simp, h.symm, by omega⟩
          · exact .inl h
          · exact .inr ⟨c, by simp [hc], e, h⟩
        · rintro (h | ⟨c, hc, e, h⟩)
          · exact .inl (.inr h)
          · rcases List.mem_cons.1 hc with rfl | hc
            · exact .inl (.inl e.symm)
            · exact .inr ⟨c, hc, e, h⟩

theorem countLines_spec (ts : List Text) (s : CharCounts) (hl : s.low.length = 256) :
    ∃ s', countLines s (ts.map utf8Encode) = .ok s' ∧ s'.total = s.total + ts.flatten.length ∧
      s'.low.length = 256 ∧ (∀ c, c < 256 → s'.low.getD c 0 = s.low.getD c 0 + occ ts.flatten c) ∧
      ∀ k, k ∈ s'.counts.map Prod.fst ↔
        k ∈ s.counts.map Prod.fst ∨ ∃ c ∈ ts.flatten, c.toNat = k ∧ 256 ≤ k := by
  induction ts generalizing s with
  | nil => exact ⟨s, rfl, by simp, hl, by simp [occ], by simp⟩
  | cons t ts ih =>
    obtain ⟨low', counts', h1, h2, h3, h4⟩ := countLine_spec t s.low s.counts hl
    obtain ⟨s', g1, g2, g3, g4, g5⟩ := ih ⟨s.total + t.length, low', counts'⟩ h2
    refine ⟨s', ?_, ?_, g3, ?_, ?_⟩
    · rw [List.map_cons, countLines, utf8Decode_encode]
      simp only [h1, R.ok_bind]
      exact g1
    · rw [g2]; simp; omega
    · intro c hc
      rw [g4 c hc]
      simp only [h3 c hc]
      simp [occ, List.countP_append]; omega
    · intro k
      rw [g5 k]
      simp only [h4 k, List.flatten_cons, List.mem_append]
      constructor
      · rintro ((h | ⟨c, hc, h⟩) | ⟨c, hc, h⟩)
        · exact .inl h
        · exact .inr ⟨c, .inl hc, h⟩
        · exact .inr ⟨c, .inr hc, h⟩
      · rintro (h | ⟨c, hc | hc, h⟩)
        · exact .inl (.inl h)
        · exact .inl (.inr ⟨c, hc, h⟩)
        · exact .inr ⟨c, hc, h⟩

theorem maxKey_fold (l : List Nat) (m : Nat) :
    (m ≤ l.foldl (fun m c => if c > m then c else m) m) ∧
    (∀ k ∈ l, k ≤ l.foldl (fun m c => if c > m then c else m) m) ∧
    (l.foldl (fun m c => if c > m then c else m) m = m ∨
      l.foldl (fun m c => if c > m then c else m) m ∈ l) := by
  induction l generalizing m with
  | nil => simp
  | cons a l ih =>
    obtain ⟨h1, h2, h3⟩ := ih (if a > m then a else m)
    simp only [List.foldl_cons]
    refine ⟨?_, ?_, ?_⟩
    · refine Nat.le_trans ?_ h1; split <;> omega
    · intro k hk
      rcases List.mem_cons.1 hk with rfl | hk
      · refine Nat.le_trans ?_ h1; split <;> omega
      · exact h2 k hk
    · rcases h3 with h3 | h3
      · rw [h3]
        split
        · exact .inr (by simp)
        · exact .inl rfl
      · exact .inr (List.mem_cons_of_mem _ h3)

theorem mem_printed {low : List Nat} {c n : Nat} :
    (c, n) ∈ (low.zipIdx.filter (fun e => decide (e.1 > 0))).map (fun e => (e.2, e.1)) ↔
      low[c]? = some n ∧ 0 < n := by
  simp only [List.mem_map, List.mem_filter, decide_eq_true_eq, Prod.mk.injEq, Prod.exists,
    List.mem_zipIdx_iff_getElem?]
  constructor
  · rintro ⟨a, b, ⟨h1, h2⟩, rfl, rfl⟩; exact ⟨h1, h2⟩
  · rintro ⟨h1, h2⟩; exact ⟨n, c, ⟨h1, h2⟩, rfl, rfl⟩

theorem printed_sorted (low : List Nat) :
    ((low.zipIdx.filter (fun e => decide (e.1 > 0))).map (fun e => (e.2, e.1))).Pairwise
      (fun a b => a.1 < b.1) := by
  rw [List.pairwise_map]
  refine List.Pairwise.filter _ ?_
  rw [List.pairwise_iff_getElem]
  intro i j hi hj hij
  simp [hij]

theorem printed_sum (low : List Nat) :
    (((low.zipIdx.filter (fun e => decide (e.1 > 0))).map (fun e => (e.2, e.1))).map Prod.snd).sum =
      low.sum := by
  have : ∀ (l : List (Nat × Nat)), ((l.filter (fun e => decide (e.1 > 0))).map (fun e => (e.2, e.1))
      |>.map Prod.snd).sum = (l.map Prod.fst).sum := by
    intro l
    induction l with
    | nil => rfl
    | cons a l ih =>
      by_cases h : a.1 > 0
      · simp [List.filter_cons, h] at ih ⊢
        exact ih
      · simp [List.filter_cons, h] at ih ⊢
        omega
  rw [this, List.zipIdx_map_fst]

theorem sum_occ (text : Text) (n : Nat) :
    ((List.range n).map (occ text)).sum = text.countP (fun c => decide (c.toNat < n)) := by
  induction n with
  | zero => simp
  | succ n ih =>
    rw [List.range_succ, List.map_append, List.sum_append, ih]
    simp only [List.map_cons, List.map_nil, List.sum_cons, List.sum_nil, Nat.add_zero, occ]
    clear ih
    induction text with
    | nil => rfl
    | cons c cs ihc =>
      simp only [List.countP_cons, decide_eq_true_eq, beq_iff_eq]
      rw [← ihc]
      repeat' split
      all_goals omega

end Main
end Tokens
