import Verif.Proofs.Automaton

/-! The dynamic program of `process_slice`. -/

set_option linter.unusedSimpArgs false
set_option linter.unusedVariables false

namespace Tokens
namespace Spec

theorem Spells.append {ts : TokenSet} {ps qs : List Piece} {t u : Bytes}
    (h1 : Spells ts ps t) (h2 : Spells ts qs u) : Spells ts (ps ++ qs) (t ++ u) := by
  induction h1 with
  | nil => simpa using h2
  | cons hp _ ih => rw [List.cons_append, List.append_assoc]; exact .cons hp ih

theorem Spells.snoc {ts : TokenSet} {ps : List Piece} {t s : Bytes} {p : Piece}
    (h1 : Spells ts ps t) (h2 : p.string ts = some s) : Spells ts (ps ++ [p]) (t ++ s) := by
  have := h1.append (Spells.cons h2 .nil)
  simpa using this

theorem Spells.append_inv {ts : TokenSet} {ps qs : List Piece} {t : Bytes}
    (h : Spells ts (ps ++ qs) t) : ∃ u v, t = u ++ v ∧ Spells ts ps u ∧ Spells ts qs v := by
  induction ps generalizing t with
  | nil => exact ⟨[], t, rfl, .nil, h⟩
  | cons p ps ih =>
    cases h with
    | cons hp h =>
      obtain ⟨u, v, rfl, h1, h2⟩ := ih h
      exact ⟨_ ++ u, v, by simp, .cons hp h1, h2⟩

theorem Spells.singleton_inv {ts : TokenSet} {p : Piece} {t : Bytes}
    (h : Spells ts [p] t) : p.string ts = some t := by
  cases h with
  | cons hp h => cases h; simpa using hp

theorem Spells.snoc_inv {ts : TokenSet} {ps : List Piece} {p : Piece} {t : Bytes}
    (h : Spells ts (ps ++ [p]) t) : ∃ u s, t = u ++ s ∧ Spells ts ps u ∧ p.string ts = some s := by
  obtain ⟨u, v, rfl, h1, h2⟩ := h.append_inv
  exact ⟨u, v, rfl, h1, h2.singleton_inv⟩

theorem output_append (ts : TokenSet) (ps qs : List Piece) :
    output ts (ps ++ qs) = output ts ps ++ output ts qs := by simp [output]

theorem output_singleton (ts : TokenSet) (p : Piece) : output ts [p] = p.output ts := by
  simp [output]

theorem output_cons (ts : TokenSet) (p : Piece) (ps : List Piece) :
    output ts (p :: ps) = p.output ts ++ output ts ps := by simp [output]

/-- `c` is the least number of output tokens of a segmentation of `t`. -/
def IsMin (ts : TokenSet) (t : Bytes) (c : Nat) : Prop :=
  (∃ ps, Spells ts ps t ∧ (output ts ps).length = c) ∧
  ∀ qs, Spells ts qs t → c ≤ (output ts qs).length

theorem IsMin.unique {ts : TokenSet} {t : Bytes} {c d : Nat} (h1 : IsMin ts t c)
    (h2 : IsMin ts t d) : c = d := by
  obtain ⟨⟨ps, hp, rfl⟩, h1'⟩ := h1
  obtain ⟨⟨qs, hq, rfl⟩, h2'⟩ := h2
  have := h1' qs hq
  have := h2' ps hp
  omega

theorem optimal_iff {ts : TokenSet} {t : Bytes} {c : Nat} (h : IsMin ts t c) (ps : List Piece) :
    Optimal ts t ps ↔ Spells ts ps t ∧ (output ts ps).length = c := by
  constructor
  · rintro ⟨h1, h2⟩
    refine ⟨h1, ?_⟩
    obtain ⟨⟨qs, hq, rfl⟩, h'⟩ := h
    have := h2 qs hq
    have := h' ps h1
    omega
  · rintro ⟨h1, rfl⟩
    exact ⟨h1, h.2⟩

theorem Optimal.isMin {ts : TokenSet} {t : Bytes} {ps : List Piece} (h : Optimal ts t ps) :
    IsMin ts t (output ts ps).length := ⟨⟨ps, h.1, rfl⟩, h.2⟩

theorem isMin_nil (ts : TokenSet) : IsMin ts [] 0 :=
  ⟨⟨[], .nil, rfl⟩, fun _ _ => Nat.zero_le _⟩

end Spec

open Spec

theorem suffix_of_suffix_le {α : Type} {a b c : List α} (h1 : a <:+ c) (h2 : b <:+ c)
    (h : a.length ≤ b.length) : a <:+ b := List.suffix_of_suffix_length_le h1 h2 h

namespace FragmentTokenizer

/-- All keys among the non-empty suffixes of `w`, longest first. -/
def cands (m : StrMap) : Bytes → List Nat
  | [] => []
  | b :: bs =>
    match m (b :: bs) with
    | some k => k :: cands m bs
    | none => cands m bs

theorem mem_cands {m : StrMap} {w : Bytes} {k : Nat} :
    k ∈ cands m w ↔ ∃ t, t <:+ w ∧ t ≠ [] ∧ m t = some k := by
  induction w with
  | nil =>
    simp only [cands, List.not_mem_nil, false_iff]
    rintro ⟨t, ht, hne, _⟩
    exact hne (List.suffix_nil.1 ht)
  | cons b bs ih =>
    have key : (∃ t, t <:+ b :: bs ∧ t ≠ [] ∧ m t = some k) ↔
        m (b :: bs) = some k ∨ ∃ t, t <:+ bs ∧ t ≠ [] ∧ m t = some k := by
      constructor
      · rintro ⟨t, ht, hne, hm⟩
        rcases List.suffix_cons_iff.1 ht with rfl | ht
        · exact .inl hm
        · exact .inr ⟨t, ht, hne, hm⟩
      · rintro (h | ⟨t, ht, hne, hm⟩)
        · exact ⟨b :: bs, List.suffix_refl _, by simp, h⟩
        · exact ⟨t, ht.trans (List.suffix_cons _ _), hne, hm⟩
    rw [key, ← ih, cands]
    cases hm : m (b :: bs) with
    | none => simp
    | some k' => simp [eq_comm]

/-- The candidates come in order of strictly decreasing length. -/
theorem cands_sorted {spans : List Span} {m : StrMap} (hm : SMapOK spans m) (w : Bytes) :
    (cands m w).Pairwise (fun k k' => ∀ sp sp', spans[k]? = some sp → spans[k']? = some sp' →
      sp'.string.length < sp.string.length) := by
  induction w with
  | nil => exact .nil
  | cons b bs ih =>
    rw [cands]
    cases hmk : m (b :: bs) with
    | none => simpa using ih
    | some k =>
      simp only
      rw [List.pairwise_cons]
      refine ⟨?_, ih⟩
      intro k' hk' sp sp' hsp hsp'
      obtain ⟨t, ht, hne, hmt⟩ := mem_cands.1 hk'
      obtain ⟨x, hx, hxs⟩ := (hm _ _).1 hmk
      obtain ⟨y, hy, hys⟩ := (hm _ _).1 hmt
      rw [hx] at hsp; rw [hy] at hsp'
      simp at hsp hsp'
      subst hsp hsp'
      rw [hxs, hys]
      have := ht.length_le
      simp; omega

/-- Cost of using span `k` last. -/
def candCost (spans : List Span) (costs : List CostState) (k : Nat) : Nat :=
  match spans[k]? with
  | none => 0
  | some sp => match costs[costs.length - sp.string.length]? with
    | none => 0
    | some c => c.cost + sp.cost

/-- One round of the search for the best last span. -/
def better (f : Nat → Nat) (best : Option CostState) (k : Nat) : Option CostState :=
  match best with
  | none => some { cost := f k, span := k }
  | some b => if b.cost > f k then some { cost := f k, span := k } else some b

theorem bestSpan_eq {ts : TokenSet} {spans : List Span} {m : StrMap} (hs : SpansOK ts spans m)
    (costs : List CostState) (w : Bytes) (hw : w.length ≤ costs.length) (fuel : Nat)
    (hf : w.length < fuel) (best : Option CostState) :
    bestSpan spans costs fuel ((firstSuffix m w).getD 0) best =
      .ok ((cands m w).foldl (better (candCost spans costs)) best) := by
  induction w generalizing fuel best with
  | nil =>
    obtain ⟨f, rfl⟩ : ∃ f, fuel = f + 1 := ⟨fuel - 1, by simp at hf; omega⟩
    simp [firstSuffix, bestSpan, cands]
  | cons b bs ih =>
    rw [firstSuffix, cands]
    cases hmk : m (b :: bs) with
    | none =>
      simp only
      exact ih (by simp at hw; omega) fuel (by simp at hf; omega) best
    | some k =>
      simp only [Option.getD_some, List.foldl_cons]
      obtain ⟨f, rfl⟩ : ∃ f, fuel = f + 1 := ⟨fuel - 1, by simp at hf; omega⟩
      obtain ⟨sp, hsp, hstr⟩ := (hs.map _ _).1 hmk
      have hk : 0 < k := by
        rcases Nat.eq_zero_or_pos k with rfl | h
        · rw [hs.head] at hsp
          simp at hsp; subst hsp
          simp [emptySpan] at hstr
        · exact h
      obtain ⟨_, hlink, _⟩ := hs.sound k sp hk hsp
      have hlen : sp.string.length = bs.length + 1 := by rw [hstr]; simp
      simp at hw
      have hlt : costs.length - sp.string.length < costs.length := by omega
      have hget : costs[costs.length - sp.string.length]? =
          some costs[costs.length - sp.string.length] := List.getElem?_eq_getElem hlt
      rw [bestSpan]
      rw [if_neg (by omega), getR_of hsp]
      simp only [R.ok_bind]
      rw [subR_of (by omega)]
      simp only [R.ok_bind]
      rw [getR_of hget]
      simp only [R.ok_bind]
      have htail : sp.string.tail = bs := by rw [hstr]; rfl
      rw [hlink, htail, ih (by omega) f (by simp at hf; omega)]
      have hc : candCost spans costs k =
          costs[costs.length - sp.string.length].cost + sp.cost := by
        simp [candCost, hsp, hget]
      congr 2
      unfold better
      rw [hc]
      cases best <;> rfl

/-- The fold returns the first candidate of least cost. -/
theorem foldl_better {f : Nat → Nat} (l : List Nat) (b : CostState) :
    ∃ c, l.foldl (better f) (some b) = some c ∧ c.cost ≤ b.cost ∧
      (∀ k ∈ l, c.cost ≤ f k) ∧
      ((c = b) ∨ (c.cost < b.cost ∧ c.cost = f c.span ∧
        ∃ pre post, l = pre ++ c.span :: post ∧ ∀ k ∈ pre, c.cost < f k)) := by
  induction l generalizing b with
  | nil => exact ⟨b, rfl, Nat.le_refl _, by simp, .inl rfl⟩
  | cons x xs ih =>
    rw [List.foldl_cons, better]
    by_cases h : b.cost > f x
    · rw [if_pos h]
      obtain ⟨c, h1, h2, h3, h4⟩ := ih { cost := f x, span := x }
      simp only at h2 h4
      refine ⟨c, h1, by omega, ?_, .inr ?_⟩
      · intro k hk
        rcases List.mem_cons.1 hk with rfl | hk
        · exact h2
        · exact h3 k hk
      · rcases h4 with rfl | ⟨h5, h6, pre, post, rfl, h7⟩
        · exact ⟨h, rfl, [], xs, rfl, by simp⟩
        · refine ⟨by omega, h6, x :: pre, post, rfl, ?_⟩
          intro k hk
          rcases List.mem_cons.1 hk with rfl | hk
          · exact h5
          · exact h7 k hk
    · rw [if_neg h]
      obtain ⟨c, h1, h2, h3, h4⟩ := ih b
      refine ⟨c, h1, h2, ?_, ?_⟩
      · intro k hk
        rcases List.mem_cons.1 hk with rfl | hk
        · omega
        · exact h3 k hk
      · rcases h4 with rfl | ⟨h5, h6, pre, post, rfl, h7⟩
        · exact .inl rfl
        · refine .inr ⟨h5, h6, x :: pre, post, rfl, ?_⟩
          intro k hk
          rcases List.mem_cons.1 hk with rfl | hk
          · omega
          · exact h7 k hk

theorem foldl_better_none {f : Nat → Nat} (l : List Nat) (hl : l ≠ []) :
    ∃ c, l.foldl (better f) none = some c ∧ c.cost = f c.span ∧
      (∀ k ∈ l, c.cost ≤ f k) ∧
        ∃ pre post, l = pre ++ c.span :: post ∧ ∀ k ∈ pre, c.cost < f k := by
  cases l with
  | nil => exact absurd rfl hl
  | cons x xs =>
    rw [List.foldl_cons]
    obtain ⟨c, h1, h2, h3, h4⟩ := foldl_better (f := f) xs { cost := f x, span := x }
    simp only at h2 h4
    refine ⟨c, h1, ?_, ?_, ?_⟩
    · rcases h4 with rfl | h
      · rfl
      · exact h.2.1
    · intro k hk
      rcases List.mem_cons.1 hk with rfl | hk
      · exact h2
      · exact h3 k hk
    · rcases h4 with rfl | ⟨h5, h6, pre, post, rfl, h7⟩
      · exact ⟨[], xs, rfl, by simp⟩
      · refine ⟨x :: pre, post, rfl, ?_⟩
        intro k hk
        rcases List.mem_cons.1 hk with rfl | hk
        · exact h5
        · exact h7 k hk

/-- Row `j` of the cost table for the text `p`. -/
structure RowOK (ts : TokenSet) (spans : List Span) (costs : List CostState) (p : Bytes)
    (j : Nat) (cs : CostState) : Prop where
  min : IsMin ts (p.take j) cs.cost
  last : 0 < j → 0 < cs.span ∧ ∃ sp prev, spans[cs.span]? = some sp ∧ sp.string <:+ p.take j ∧
    costs[j - sp.string.length]? = some prev ∧ cs.cost = prev.cost + sp.cost ∧
    ∀ k' sp' prev', 0 < k' → spans[k']? = some sp' → sp'.string <:+ p.take j →
      costs[j - sp'.string.length]? = some prev' → cs.cost = prev'.cost + sp'.cost →
      sp'.string.length ≤ sp.string.length

/-- The cost table for the text `p`. -/
structure CostsOK (ts : TokenSet) (spans : List Span) (costs : List CostState) (p : Bytes) :
    Prop where
  len : costs.length = p.length + 1
  row : ∀ j cs, costs[j]? = some cs → RowOK ts spans costs p j cs

theorem costsOK_init (ts : TokenSet) (spans : List Span) :
    CostsOK ts spans [{ cost := 0, span := 0 }] [] := by
  refine ⟨rfl, ?_⟩
  intro j cs h
  rcases List.getElem?_eq_some_iff.1 h with ⟨h1, h2⟩
  simp at h1
  subst h1
  simp at h2
  subst h2
  exact ⟨by simpa using isMin_nil ts, by omega⟩

theorem take_append_suffix {p s : Bytes} (h : s <:+ p) : p = p.take (p.length - s.length) ++ s := by
  obtain ⟨t, rfl⟩ := h
  simp

/-- One more byte: extending the cost table. -/
theorem costsOK_snoc {ts : TokenSet} {spans : List Span} {m : StrMap} (hs : SpansOK ts spans m)
    {costs : List CostState} {p : Bytes} (hc : CostsOK ts spans costs p) (b : UInt8)
    (hb : [b] ∈ pieceStrings ts) {w : Bytes} (hw : w <:+ p ++ [b])
    (hcov : ∀ t, t <:+ p ++ [b] → t ≠ [] → (m t).isSome → t <:+ w) :
    ∃ c, (cands m w).foldl (better (candCost spans costs)) none = some c ∧
      CostsOK ts spans (costs ++ [c]) (p ++ [b]) := by
  have hnz : ∀ t k, t ≠ [] → m t = some k → 0 < k := by
    intro t k ht hk
    obtain ⟨sp, hsp, rfl⟩ := (hs.map t k).1 hk
    rcases Nat.eq_zero_or_pos k with rfl | h
    · rw [hs.head] at hsp; simp at hsp; subst hsp; exact absurd rfl ht
    · exact h
  -- every piece whose string ends the text is a candidate
  have hpiece : ∀ q s, Piece.string ts q = some s → s <:+ p ++ [b] →
      ∃ k sp, k ∈ cands m w ∧ 0 < k ∧ spans[k]? = some sp ∧ sp.string = s ∧
        sp.cost = (q.output ts).length := by
    intro q s hq hsuf
    obtain ⟨k, sp, hk, hsp, hstr, _, hcost⟩ := hs.complete q s hq
    have hne : s ≠ [] := by rw [← hstr]; exact (hs.sound k sp hk hsp).1
    have hms : m s = some k := (hs.map s k).2 ⟨sp, hsp, hstr⟩
    exact ⟨k, sp, mem_cands.2 ⟨s, hcov s hsuf hne (by simp [hms]), hne, hms⟩, hk, hsp, hstr, hcost⟩
  have hcl : costs.length = (p ++ [b]).length := by simpa using hc.len
  -- what a candidate is
  have hcand : ∀ k, k ∈ cands m w → ∃ sp prev, 0 < k ∧ spans[k]? = some sp ∧
      sp.string <:+ p ++ [b] ∧ sp.string ≠ [] ∧
      costs[costs.length - sp.string.length]? = some prev ∧
      candCost spans costs k = prev.cost + sp.cost := by
    intro k hk
    obtain ⟨t, ht, hne, hmt⟩ := mem_cands.1 hk
    obtain ⟨sp, hsp, rfl⟩ := (hs.map t k).1 hmt
    have h1 : 0 < sp.string.length := List.length_pos_iff.2 hne
    have h2 := (ht.trans hw).length_le
    have hlt : costs.length - sp.string.length < costs.length := by omega
    refine ⟨sp, _, hnz _ k hne hmt, hsp, ht.trans hw, hne, List.getElem?_eq_getElem hlt, ?_⟩
    simp [candCost, hsp, List.getElem?_eq_getElem hlt]
  have hbne : cands m w ≠ [] := by
    obtain ⟨q, hq⟩ : ∃ q : Piece, q.string ts = some [b] := by
      rcases List.mem_append.1 hb with h | h
      · obtain ⟨tok, h1, h2⟩ := List.mem_filterMap.1 h
        obtain ⟨i, hi⟩ := List.mem_iff_getElem?.1 h1
        cases tok with
        | ext n => simp [tokenText] at h2
        | str s => simp [tokenText] at h2; exact ⟨.tok i, by simp [Piece.string, hi, h2]⟩
      · obtain ⟨q, h1, h2⟩ := List.mem_map.1 h
        obtain ⟨j, hj⟩ := List.mem_iff_getElem?.1 h1
        exact ⟨.seq j, by simp [Piece.string, hj, h2]⟩
    obtain ⟨k, sp, hk, _⟩ := hpiece q [b] hq (List.suffix_append _ _)
    exact List.ne_nil_of_mem hk
  obtain ⟨c, hcf, hcc, hcmin, pre, post, hsplit, hpre⟩ :=
    foldl_better_none (f := candCost spans costs) _ hbne
  refine ⟨c, hcf, by simp [hc.len], ?_⟩
  intro j cs hj
  have hcmem : c.span ∈ cands m w := by rw [hsplit]; simp
  obtain ⟨sp, prev, hk0, hsp, hsuf, hspne, hprev, hccost⟩ := hcand _ hcmem
  have hlenpos : 0 < sp.string.length := List.length_pos_iff.2 hspne
  by_cases hjl : j < costs.length
  · -- old row
    rw [List.getElem?_append_left hjl] at hj
    obtain ⟨hmin, hlast⟩ := hc.row j cs hj
    have hjp : j ≤ p.length := by have := hc.len; omega
    have htake : (p ++ [b]).take j = p.take j := by
      rw [List.take_append_of_le_length hjp]
    refine ⟨by rw [htake]; exact hmin, ?_⟩
    intro h0
    obtain ⟨h1, sp, prev, h2, h3, h4, h5, h6⟩ := hlast h0
    refine ⟨h1, sp, prev, h2, by rw [htake]; exact h3, ?_, h5, ?_⟩
    · rw [List.getElem?_append_left (by omega)]; exact h4
    · intro k' sp' prev' h7 h8 h9 h10 h11
      rw [htake] at h9
      rw [List.getElem?_append_left (by omega)] at h10
      exact h6 k' sp' prev' h7 h8 h9 h10 h11
  · -- the new row
    have hjeq : j = costs.length := by
      rcases List.getElem?_eq_some_iff.1 hj with ⟨h1, _⟩
      simp at h1; omega
    subst hjeq
    simp at hj
    subst hj
    have htake : (p ++ [b]).take costs.length = p ++ [b] := by
      rw [hcl, List.take_length]
    -- minimal cost of the text before a piece
    have hrow : ∀ s (cs' : CostState), s <:+ p ++ [b] → s ≠ [] →
        costs[costs.length - s.length]? = some cs' →
        IsMin ts ((p ++ [b]).take ((p ++ [b]).length - s.length)) cs'.cost := by
      intro s cs' hsx hne h
      have h0 := (hc.row _ _ h).min
      have h1 : 0 < s.length := List.length_pos_iff.2 hne
      rw [← hcl, List.take_append_of_le_length (by have := hc.len; omega)]
      exact h0
    have hmin : IsMin ts (p ++ [b]) c.cost := by
      constructor
      · obtain ⟨⟨ps, hps, hpl⟩, _⟩ := hrow _ _ hsuf hspne hprev
        obtain ⟨_, _, q, _, hq, hqc⟩ := hs.sound _ _ hk0 hsp
        refine ⟨ps ++ [q], ?_, ?_⟩
        · rw [take_append_suffix hsuf]; exact hps.snoc hq
        · rw [output_append, output_singleton, List.length_append, hpl, ← hqc, hcc, hccost]
      · intro qs hqs
        have hne : qs ≠ [] := by
          rintro rfl
          cases h : (p ++ [b]) with
          | nil => simp at h
          | cons x xs => rw [h] at hqs; cases hqs
        rw [← List.dropLast_concat_getLast hne] at hqs ⊢
        obtain ⟨u, s, hus, hu, hq⟩ := hqs.snoc_inv
        have hsx : s <:+ p ++ [b] := by rw [hus]; exact List.suffix_append _ _
        obtain ⟨k, sp', hk, _, hsp', hstr, hcost⟩ := hpiece _ s hq hsx
        obtain ⟨sp'', prev', _, hsp'', _, hne', hprev', hcand'⟩ := hcand k hk
        rw [hsp'] at hsp''
        simp at hsp''; subst hsp''
        have h1 := hcmin k hk
        have h2 := (hrow s prev' hsx (by rw [← hstr]; exact hne') (by rw [← hstr]; exact hprev')).2
          qs.dropLast (by rw [hus]; simpa using hu)
        rw [output_append, output_singleton, List.length_append, ← hcost]
        omega
    refine ⟨by rw [htake]; exact hmin, ?_⟩
    intro _
    refine ⟨hk0, sp, prev, hsp, by rw [htake]; exact hsuf, ?_, by rw [hcc, hccost], ?_⟩
    · rw [List.getElem?_append_left (by omega)]; exact hprev
    · intro k' sp' prev' h1 h2 h3 h4 h5
      rw [htake] at h3
      obtain ⟨hne', _, q, _, hq, _⟩ := hs.sound k' sp' h1 h2
      have hlp : 0 < sp'.string.length := List.length_pos_iff.2 hne'
      rw [List.getElem?_append_left (by omega)] at h4
      have hms : m sp'.string = some k' := (hs.map _ _).2 ⟨sp', h2, rfl⟩
      have hk' : k' ∈ cands m w :=
        mem_cands.2 ⟨_, hcov _ h3 hne' (by simp [hms]), hne', hms⟩
      have hcost' : candCost spans costs k' = c.cost := by
        simp [candCost, h2, h4, h5]
      have hso := cands_sorted hs.map w
      rw [hsplit] at hk' hso
      rcases List.mem_append.1 hk' with hin | hin
      · have := hpre k' hin; omega
      · rcases List.mem_cons.1 hin with rfl | hin
        · rw [hsp] at h2; simp at h2; subst h2; exact Nat.le_refl _
        · have := (List.pairwise_cons.1 (List.pairwise_append.1 hso).2.1).1 k' hin sp sp' hsp h2
          omega

/-- What `FragmentTokenizer::new` produces. -/
structure TokenizerOK (ts : TokenSet) (tk : FragmentTokenizer) : Prop where
  tokenSet : tk.tokenSet = ts
  ex : ∃ spanBy stateBy, SpansOK ts tk.spans spanBy ∧
    StatesOK tk.spans spanBy tk.suffixStates stateBy
  bytes : ∀ b : UInt8, [b] ∈ pieceStrings ts
  nodup : (pieceStrings ts).Nodup

theorem processLoop_ok {ts : TokenSet} {tk : FragmentTokenizer} {spanBy stateBy : StrMap}
    (hs : SpansOK ts tk.spans spanBy) (ha : StatesOK tk.spans spanBy tk.suffixStates stateBy)
    (hb : ∀ b : UInt8, [b] ∈ pieceStrings ts) (rest p : Bytes) (k : Nat) (state : SuffixState)
    (costs : List CostState) (hst : tk.suffixStates[k]? = some state)
    (hsuf : state.suffix <:+ p)
    (hlong : ∀ u, u <:+ p → (stateBy u).isSome → u.length ≤ state.suffix.length)
    (hc : CostsOK ts tk.spans costs p) :
    ∃ costs', processLoop tk rest state costs = .ok costs' ∧
      CostsOK ts tk.spans costs' (p ++ rest) := by
  induction rest generalizing p k state costs with
  | nil => exact ⟨costs, rfl, by simpa using hc⟩
  | cons b rest ih =>
    rw [processLoop]
    obtain ⟨hnext, hpos⟩ := ha.next k state hst b
    cases hf : firstSuffix stateBy (state.suffix ++ [b]) with
    | none => rw [hf] at hnext; simp at hnext; omega
    | some k' =>
      rw [hf] at hnext
      simp at hnext
      obtain ⟨t, ht, htne, hmt, htmax⟩ := firstSuffix_some hf
      obtain ⟨state', hst', rfl⟩ := (ha.map t k').1 hmt
      have hk' : 0 < k' := by omega
      have hspan := ha.span k' state' hk' hst'
      have hsuf' : state'.suffix <:+ p ++ [b] := by
        refine ht.trans ?_
        obtain ⟨x, rfl⟩ := hsuf
        exact ⟨x, by simp⟩
      have hlong' : ∀ u, u <:+ p ++ [b] → (stateBy u).isSome →
          u.length ≤ state'.suffix.length := by
        intro u hu hsome
        by_cases hne : u = []
        · subst hne; simp
        · have hu' : u = u.dropLast ++ [u.getLast hne] := (List.dropLast_concat_getLast hne).symm
          obtain ⟨x, hx⟩ := hu
          rw [hu', ← List.append_assoc] at hx
          have hxb := List.append_inj' hx rfl
          have hlast : u.getLast hne = b := by simpa using hxb.2
          have hdl : u.dropLast <:+ p := ⟨x, hxb.1⟩
          have hdom : (stateBy u.dropLast).isSome := by
            rw [ha.dom]
            rcases (ha.dom u).1 hsome with h | ⟨sp, h1, h2⟩
            · exact absurd h hne
            · exact .inr ⟨sp, h1, (List.dropLast_prefix u).trans h2⟩
          have h1 := hlong _ hdl hdom
          have h2 : u.dropLast <:+ state.suffix := suffix_of_suffix_le hdl hsuf h1
          have h3 : u <:+ state.suffix ++ [b] := by
            rw [hu', hlast]
            obtain ⟨y, hy⟩ := h2
            exact ⟨y, by rw [← List.append_assoc, hy]⟩
          exact htmax u h3 hne hsome
      have hcov : ∀ t, t <:+ p ++ [b] → t ≠ [] → (spanBy t).isSome → t <:+ state'.suffix := by
        intro t ht hne hsome
        apply suffix_of_suffix_le ht hsuf'
        apply hlong' t ht
        rw [ha.dom]
        right
        obtain ⟨i, hi⟩ := Option.isSome_iff_exists.1 hsome
        obtain ⟨sp, hsp, hstr⟩ := (hs.map t i).1 hi
        exact ⟨sp, List.mem_iff_getElem?.2 ⟨i, hsp⟩, by rw [hstr]; exact List.prefix_refl _⟩
      obtain ⟨c, hcf, hcok⟩ := costsOK_snoc hs hc b (hb b) hsuf' hcov
      have hwl : state'.suffix.length ≤ costs.length := by
        have h1 := hsuf'.length_le
        have h2 := hc.len
        simp at h1; omega
      rw [hnext, getR_of hst']
      simp only [R.ok_bind]
      rw [hspan, bestSpan_eq hs costs _ hwl _ (by omega), hcf]
      simp only [R.ok_bind, unwrapR_some]
      obtain ⟨costs', h1, h2⟩ := ih (p ++ [b]) k' state' (costs ++ [c]) hst' hsuf' hlong' hcok
      exact ⟨costs', h1, by simpa using h2⟩

end FragmentTokenizer
end Tokens
