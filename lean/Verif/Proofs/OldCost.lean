import Verif.Spec.OldOptimizer
import Verif.Proofs.Old
import Mathlib.Order.Lattice.Nat

/-! Costs of texts with a set of the first generation: existence, comparison of sets, fresh statistics. -/

set_option linter.unusedVariables false

namespace Tokens.Old
open Tokens Spec.Old

/-! ### Least costs -/

theorem spells_literals (ts : OSet) (x : Bytes) : Spells ts (x.map .lit) x := by
  induction x with
  | nil => exact .nil
  | cons b x ih => exact Spells.cons (s := [b]) rfl ih

/-- What a text costs at least. -/
noncomputable def leastCost (ts : OSet) (x : Bytes) : Nat :=
  sInf { n | ∃ ps, Spells ts ps x ∧ n = cost ts.literal.literalCost ps }

theorem leastCost_le {ts : OSet} {x : Bytes} {ps : List Piece} (h : Spells ts ps x) :
    leastCost ts x ≤ cost ts.literal.literalCost ps := Nat.sInf_le ⟨ps, h, rfl⟩

theorem leastCost_exists (ts : OSet) (x : Bytes) :
    ∃ ps, Cheapest ts x ps ∧ cost ts.literal.literalCost ps = leastCost ts x := by
  obtain ⟨ps, h1, h2⟩ := Nat.sInf_mem (s := { n | ∃ ps, Spells ts ps x ∧ n = cost ts.literal.literalCost ps })
    ⟨_, _, spells_literals ts x, rfl⟩
  exact ⟨ps, ⟨h1, fun qs hqs => by rw [← h2]; exact leastCost_le hqs⟩, h2.symm⟩

theorem cheapest_cost {ts : OSet} {x : Bytes} {ps : List Piece} (h : Cheapest ts x ps) :
    cost ts.literal.literalCost ps = leastCost ts x := by
  obtain ⟨qs, h1, h2⟩ := leastCost_exists ts x
  have := h.least qs h1.spells
  have := leastCost_le h.spells
  omega

/-- What texts cost at least. -/
noncomputable def tot (ts : OSet) (xs : List Bytes) : Nat := (xs.map (leastCost ts)).sum

theorem forall2_cost {ts : OSet} {xs : List Bytes} {cut : List (List Piece)} (h : List.Forall₂ (Cheapest ts) xs cut) :
    (cut.map (cost ts.literal.literalCost)).sum = tot ts xs := by
  unfold tot
  induction h with
  | nil => rfl
  | cons h1 _ ih => rw [List.map_cons, List.sum_cons, ih, List.map_cons, List.sum_cons, cheapest_cost h1]

theorem isCost_iff {ts : OSet} {xs : List Bytes} {c : Nat} : IsCost ts xs c ↔ c = tot ts xs := by
  constructor
  · rintro ⟨cut, h1, h2⟩
    rw [h2, forall2_cost h1]
  · rintro rfl
    have : ∀ xs : List Bytes, ∃ cut, List.Forall₂ (Cheapest ts) xs cut := by
      intro xs
      induction xs with
      | nil => exact ⟨[], .nil⟩
      | cons x xs ih =>
        obtain ⟨cut, ih⟩ := ih
        obtain ⟨ps, h, _⟩ := leastCost_exists ts x
        exact ⟨ps :: cut, .cons h ih⟩
    obtain ⟨cut, h⟩ := this xs
    exact ⟨cut, h, (forall2_cost h).symm⟩

/-! ### Two sets -/

theorem text_mem {ts : OSet} {i : Nat} {s : Bytes} (h : text ts (.tok i) = some s) : s ∈ strings ts := by
  simp only [text, Option.map_eq_some_iff] at h
  obtain ⟨t, h1, rfl⟩ := h
  exact List.mem_map_of_mem (List.mem_of_getElem? h1)

theorem mem_text {ts : OSet} {s : Bytes} (h : s ∈ strings ts) : ∃ i, text ts (.tok i) = some s := by
  obtain ⟨t, ht, rfl⟩ := List.mem_map.1 h
  obtain ⟨i, hi⟩ := List.mem_iff_getElem?.1 ht
  exact ⟨i, by rw [text, hi]; rfl⟩

theorem spells_sub {ts ts' : OSet} (h : ∀ s ∈ strings ts, s ∈ strings ts') {lc : Nat} {ps : List Piece} {x : Bytes}
    (hs : Spells ts ps x) : ∃ qs, Spells ts' qs x ∧ cost lc qs = cost lc ps := by
  induction hs with
  | nil => exact ⟨[], .nil, rfl⟩
  | @cons p ps s x hp _ ih =>
    obtain ⟨qs, h1, h2⟩ := ih
    cases p with
    | lit b => exact ⟨.lit b :: qs, .cons (p := .lit b) hp h1, by simp only [cost, h2]⟩
    | tok i =>
      obtain ⟨j, hj⟩ := mem_text (h s (text_mem hp))
      exact ⟨.tok j :: qs, .cons hj h1, by simp only [cost, h2]⟩

theorem leastCost_mono {ts ts' : OSet} (h : ∀ s ∈ strings ts, s ∈ strings ts') (hl : ts'.literal = ts.literal)
    (x : Bytes) : leastCost ts' x ≤ leastCost ts x := by
  obtain ⟨ps, h1, h2⟩ := leastCost_exists ts x
  obtain ⟨qs, h3, h4⟩ := spells_sub h (lc := ts.literal.literalCost) h1.spells
  have := leastCost_le h3
  rw [hl, h4] at this
  omega

theorem sum_le_map {α : Type} (f g : α → Nat) (l : List α) (h : ∀ x ∈ l, f x ≤ g x) : (l.map f).sum ≤ (l.map g).sum := by
  induction l with
  | nil => simp
  | cons a l ih =>
    have := ih (fun x hx => h x (by simp [hx]))
    have := h a (by simp)
    simp only [List.map_cons, List.sum_cons]
    omega

theorem tot_mono {ts ts' : OSet} (h : ∀ s ∈ strings ts, s ∈ strings ts') (hl : ts'.literal = ts.literal)
    (xs : List Bytes) : tot ts' xs ≤ tot ts xs :=
  sum_le_map _ _ _ (fun x _ => leastCost_mono h hl x)

theorem tot_perm {ts ts' : OSet} (h : (strings ts).Perm (strings ts')) (hl : ts'.literal = ts.literal)
    (xs : List Bytes) : tot ts' xs = tot ts xs :=
  Nat.le_antisymm (tot_mono (fun s hs => h.mem_iff.1 hs) hl xs) (tot_mono (fun s hs => h.mem_iff.2 hs) hl.symm xs)

/-! ### Pieces of a cheapest way -/

theorem literalCost_two (le : LiteralEncoding) : 2 ≤ le.literalCost := by cases le <;> decide

theorem spells_inv {ts : OSet} {p : Piece} {ps : List Piece} {x : Bytes} (h : Spells ts (p :: ps) x) :
    ∃ s y, x = s ++ y ∧ text ts p = some s ∧ Spells ts ps y := by
  cases h with
  | cons hp h => exact ⟨_, _, rfl, hp, h⟩

theorem spells_append_inv {ts : OSet} {ps qs : List Piece} {x : Bytes} (h : Spells ts (ps ++ qs) x) :
    ∃ y z, x = y ++ z ∧ Spells ts ps y ∧ Spells ts qs z := by
  induction ps generalizing x with
  | nil => exact ⟨[], x, rfl, .nil, h⟩
  | cons p ps ih =>
    obtain ⟨s, y, rfl, h1, h2⟩ := spells_inv h
    obtain ⟨u, v, rfl, h3, h4⟩ := ih h2
    exact ⟨s ++ u, v, by simp, .cons h1 h3, h4⟩

/-- A literal in a cheapest way is not a token. -/
theorem cheapest_lit {ts : OSet} {x : Bytes} {ps : List Piece} (h : Cheapest ts x ps) {b : UInt8}
    (hb : Piece.lit b ∈ ps) : [b] ∉ strings ts ∧ b ∈ x := by
  obtain ⟨as, bs, rfl⟩ := List.append_of_mem hb
  obtain ⟨y, z, rfl, h1, h2⟩ := spells_append_inv h.spells
  obtain ⟨s, w, rfl, h3, h4⟩ := spells_inv h2
  simp only [text, Option.some.injEq] at h3
  subst h3
  refine ⟨fun hm => ?_, by simp⟩
  obtain ⟨i, hi⟩ := mem_text hm
  have := h.least (as ++ .tok i :: bs) (spells_append h1 (.cons hi h4))
  have := literalCost_two ts.literal
  simp only [cost_append, cost] at *
  omega

theorem mem_neighbours {ps : List Piece} {i j : Nat} (h : (i, j) ∈ neighbours ps) :
    ∃ as bs, ps = as ++ .tok i :: .tok j :: bs := by
  induction ps with
  | nil => rw [neighbours] at h; cases h
  | cons p ps ih =>
    cases ps with
    | nil => rw [neighbours_single] at h; cases h
    | cons q ps =>
      rw [neighbours_cons] at h
      rcases List.mem_append.1 h with h | h
      · cases p <;> cases q <;> simp only [pairOf, List.mem_singleton, List.not_mem_nil] at h
        obtain ⟨rfl, rfl⟩ := Prod.mk.inj h
        exact ⟨[], ps, rfl⟩
      · obtain ⟨as, bs, e⟩ := ih h
        exact ⟨p :: as, bs, by rw [e]; rfl⟩

/-- The text of two neighbours in a cheapest way is not a token. -/
theorem cheapest_pair {ts : OSet} {x : Bytes} {ps : List Piece} (h : Cheapest ts x ps) {i j : Nat}
    (hb : (i, j) ∈ neighbours ps) : ∃ s t, text ts (.tok i) = some s ∧ text ts (.tok j) = some t ∧
      s ++ t ∉ strings ts ∧ (s ++ t) <:+: x := by
  obtain ⟨as, bs, rfl⟩ := mem_neighbours hb
  obtain ⟨y, z, rfl, h1, h2⟩ := spells_append_inv h.spells
  obtain ⟨s, w, rfl, h3, h4⟩ := spells_inv h2
  obtain ⟨t, v, rfl, h5, h6⟩ := spells_inv h4
  refine ⟨s, t, h3, h5, fun hm => ?_, ⟨y, v, by simp⟩⟩
  obtain ⟨k, hk⟩ := mem_text hm
  have hsp := spells_append h1 (Spells.cons hk h6)
  have := h.least (as ++ .tok k :: bs) (by simpa using hsp)
  simp only [cost_append, cost] at *
  omega

/-- Without literals and neighbours there is one token at most. -/
theorem one_token {ts : OSet} {x : Bytes} {ps : List Piece} (h : Spells ts ps x) (hx : x ≠ [])
    (hl : ∀ b, Piece.lit b ∉ ps) (hn : neighbours ps = []) : x ∈ strings ts := by
  cases ps with
  | nil => cases h; exact absurd rfl hx
  | cons p ps =>
    cases p with
    | lit b => exact absurd (List.mem_cons_self) (hl b)
    | tok i =>
      obtain ⟨s, y, rfl, h1, h2⟩ := spells_inv h
      cases ps with
      | nil => cases h2; rw [List.append_nil]; exact text_mem h1
      | cons q ps =>
        cases q with
        | lit b => exact absurd (List.mem_cons_of_mem _ List.mem_cons_self) (hl b)
        | tok j => rw [neighbours_cons] at hn; simp [pairOf] at hn

/-- A text that is a token is written with one token. -/
theorem one_piece {ts : OSet} (hne : ∀ s ∈ strings ts, s ≠ []) {x : Bytes} {ps : List Piece} (h : Cheapest ts x ps)
    (hx : x ∈ strings ts) : ∃ i, ps = [.tok i] := by
  obtain ⟨k, hk⟩ := mem_text hx
  have h1 := h.least [.tok k] (by simpa using Spells.cons hk .nil)
  have := literalCost_two ts.literal
  simp only [cost] at h1
  cases ps with
  | nil => cases h.spells; exact absurd rfl (hne _ hx)
  | cons p ps =>
    cases p with
    | lit b => simp only [cost] at h1; omega
    | tok i =>
      cases ps with
      | nil => exact ⟨i, rfl⟩
      | cons q ps => cases q <;> simp only [cost] at h1 <;> omega

/-! ### Fresh statistics -/

/-- The statistics of some cheapest way to write each text. -/
def Fresh (ts : OSet) (xs : List Bytes) (pairs : Bool) (st : OStats) : Prop :=
  ∃ f : Bytes → List Piece, (∀ x, Cheapest ts x (f x)) ∧ Tally ts pairs f st xs ∧ ∀ x, Longest ts (f x)

theorem fresh_of_file {ts : OSet} (h : SetOK ts) {pairs : Bool} (hbig : pairs = true → ts.tokens.length ≤ 65536)
    {xs : List Bytes} (hne : ∀ x ∈ xs, x ≠ []) {n : Nat} {r : R OStats} (hr : TokenizeFile ts xs pairs n r) :
    ∃ st, r = .ok st ∧ Fresh ts xs pairs st := by
  obtain ⟨tk, h1, h2⟩ := tokenizer_ok h
  obtain ⟨st, h3, h4⟩ := file_ok h1 h2 hbig hne hr
  exact ⟨st, h3, seg h2 hbig, seg_cheapest h2 hbig, h4, seg_longest h2 hbig⟩

theorem file_exists {ts : OSet} (h : SetOK ts) {pairs : Bool} (hbig : pairs = true → ts.tokens.length ≤ 65536)
    {xs : List Bytes} (hne : ∀ x ∈ xs, x ≠ []) {n : Nat} (hn : 0 < n) :
    ∃ st, TokenizeFile ts xs pairs n (.ok st) := by
  obtain ⟨tk, h1, h2⟩ := tokenizer_ok h
  have hfl : (xs :: List.replicate (n - 1) ([] : List Bytes)).flatten = xs := by
    rw [List.flatten_cons]
    have : ∀ m, (List.replicate m ([] : List Bytes)).flatten = [] := by
      intro m
      induction m with
      | zero => rfl
      | succ m ih => rw [List.replicate_succ, List.flatten_cons, ih]; rfl
    rw [this, List.append_nil]
  obtain ⟨results, e1, e2⟩ := tally_shares h2 hbig (xs :: List.replicate (n - 1) []) (by rw [hfl]; exact hne)
  have hrun := TokenizeFile.run (nthreads := n) h1 (by
    rw [List.length_cons, List.length_replicate]; omega) (List.Perm.of_eq hfl) e1 (List.Perm.refl _)
  obtain ⟨st, e5, -⟩ := file_ok h1 h2 hbig hne hrun
  rw [e5] at hrun
  exact ⟨st, hrun⟩

theorem fresh_cost {ts : OSet} {xs : List Bytes} {pairs : Bool} {st : OStats} (h : Fresh ts xs pairs st) :
    st.cost = tot ts xs := by
  obtain ⟨f, h1, h2, -⟩ := h
  rw [OStats.cost, h2.lc, h2.total, tot]
  congr 1
  exact List.map_congr_left (fun x _ => cheapest_cost (h1 x))

theorem clear_cost (st : OStats) : st.clear.cost = st.cost := rfl

theorem sum_pos {l : List Nat} (h : 0 < l.sum) : ∃ n ∈ l, 0 < n := by
  induction l with
  | nil => simp at h
  | cons a l ih =>
    rw [List.sum_cons] at h
    by_cases ha : 0 < a
    · exact ⟨a, by simp, ha⟩
    · obtain ⟨n, h1, h2⟩ := ih (by omega)
      exact ⟨n, by simp [h1], h2⟩

theorem fresh_right {ts : OSet} {xs : List Bytes} {pairs : Bool} {st : OStats} (h : Fresh ts xs pairs st)
    (hbig : pairs = true → ts.tokens.length ≤ 65536) : Right ts xs pairs st := by
  obtain ⟨f, h1, h2, -⟩ := h
  refine ⟨⟨xs.map f, ?_, tally_counted h2 (fun x => ⟨x, (h1 x).spells⟩) hbig, ?_⟩, h2.tlen⟩
  · rw [List.forall₂_map_right_iff]
    exact List.forall₂_same.2 (fun x _ => h1 x)
  · rw [OStats.cost, h2.lc, h2.total, List.map_map]; rfl

end Tokens.Old
