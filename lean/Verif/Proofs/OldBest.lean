import Verif.Proofs.OldWp

/-! The texts that can become tokens (`add_tokens`, `add_token` of the first generation's optimizer). -/

set_option linter.unusedVariables false

namespace Tokens.Old
open Tokens Spec.Old

variable {env : Env} {lit : LiteralEncoding}

theorem le_list_sum {l : List Nat} {n : Nat} (h : n ∈ l) : n ≤ l.sum := by
  induction l with
  | nil => cases h
  | cons a l ih =>
    rw [List.sum_cons]
    rcases List.mem_cons.1 h with rfl | h
    · omega
    · have := ih h
      omega

/-! ### Literals -/

theorem literalValues_aux (st : OStats) (hl : st.literalCount.length = 256) (bs : List UInt8) (acc : List (Bytes × Nat)) :
    bs.foldlM (fun acc b => do
      let c ← getR st.literalCount b.toNat
      .ok (if c > 0 then acc ++ [([b], c)] else acc)) acc =
    (.ok (acc ++ (bs.filter (fun b => decide (0 < st.literalCount.getD b.toNat 0))).map
      (fun b => ([b], st.literalCount.getD b.toNat 0))) : R _) := by
  induction bs generalizing acc with
  | nil => simp [List.foldlM, pure, Except.pure]
  | cons b bs ih =>
    have hb : st.literalCount[b.toNat]? = some (st.literalCount.getD b.toNat 0) := by
      have hlt : b.toNat < st.literalCount.length := by rw [hl]; exact b.toNat_lt
      rw [List.getD_eq_getElem?_getD, List.getElem?_eq_getElem hlt]
      rfl
    rw [List.foldlM_cons, getR_of hb]
    simp only [R.ok_bind]
    rw [ih]
    by_cases hc : st.literalCount.getD b.toNat 0 > 0
    · rw [if_pos hc, List.filter_cons, if_pos (by simpa using hc)]
      simp
    · rw [if_neg hc, List.filter_cons, if_neg (by simpa using hc)]

/-- The list of literals with their counts. -/
def litList (st : OStats) : List (Bytes × Nat) :=
  (allBytes.filter (fun b => decide (0 < st.literalCount.getD b.toNat 0))).map
    (fun b => ([b], st.literalCount.getD b.toNat 0))

theorem literalValues_eq (st : OStats) (hl : st.literalCount.length = 256) : literalValues st = .ok (litList st) := by
  unfold literalValues
  rw [literalValues_aux st hl]
  rfl

theorem mem_litList {st : OStats} {s : Bytes} {c : Nat} :
    (s, c) ∈ litList st ↔ ∃ b : UInt8, s = [b] ∧ c = st.literalCount.getD b.toNat 0 ∧ 0 < c := by
  unfold litList
  rw [List.mem_map]
  constructor
  · rintro ⟨b, hb, e⟩
    obtain ⟨rfl, rfl⟩ := Prod.mk.inj e
    exact ⟨b, rfl, rfl, by simpa using (List.mem_filter.1 hb).2⟩
  · rintro ⟨b, rfl, rfl, h⟩
    exact ⟨b, List.mem_filter.2 ⟨mem_allBytes b, by simpa using h⟩, rfl⟩

/-! ### Pairs -/

theorem neighbours_text {ts : OSet} {x : Bytes} {ps : List Piece} (h : Spells ts ps x) {i j : Nat}
    (hij : (i, j) ∈ neighbours ps) : i < ts.tokens.length ∧ j < ts.tokens.length := by
  obtain ⟨as, bs, rfl⟩ := mem_neighbours hij
  obtain ⟨y, z, rfl, h1, h2⟩ := spells_append_inv h
  obtain ⟨s, w, rfl, h3, h4⟩ := spells_inv h2
  obtain ⟨t, v, rfl, h5, h6⟩ := spells_inv h4
  simp only [text, Option.map_eq_some_iff] at h3 h5
  obtain ⟨a, ha, _⟩ := h3
  obtain ⟨b, hb, _⟩ := h5
  exact ⟨(List.getElem?_eq_some_iff.1 ha).1, (List.getElem?_eq_some_iff.1 hb).1⟩

/-- All pairs of neighbours. -/
def allPairs (f : Bytes → List Piece) (xs : List Bytes) : List (Nat × Nat) := xs.flatMap (fun x => neighbours (f x))

theorem pairCount_all {ts : OSet} {xs : List Bytes} {f : Bytes → List Piece} {st : OStats} (h : Tally ts true f st xs)
    (k : Nat) : st.pairCount k = ((allPairs f xs).map keyOf).count k := by
  rw [h.pair, if_pos rfl]
  clear h
  unfold allPairs
  induction xs with
  | nil => rfl
  | cons x xs ih =>
    rw [List.map_cons, List.sum_cons, ih, List.flatMap_cons, List.map_append, List.count_append]

theorem allPairs_lt {ts : OSet} {xs : List Bytes} {f : Bytes → List Piece} (hf : ∀ x, Cheapest ts x (f x)) {p : Nat × Nat}
    (hp : p ∈ allPairs f xs) : p.1 < ts.tokens.length ∧ p.2 < ts.tokens.length := by
  obtain ⟨x, _, h⟩ := List.mem_flatMap.1 hp
  exact neighbours_text (hf x).spells h

theorem entries_exist {ts : OSet} {xs : List Bytes} {st : OStats} (h : Fresh ts xs true st) : ∃ l, Entries st l := by
  obtain ⟨f, _, h2, -⟩ := h
  refine ⟨((allPairs f xs).map keyOf).dedup.map (fun k => (k, st.pairCount k)), ?_, ?_⟩
  · rw [List.map_map]
    have : (Prod.fst ∘ fun k => (k, st.pairCount k)) = id := rfl
    rw [this, List.map_id]
    exact List.nodup_dedup _
  · intro k c
    rw [List.mem_map]
    constructor
    · rintro ⟨k', hk, e⟩
      obtain ⟨rfl, rfl⟩ := Prod.mk.inj e
      refine ⟨rfl, ?_⟩
      rw [pairCount_all h2]
      exact List.count_pos_iff.2 (List.mem_dedup.1 hk)
    · rintro ⟨rfl, hc⟩
      rw [pairCount_all h2] at hc
      exact ⟨k, List.mem_dedup.2 (List.count_pos_iff.1 hc), rfl⟩

/-- The two tokens of a key. -/
def unkey (k : Nat) : Nat × Nat := (k / 65536, k % 65536)

theorem unkey_keyOf {p : Nat × Nat} (h : p.2 < 65536) : unkey (keyOf p) = p := by
  obtain ⟨a, b⟩ := p
  simp only [unkey, keyOf, Prod.mk.injEq]
  simp only at h
  omega

theorem pairText_eq {ts : OSet} {i j : Nat} {s t : Bytes} (h1 : text ts (.tok i) = some s) (h2 : text ts (.tok j) = some t) :
    pairText ts (i, j) = s ++ t := by
  simp only [text] at h1 h2
  simp only [pairText, strings, List.getD_eq_getElem?_getD, List.getElem?_map, h1, h2]
  rfl

theorem pairTexts_eq {ts : OSet} (es : List (Nat × Nat)) (h : ∀ p ∈ es, 0 < p.2 ∧ (unkey p.1).1 < ts.tokens.length ∧
    (unkey p.1).2 < ts.tokens.length) : pairTexts ts es = .ok (es.map (fun p => (pairText ts (unkey p.1), p.2))) := by
  induction es with
  | nil => rfl
  | cons p es ih =>
    obtain ⟨k, c⟩ := p
    obtain ⟨h1, h2, h3⟩ := h (k, c) (by simp)
    simp only [unkey] at h2 h3
    have e1 := List.getElem?_eq_getElem h2
    have e2 := List.getElem?_eq_getElem h3
    rw [pairTexts, if_pos h1, getR_of e1, getR_of e2, ih (fun p hp => h p (by simp [hp]))]
    simp only [R.ok_bind, List.map_cons]
    rw [show unkey k = (k / 65536, k % 65536) from rfl,
      pairText_eq (s := (ts.tokens[k / 65536]).string) (t := (ts.tokens[k % 65536]).string) (by rw [text, e1]; rfl)
        (by rw [text, e2]; rfl)]

theorem cand_zero {ts : OSet} {xs : List Bytes} {s : Bytes} (h : NewText ts xs s) (hx : ∀ x ∈ xs, (0 : UInt8) ∉ x) :
    (0 : UInt8) ∉ s := by
  obtain ⟨x, h1, h2⟩ := h.found
  exact fun h0 => hx x h1 (h2.subset h0)

theorem lit_cand {ts : OSet} {xs : List Bytes} {pairs : Bool} {st : OStats} {f : Bytes → List Piece}
    (hf : ∀ x, Cheapest ts x (f x)) (h : Tally ts pairs f st xs) {b : UInt8} (hb : 0 < st.literalCount.getD b.toNat 0) :
    NewText ts xs [b] := by
  rw [h.lit] at hb
  obtain ⟨n, hn, hn0⟩ := sum_pos hb
  obtain ⟨x, hx, rfl⟩ := List.mem_map.1 hn
  obtain ⟨h1, h2⟩ := cheapest_lit (hf x) (List.count_pos_iff.1 hn0)
  refine ⟨h1, by simp, x, hx, ?_⟩
  obtain ⟨as, bs, e⟩ := List.append_of_mem h2
  exact ⟨as, bs, by rw [e]; simp⟩

theorem pair_cand {ts : OSet} (hok : SetOK ts) {xs : List Bytes} {f : Bytes → List Piece}
    (hf : ∀ x, Cheapest ts x (f x)) {p : Nat × Nat} (hp : p ∈ allPairs f xs) :
    NewText ts xs (pairText ts p) := by
  obtain ⟨x, hx, h⟩ := List.mem_flatMap.1 hp
  obtain ⟨i, j⟩ := p
  obtain ⟨s, t, h1, h2, h3, h4⟩ := cheapest_pair (hf x) h
  rw [pairText_eq h1 h2]
  refine ⟨h3, fun e => ?_, x, hx, h4⟩
  exact strings_ne hok s (text_mem h1) (List.append_eq_nil_iff.1 e).1

/-- What is known about the entries of the map of pairs. -/
theorem entry_pair {ts : OSet} {xs : List Bytes} {f : Bytes → List Piece} {st : OStats} (hf : ∀ x, Cheapest ts x (f x))
    (h : Tally ts true f st xs) (hbig : ts.tokens.length ≤ 65536) {es : List (Nat × Nat)} (he : Entries st es)
    {p : Nat × Nat} (hp : p ∈ es) : 0 < p.2 ∧ unkey p.1 ∈ allPairs f xs := by
  obtain ⟨k, c⟩ := p
  obtain ⟨rfl, hc⟩ := (he.all k c).1 hp
  refine ⟨hc, ?_⟩
  rw [pairCount_all h] at hc
  obtain ⟨q, hq, rfl⟩ := List.mem_map.1 (List.count_pos_iff.1 hc)
  have := allPairs_lt hf hq
  rw [unkey_keyOf (by omega)]
  exact hq

theorem entries_texts {ts : OSet} {xs : List Bytes} {f : Bytes → List Piece} {st : OStats} (hf : ∀ x, Cheapest ts x (f x))
    (h : Tally ts true f st xs) (hbig : ts.tokens.length ≤ 65536) {es : List (Nat × Nat)} (he : Entries st es) :
    pairTexts ts es = .ok (es.map (fun p => (pairText ts (unkey p.1), p.2))) := by
  apply pairTexts_eq
  intro p hp
  obtain ⟨h1, h2⟩ := entry_pair hf h hbig he hp
  exact ⟨h1, allPairs_lt hf h2⟩

/-! ### Nothing to add -/

theorem no_values {ts : OSet} (hok : SetOK ts) {xs : List Bytes} (hx : ∀ x ∈ xs, x ≠ []) {f : Bytes → List Piece}
    {st : OStats} (hf : ∀ x, Cheapest ts x (f x)) (h : Tally ts true f st xs) :
    (litList st = [] ∧ allPairs f xs = []) ↔ AllTokens ts xs := by
  constructor
  · rintro ⟨h1, h2⟩ x hxs
    refine one_token (hf x).spells (hx x hxs) ?_ ?_
    · intro b hb
      have hpos : 0 < st.literalCount.getD b.toNat 0 := by
        rw [h.lit]
        have h3 : 0 < (f x).count (.lit b) := List.count_pos_iff.2 hb
        have h4 : (f x).count (.lit b) ≤ (xs.map (fun x => (f x).count (.lit b))).sum :=
          le_list_sum (List.mem_map.2 ⟨x, hxs, rfl⟩)
        omega
      have := mem_litList.2 ⟨b, rfl, rfl, hpos⟩
      rw [h1] at this
      cases this
    · by_contra hne
      obtain ⟨p, hp⟩ := List.exists_mem_of_ne_nil _ hne
      have : p ∈ allPairs f xs := List.mem_flatMap.2 ⟨x, hxs, hp⟩
      rw [h2] at this
      cases this
  · intro hall
    have hone : ∀ x ∈ xs, ∃ i, f x = [.tok i] := fun x hxs => one_piece (strings_ne hok) (hf x) (hall x hxs)
    constructor
    · by_contra hne
      obtain ⟨⟨s, c⟩, hp⟩ := List.exists_mem_of_ne_nil _ hne
      obtain ⟨b, rfl, rfl, hc⟩ := mem_litList.1 hp
      rw [h.lit] at hc
      obtain ⟨n, hn, hn0⟩ := sum_pos hc
      obtain ⟨x, hxs, rfl⟩ := List.mem_map.1 hn
      obtain ⟨i, e⟩ := hone x hxs
      rw [e] at hn0
      simp at hn0
    · by_contra hne
      obtain ⟨p, hp⟩ := List.exists_mem_of_ne_nil _ hne
      obtain ⟨x, hxs, h3⟩ := List.mem_flatMap.1 hp
      obtain ⟨i, e⟩ := hone x hxs
      rw [e, neighbours_single] at h3
      cases h3

theorem entries_nil {ts : OSet} {xs : List Bytes} {f : Bytes → List Piece} {st : OStats} (hf : ∀ x, Cheapest ts x (f x))
    (h : Tally ts true f st xs) (hbig : ts.tokens.length ≤ 65536) {es : List (Nat × Nat)} (he : Entries st es) :
    es = [] ↔ allPairs f xs = [] := by
  constructor
  · intro e
    by_contra hne
    obtain ⟨p, hp⟩ := List.exists_mem_of_ne_nil _ hne
    have hc : 0 < st.pairCount (keyOf p) := by
      rw [pairCount_all h]
      exact List.count_pos_iff.2 (List.mem_map_of_mem hp)
    have := (he.all (keyOf p) _).2 ⟨rfl, hc⟩
    rw [e] at this
    cases this
  · intro e
    by_contra hne
    obtain ⟨p, hp⟩ := List.exists_mem_of_ne_nil _ hne
    have := (entry_pair hf h hbig he hp).2
    rw [e] at this
    cases this

/-! ### The best text -/

/-- The sum of the counts of a text. -/
def totalOf (prs : List (Bytes × Nat)) (s : Bytes) : Nat := ((prs.filter (fun p => decide (p.1 = s))).map Prod.snd).sum

theorem totalOf_cons (s : Bytes) (c : Nat) (prs : List (Bytes × Nat)) (x : Bytes) :
    totalOf ((s, c) :: prs) x = (if s = x then c else 0) + totalOf prs x := by
  unfold totalOf
  rw [List.filter_cons]
  by_cases h : s = x <;> simp [h]

theorem bestLiteral_spec (lits : List (Bytes × Nat)) : ∀ (best : Option Bytes × Nat),
    (∀ p ∈ lits, p.2 ≤ (bestLiteral lits best).2) ∧ best.2 ≤ (bestLiteral lits best).2 ∧
    (bestLiteral lits best = best ∨ ∃ p ∈ lits, bestLiteral lits best = (some p.1, p.2)) := by
  induction lits with
  | nil => intro best; exact ⟨by simp, Nat.le_refl _, .inl rfl⟩
  | cons p lits ih =>
    obtain ⟨s, c⟩ := p
    rintro ⟨added, cost⟩
    rw [bestLiteral]
    obtain ⟨h1, h2, h3⟩ := ih (if c > cost then (some s, c) else (added, cost))
    have hc : c ≤ (if c > cost then (some s, c) else (added, cost)).2 ∧
        cost ≤ (if c > cost then (some s, c) else (added, cost)).2 := by
      by_cases h : c > cost
      · rw [if_pos h]; exact ⟨Nat.le_refl _, Nat.le_of_lt h⟩
      · rw [if_neg h]; exact ⟨Nat.le_of_not_lt h, Nat.le_refl _⟩
    refine ⟨?_, Nat.le_trans hc.2 h2, ?_⟩
    · intro p hp
      rcases List.mem_cons.1 hp with rfl | hp
      · exact Nat.le_trans hc.1 h2
      · exact h1 p hp
    · rcases h3 with h3 | ⟨p, hp, h3⟩
      · by_cases h : c > cost
        · rw [if_pos h] at h3 ⊢
          exact .inr ⟨(s, c), by simp, h3⟩
        · rw [if_neg h] at h3 ⊢
          exact .inl h3
      · exact .inr ⟨p, by simp [hp], h3⟩

theorem bestPair_spec (prs : List (Bytes × Nat)) : ∀ (sums : Bytes → Nat) (best : Option Bytes × Nat),
    (∀ p ∈ prs, sums p.1 + totalOf prs p.1 ≤ (bestPair prs sums best).2) ∧ best.2 ≤ (bestPair prs sums best).2 ∧
    (bestPair prs sums best = best ∨ ∃ p ∈ prs, (bestPair prs sums best).1 = some p.1 ∧
      (bestPair prs sums best).2 ≤ sums p.1 + totalOf prs p.1) := by
  induction prs with
  | nil => intro sums best; exact ⟨by simp, Nat.le_refl _, .inl rfl⟩
  | cons p prs ih =>
    obtain ⟨s, c⟩ := p
    rintro sums ⟨added, cost⟩
    rw [bestPair]
    dsimp only
    obtain ⟨h1, h2, h3⟩ := ih (fun x => if x = s then sums s + c else sums x)
      (if sums s + c > cost then (some s, sums s + c) else (added, cost))
    have hsum : ∀ x, (if x = s then sums s + c else sums x) + totalOf prs x = sums x + totalOf ((s, c) :: prs) x := by
      intro x
      rw [totalOf_cons]
      by_cases h : x = s
      · subst h; simp; omega
      · rw [if_neg h, if_neg (fun e => h e.symm)]; omega
    have hc : sums s + c ≤ (if sums s + c > cost then (some s, sums s + c) else (added, cost)).2 ∧
        cost ≤ (if sums s + c > cost then (some s, sums s + c) else (added, cost)).2 := by
      by_cases h : sums s + c > cost
      · rw [if_pos h]; exact ⟨Nat.le_refl _, Nat.le_of_lt h⟩
      · rw [if_neg h]; exact ⟨Nat.le_of_not_lt h, Nat.le_refl _⟩
    refine ⟨?_, Nat.le_trans hc.2 h2, ?_⟩
    · intro p hp
      rw [← hsum]
      rcases List.mem_cons.1 hp with rfl | hp
      · by_cases hin : ∃ q ∈ prs, q.1 = s
        · obtain ⟨q, hq, e⟩ := hin
          have := h1 q hq
          rwa [e] at this
        · have h0 : totalOf prs s = 0 := by
            unfold totalOf
            rw [List.filter_eq_nil_iff.2 (by
              intro q hq
              simp only [decide_eq_true_eq]
              exact fun e => hin ⟨q, hq, e⟩)]
            rfl
          dsimp only
          rw [if_pos rfl, h0]
          exact Nat.le_trans hc.1 h2
      · exact h1 p hp
    · rcases h3 with h3 | ⟨p, hp, h3, h4⟩
      · by_cases h : sums s + c > cost
        · rw [if_pos h] at h3 ⊢
          refine .inr ⟨(s, c), by simp, by rw [h3], ?_⟩
          rw [h3, ← hsum]
          simp
        · rw [if_neg h] at h3 ⊢
          exact .inl h3
      · refine .inr ⟨p, by simp [hp], h3, ?_⟩
        rw [← hsum]
        exact h4

/-- The sum over the keys of a text is the number of the pairs with that text. -/
theorem sum_keys (g : Nat → Bytes) (s : Bytes) (keys : List Nat) (hn : keys.Nodup) : ∀ (L : List Nat), (∀ k ∈ L, k ∈ keys) →
    ((keys.filter (fun k => decide (g k = s))).map (fun k => L.count k)).sum = L.countP (fun k => decide (g k = s))
  | [], _ => by
    rw [List.countP_nil]
    have : ∀ l : List Nat, (l.map (fun k => ([] : List Nat).count k)).sum = 0 := by
      intro l
      induction l with
      | nil => rfl
      | cons a l ih => rw [List.map_cons, List.sum_cons, ih]; rfl
    exact this _
  | x :: L, h => by
    have ih := sum_keys g s keys hn L (fun k hk => h k (by simp [hk]))
    have h1 : ∀ l : List Nat, l.Nodup → (l.map (fun k => (x :: L).count k)).sum =
        (l.map (fun k => L.count k)).sum + if x ∈ l then 1 else 0 := by
      intro l
      induction l with
      | nil => intro _; rfl
      | cons a l ih2 =>
        intro hnd
        rw [List.nodup_cons] at hnd
        rw [List.map_cons, List.sum_cons, List.map_cons, List.sum_cons, ih2 hnd.2, List.count_cons]
        by_cases ha : x = a
        · subst ha
          simp [hnd.1]
          omega
        · simp only [beq_eq_false_iff_ne.2 ha, List.mem_cons, ha, false_or]
          simp
          omega
    rw [h1 _ (hn.filter _), ih, List.countP_cons]
    congr 1
    simp only [List.mem_filter, decide_eq_true_eq]
    by_cases hg : g x = s
    · simp [hg, h x (by simp)]
    · simp [hg]

theorem totalOf_pairs {ts : OSet} {xs : List Bytes} {f : Bytes → List Piece} {st : OStats} (hf : ∀ x, Cheapest ts x (f x))
    (h : Tally ts true f st xs) (hbig : ts.tokens.length ≤ 65536) {es : List (Nat × Nat)} (he : Entries st es) (s : Bytes) :
    totalOf (es.map (fun p => (pairText ts (unkey p.1), p.2))) s = pairUses ts (xs.map f) s := by
  have e1 : totalOf (es.map (fun p => (pairText ts (unkey p.1), p.2))) s =
      (((es.map Prod.fst).filter (fun k => decide (pairText ts (unkey k) = s))).map
        (fun k => ((allPairs f xs).map keyOf).count k)).sum := by
    unfold totalOf
    rw [List.filter_map, List.filter_map, List.map_map, List.map_map]
    congr 1
    apply List.map_congr_left
    intro p hp
    obtain ⟨k, c⟩ := p
    have := ((he.all k c).1 (List.mem_filter.1 hp).1).1
    show c = _
    rw [← this, pairCount_all h]
    rfl
  rw [e1, sum_keys (fun k => pairText ts (unkey k)) s _ he.keys]
  · rw [List.countP_map, pairUses, allPairs, List.map_map]
    clear e1 he h
    induction xs with
    | nil => rfl
    | cons x xs ih =>
      rw [List.flatMap_cons, List.countP_append, ih, List.map_cons, List.sum_cons]
      congr 1
      apply List.countP_congr
      intro p hp
      have := neighbours_text (hf x).spells hp
      simp only [Function.comp, unkey_keyOf (show p.2 < 65536 by omega)]
  · intro k hk
    have hc := List.count_pos_iff.2 hk
    rw [← pairCount_all h] at hc
    exact List.mem_map.2 ⟨(k, _), (he.all k _).2 ⟨rfl, hc⟩, rfl⟩

theorem wp_bestToken (he : Usable env) {ts : OSet} (hg : Good lit ts) (hbig : ts.tokens.length ≤ 65536) (c : Which)
    {sv : Saved} : (bestToken c ts).wp env lit sv (fun r sv' => sv' = sv ∧
      ((∃ s, r = .ok s ∧ NewText ts (env.samples c) s ∧ ∃ cut, List.Forall₂ (Cheapest ts) (env.samples c) cut ∧ BestText ts cut s) ∨
        (r = .error .unwrapNone ∧ AllTokens ts (env.samples c)))) := by
  refine ⟨hg, hbig, ?_⟩
  intro st hst
  have hex := entries_exist hst
  obtain ⟨f, hf, ht, -⟩ := hst
  refine wp_lift (literalValues_eq st ht.llen) ?_
  refine ⟨hex, ?_⟩
  intro es hes
  refine wp_lift (entries_texts hf ht hbig hes) ?_
  obtain ⟨p1, p2, p3⟩ := bestPair_spec (es.map (fun p => (pairText ts (unkey p.1), p.2))) (fun _ => 0)
    (bestLiteral (litList st) (none, 0))
  obtain ⟨l1, l2, l3⟩ := bestLiteral_spec (litList st) (none, 0)
  generalize hbp : bestPair (es.map (fun p => (pairText ts (unkey p.1), p.2))) (fun _ => 0)
    (bestLiteral (litList st) (none, 0)) = res at *
  generalize hbl : bestLiteral (litList st) (none, 0) = best at *
  have hforall : List.Forall₂ (Cheapest ts) (env.samples c) ((env.samples c).map f) := by
    rw [List.forall₂_map_right_iff]
    exact List.forall₂_same.2 (fun x _ => hf x)
  have hlit : ∀ b : UInt8, litUses ((env.samples c).map f) b = st.literalCount.getD b.toNat 0 := by
    intro b
    rw [ht.lit, litUses, List.map_map]
    rfl
  have hlmax : ∀ b, litUses ((env.samples c).map f) b ≤ res.2 := by
    intro b
    rw [hlit]
    by_cases h0 : 0 < st.literalCount.getD b.toNat 0
    · exact Nat.le_trans (l1 _ (mem_litList.2 ⟨b, rfl, rfl, h0⟩)) p2
    · omega
  have hpmax : ∀ s', pairUses ts ((env.samples c).map f) s' ≤ res.2 := by
    intro s'
    rw [← totalOf_pairs hf ht hbig hes]
    by_cases hin : ∃ q ∈ es.map (fun p => (pairText ts (unkey p.1), p.2)), q.1 = s'
    · obtain ⟨q, hq, rfl⟩ := hin
      simpa using p1 q hq
    · have h0 : totalOf (es.map (fun p => (pairText ts (unkey p.1), p.2))) s' = 0 := by
        unfold totalOf
        rw [List.filter_eq_nil_iff.2 (by
          intro q hq
          simp only [decide_eq_true_eq]
          exact fun e => hin ⟨q, hq, e⟩)]
        rfl
      omega
  rcases p3 with p3 | ⟨q, hq, p3, p4⟩
  · rcases l3 with l3 | ⟨q, hq, l3⟩
    · -- nothing
      rw [p3, l3]
      refine ⟨rfl, .inr ⟨rfl, ?_⟩⟩
      rw [p3, l3] at hlmax hpmax p1
      rw [l3] at l1
      refine (no_values hg.ok (env_ne he c) hf ht).1 ⟨?_, ?_⟩
      · by_contra hne
        obtain ⟨⟨s, n⟩, hp⟩ := List.exists_mem_of_ne_nil _ hne
        obtain ⟨b, _, _, hc⟩ := mem_litList.1 hp
        have h1 : n ≤ 0 := l1 _ hp
        omega
      · rw [← entries_nil hf ht hbig hes]
        by_contra hne
        obtain ⟨p, hp⟩ := List.exists_mem_of_ne_nil _ hne
        have h0 := (entry_pair hf ht hbig hes hp).1
        have h1 := p1 (pairText ts (unkey p.1), p.2) (List.mem_map.2 ⟨p, hp, rfl⟩)
        have h2 : p.2 ≤ totalOf (es.map (fun p => (pairText ts (unkey p.1), p.2))) (pairText ts (unkey p.1)) := by
          unfold totalOf
          exact le_list_sum (List.mem_map.2 ⟨(pairText ts (unkey p.1), p.2),
            List.mem_filter.2 ⟨List.mem_map.2 ⟨p, hp, rfl⟩, by simp⟩, rfl⟩)
        dsimp only at h1
        omega
    · -- a literal
      obtain ⟨s, n⟩ := q
      obtain ⟨b, rfl, rfl, hc⟩ := mem_litList.1 hq
      rw [p3, l3] at hlmax hpmax ⊢
      exact ⟨rfl, .inl ⟨[b], rfl, lit_cand hf ht hc, _, hforall, _, hc, .inr ⟨b, rfl, hlit b⟩, hlmax, hpmax⟩⟩
  · -- a pair
    obtain ⟨p, hp, rfl⟩ := List.mem_map.1 hq
    rw [p3]
    dsimp only at p4 ⊢
    have hcand := pair_cand hg.ok hf (entry_pair hf ht hbig hes hp).2
    have e := totalOf_pairs hf ht hbig hes (pairText ts (unkey p.1))
    have hmax := hpmax (pairText ts (unkey p.1))
    have hpos : 0 < totalOf (es.map (fun p => (pairText ts (unkey p.1), p.2))) (pairText ts (unkey p.1)) := by
      have h0 := (entry_pair hf ht hbig hes hp).1
      have h2 : p.2 ≤ totalOf (es.map (fun p => (pairText ts (unkey p.1), p.2))) (pairText ts (unkey p.1)) := by
        unfold totalOf
        exact le_list_sum (List.mem_map.2 ⟨(pairText ts (unkey p.1), p.2),
          List.mem_filter.2 ⟨List.mem_map.2 ⟨p, hp, rfl⟩, by simp⟩, rfl⟩)
      omega
    refine ⟨rfl, .inl ⟨_, rfl, hcand, _, hforall, res.2, ?_, .inl ?_, hlmax, hpmax⟩⟩
    · omega
    · omega

end Tokens.Old
