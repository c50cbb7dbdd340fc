import Verif.Proofs.CharsSets
import Verif.Proofs.CharsCount
import Verif.Props.Chars

/-! The loop of the character-based optimizer. -/

namespace Tokens
namespace Chars
open Spec.Chars Props

/-! ### Pairs -/

/-- Replace the pair by the new token, from left to right. -/
def mergePair (i j n : Nat) : List Piece → List Piece
  | .tok a :: .tok b :: ps =>
    if a = i ∧ b = j then .tok n :: mergePair i j n ps else .tok a :: mergePair i j n (.tok b :: ps)
  | p :: ps => p :: mergePair i j n ps
  | [] => []

/-- How many pairs are replaced. -/
def merges (i j : Nat) : List Piece → Nat
  | .tok a :: .tok b :: ps =>
    if a = i ∧ b = j then 1 + merges i j ps else merges i j (.tok b :: ps)
  | _ :: ps => merges i j ps
  | [] => 0

theorem count_neighbours (i j : Nat) : ∀ ps : List Piece, (neighbours ps).count (i, j) ≤ 2 * merges i j ps
  | [] => by simp [neighbours, merges]
  | .lit c :: ps => by
    have := count_neighbours i j ps
    simpa [neighbours, merges] using this
  | [.tok a] => by simp [neighbours, merges]
  | .tok a :: .lit c :: ps => by
    have := count_neighbours i j (.lit c :: ps)
    simpa [neighbours, merges] using this
  | .tok a :: .tok b :: ps => by
    unfold neighbours merges
    rw [List.count_cons]
    by_cases h : a = i ∧ b = j
    · rw [if_pos h]
      have h1 := count_neighbours i j ps
      have h2 : (neighbours (.tok b :: ps)).count (i, j) ≤ (neighbours ps).count (i, j) + 1 := by
        cases ps with
        | nil => simp [neighbours]
        | cons p ps =>
          cases p with
          | lit c => simp [neighbours]
          | tok d =>
            rw [neighbours, List.count_cons]
            split <;> omega
      split <;> omega
    · rw [if_neg h]
      have h1 := count_neighbours i j (.tok b :: ps)
      have h2 : ((a, b) == (i, j)) = false := by
        rw [beq_eq_false_iff_ne]
        intro e
        simp only [Prod.mk.injEq] at e
        exact h e
      rw [h2]
      simpa using h1

theorem cost_merge (ts : CSet) (i j n : Nat) : ∀ ps : List Piece,
    cost ts (mergePair i j n ps) + merges i j ps = cost ts ps
  | [] => by simp [mergePair, merges]
  | .lit c :: ps => by
    have := cost_merge ts i j n ps
    simp only [mergePair, merges, cost]
    omega
  | [.tok a] => by simp [mergePair, merges]
  | .tok a :: .lit c :: ps => by
    have := cost_merge ts i j n (.lit c :: ps)
    rw [show mergePair i j n (.tok a :: .lit c :: ps) = .tok a :: mergePair i j n (.lit c :: ps) from rfl,
      show merges i j (.tok a :: .lit c :: ps) = merges i j (.lit c :: ps) from rfl, cost]
    rw [show cost ts (.tok a :: .lit c :: ps) = 1 + cost ts (.lit c :: ps) from rfl]
    omega
  | .tok a :: .tok b :: ps => by
    unfold mergePair merges
    by_cases h : a = i ∧ b = j
    · rw [if_pos h, if_pos h]
      have := cost_merge ts i j n ps
      simp only [cost]
      omega
    · rw [if_neg h, if_neg h]
      have := cost_merge ts i j n (.tok b :: ps)
      simp only [cost] at this ⊢
      omega

theorem says_tok {ts : CSet} {i : Nat} {x : Text} (h : Says ts (.tok i) x) {t : CToken} {s : Text}
    (hi : ts.tokens[i]? = some t) (hs : t.text = some s) : x = s := by
  cases h with
  | tok hi' hs' =>
    rw [hi] at hi'
    have := Option.some.inj hi'
    subst this
    rw [hs] at hs'
    exact (Option.some.inj hs').symm

theorem spells_cons_inv {ts : CSet} {p : Piece} {ps : List Piece} {x : Text} (h : Spells ts (p :: ps) x) :
    ∃ s y, x = s ++ y ∧ Says ts p s ∧ Spells ts ps y := by
  cases h with
  | cons h hs => exact ⟨_, _, rfl, h, hs⟩

theorem isToken_addString {ts : CSet} {s x : Text} (h : IsToken (ts.addString s) x) : IsToken ts x ∨ x = s := by
  obtain ⟨t, ht, hx⟩ := h
  rcases List.mem_append.1 ht with ht | ht
  · exact .inl ⟨t, ht, hx⟩
  · have := List.mem_singleton.1 ht
    subst this
    exact .inr (Option.some.inj hx).symm

theorem says_addString {ts : CSet} {s : Text} (hs : s.length ≠ 1) {p : Piece} {x : Text} (h : Says ts p x) :
    Says (ts.addString s) p x := by
  cases h with
  | tok hi ht =>
    refine .tok ?_ ht
    show (ts.tokens ++ [.str s])[_]? = _
    rw [List.getElem?_append_left]
    · exact hi
    · by_contra hge
      rw [List.getElem?_eq_none (by omega)] at hi
      cases hi
  | lit h =>
    refine .lit (fun h' => ?_)
    rcases isToken_addString h' with h' | h'
    · exact h h'
    · rw [← h'] at hs; simp at hs

theorem spells_addString {ts : CSet} {s : Text} (hs : s.length ≠ 1) {ps : List Piece} {x : Text}
    (h : Spells ts ps x) : Spells (ts.addString s) ps x := by
  induction h with
  | nil => exact .nil
  | cons h _ ih => exact .cons (says_addString hs h) ih

theorem spells_mono {ts ts2 : CSet} (hm : ∀ p x, Says ts p x → Says ts2 p x) {ps : List Piece} {x : Text}
    (h : Spells ts ps x) : Spells ts2 ps x := by
  induction h with
  | nil => exact .nil
  | cons h _ ih => exact .cons (hm _ _ h) ih

theorem spells_merge {ts ts2 : CSet} {i j n : Nat} {t t' : CToken} {s s' : Text} (hi : ts.tokens[i]? = some t)
    (hs : t.text = some s) (hj : ts.tokens[j]? = some t') (hs' : t'.text = some s')
    (hm : ∀ p x, Says ts p x → Says ts2 p x) (hn : Says ts2 (.tok n) (s ++ s')) :
    ∀ (ps : List Piece) (x : Text), Spells ts ps x → Spells ts2 (mergePair i j n ps) x
  | [], x, h => by
    cases h; exact .nil
  | .lit c :: ps, x, h => by
    obtain ⟨y, z, rfl, h1, h2⟩ := spells_cons_inv h
    exact .cons (hm _ _ h1) (spells_merge hi hs hj hs' hm hn ps z h2)
  | [.tok a], x, h => by
    exact spells_mono hm h
  | .tok a :: .lit c :: ps, x, h => by
    obtain ⟨y, z, rfl, h1, h2⟩ := spells_cons_inv h
    exact .cons (hm _ _ h1) (spells_merge hi hs hj hs' hm hn (.lit c :: ps) z h2)
  | .tok a :: .tok b :: ps, x, h => by
    obtain ⟨y, z, rfl, h1, h2⟩ := spells_cons_inv h
    unfold mergePair
    by_cases hab : a = i ∧ b = j
    · rw [if_pos hab]
      obtain ⟨rfl, rfl⟩ := hab
      obtain ⟨y', z', rfl, h3, h4⟩ := spells_cons_inv h2
      have e1 := says_tok h1 hi hs
      have e2 := says_tok h3 hj hs'
      subst e1 e2
      rw [← List.append_assoc]
      exact .cons hn (spells_merge hi hs hj hs' hm hn ps z' h4)
    · rw [if_neg hab]
      exact .cons (hm _ _ h1) (spells_merge hi hs hj hs' hm hn (.tok b :: ps) z h2)

theorem says_new (ts : CSet) (s : Text) : Says (ts.addString s) (.tok ts.tokens.length) s := by
  refine .tok (t := .str s) ?_ rfl
  show (ts.tokens ++ [_])[_]? = _
  rw [List.getElem?_append_right (by omega)]
  simp

theorem encLength_addString (ts : CSet) (s : Text) : encLength (ts.addString s) = encLength ts := rfl

theorem cost_addString (ts : CSet) (s : Text) (ps : List Piece) : cost (ts.addString s) ps = cost ts ps := by
  induction ps with
  | nil => rfl
  | cons p ps ih => cases p <;> simp only [cost, ih, encLength_addString]

/-! ### Choosing a pair -/

theorem bestOfPairs_spec (count : Nat → Nat → Nat) (l : List (Nat × Nat)) : ∀ (best : Option (Nat × Nat)) (m : Nat),
    (∀ p, best = some p → count p.1 p.2 = m) →
    (bestOfPairs count l best m = none ↔ best = none ∧ l = []) ∧
    ∀ p, bestOfPairs count l best m = some p → (best = some p ∨ p ∈ l) ∧ (best ≠ none → m ≤ count p.1 p.2) ∧
      ∀ q ∈ l, count q.1 q.2 ≤ count p.1 p.2 := by
  induction l with
  | nil =>
    intro best m hb
    refine ⟨by simp [bestOfPairs], ?_⟩
    intro p hp
    have hp : best = some p := hp
    exact ⟨.inl hp, fun _ => (hb p hp).ge, by simp⟩
  | cons q l ih =>
    intro best m hb
    unfold bestOfPairs
    by_cases h : best.isNone ∨ count q.1 q.2 > m
    · rw [if_pos h]
      obtain ⟨h1, h2⟩ := ih (some q) (count q.1 q.2) (by intro p hp; rw [← Option.some.inj hp])
      refine ⟨by rw [h1]; simp, ?_⟩
      intro p hp
      obtain ⟨g1, g2, g3⟩ := h2 p hp
      refine ⟨?_, ?_, ?_⟩
      · rcases g1 with g1 | g1
        · exact .inr (by rw [← Option.some.inj g1]; simp)
        · exact .inr (List.mem_cons_of_mem _ g1)
      · intro hne
        have := g2 (by simp)
        rcases h with h | h
        · exact absurd (Option.isNone_iff_eq_none.1 h) hne
        · omega
      · intro r hr
        rcases List.mem_cons.1 hr with rfl | hr
        · exact g2 (by simp)
        · exact g3 r hr
    · rw [if_neg h]
      have hs : best ≠ none := fun e => h (.inl (by rw [e]; rfl))
      have hm : count q.1 q.2 ≤ m := by
        by_contra hc
        exact h (.inr (by omega))
      obtain ⟨h1, h2⟩ := ih best m hb
      refine ⟨by rw [h1]; simp [hs], ?_⟩
      intro p hp
      obtain ⟨g1, g2, g3⟩ := h2 p hp
      refine ⟨?_, g2, ?_⟩
      · rcases g1 with g1 | g1
        · exact .inl g1
        · exact .inr (List.mem_cons_of_mem _ g1)
      · intro r hr
        rcases List.mem_cons.1 hr with rfl | hr
        · exact Nat.le_trans hm (g2 hs)
        · exact g3 r hr

theorem neighbours_says {ts : CSet} {i j : Nat} : ∀ (ps : List Piece) (x : Text), Spells ts ps x →
    (i, j) ∈ neighbours ps → (∃ s, Says ts (.tok i) s) ∧ ∃ s, Says ts (.tok j) s
  | [], _, _, h => by simp [neighbours] at h
  | .lit c :: ps, x, hx, h => by
    obtain ⟨y, z, rfl, h1, h2⟩ := spells_cons_inv hx
    exact neighbours_says ps z h2 (by simpa [neighbours] using h)
  | [.tok a], _, _, h => by simp [neighbours] at h
  | .tok a :: .lit c :: ps, x, hx, h => by
    obtain ⟨y, z, rfl, h1, h2⟩ := spells_cons_inv hx
    exact neighbours_says (.lit c :: ps) z h2 (by simpa [neighbours] using h)
  | .tok a :: .tok b :: ps, x, hx, h => by
    obtain ⟨y, z, rfl, h1, h2⟩ := spells_cons_inv hx
    rw [neighbours, List.mem_cons] at h
    rcases h with h | h
    · simp only [Prod.mk.injEq] at h
      obtain ⟨rfl, rfl⟩ := h
      obtain ⟨y', z', rfl, h3, h4⟩ := spells_cons_inv h2
      exact ⟨⟨y, h1⟩, ⟨y', h3⟩⟩
    · exact neighbours_says (.tok b :: ps) z h2 h

theorem says_tok_iff {ts : CSet} {i : Nat} {s : Text} :
    Says ts (.tok i) s ↔ ∃ t, ts.tokens[i]? = some t ∧ t.text = some s := by
  constructor
  · intro h
    cases h with
    | tok h1 h2 => exact ⟨_, h1, h2⟩
  · rintro ⟨t, h1, h2⟩
    exact .tok h1 h2

theorem sum_map_le {α : Type} {f g : α → Nat} {l : List α} (h : ∀ a ∈ l, f a ≤ g a) :
    (l.map f).sum ≤ (l.map g).sum := by
  induction l with
  | nil => simp
  | cons a l ih =>
    simp only [List.map_cons, List.sum_cons]
    have := h a (by simp)
    have := ih (fun b hb => h b (by simp [hb]))
    omega

/-- The statistics of the samples after a pair became a token. -/
theorem total_after {ts : CSet} (hm : Made ts) (hs : ShortEncodings ts) {samples : List Text} {cut : List (List Piece)}
    (hl : cut.length = samples.length) (hc : ∀ p ∈ samples.zip cut, Cheapest ts p.1 p.2) {i j : Nat} {s s' : Text}
    (hi : Says ts (.tok i) s) (hj : Says ts (.tok j) s') (hne : (s ++ s').length ≠ 1) :
    ∃ st' , tokenize (ts.addString (s ++ s')) (samples.map utf8Encode) = .ok st' ∧
      st'.total + (cut.map (merges i j)).sum ≤ (cut.map (cost ts)).sum := by
  obtain ⟨t, h1, h2⟩ := says_tok_iff.1 hi
  obtain ⟨t', h3, h4⟩ := says_tok_iff.1 hj
  obtain ⟨st', cut', g1, g2, g3, g4⟩ := C86_samples (.string (s ++ s') hm) hs samples
  refine ⟨st', g1, ?_⟩
  rw [g4.total]
  have key : ∀ (xs : List Text) (a b : List (List Piece)), a.length = xs.length → b.length = xs.length →
      (∀ p ∈ xs.zip a, Cheapest ts p.1 p.2) → (∀ p ∈ xs.zip b, Cheapest (ts.addString (s ++ s')) p.1 p.2) →
      (b.map (cost (ts.addString (s ++ s')))).sum + (a.map (merges i j)).sum ≤ (a.map (cost ts)).sum := by
    intro xs
    induction xs with
    | nil =>
      intro a b ha hb _ _
      have := List.length_eq_zero_iff.1 ha
      have := List.length_eq_zero_iff.1 hb
      subst_vars
      simp
    | cons x xs ih =>
      intro a b ha hb hca hcb
      cases a with
      | nil => simp at ha
      | cons p a =>
        cases b with
        | nil => simp at hb
        | cons q b =>
          simp only [List.map_cons, List.sum_cons]
          have := ih a b (by simpa using ha) (by simpa using hb) (fun y hy => hca y (by simp [hy]))
            (fun y hy => hcb y (by simp [hy]))
          have hp := hca (x, p) (by simp)
          have hq := hcb (x, q) (by simp)
          have hsp := spells_merge h1 h2 h3 h4 (fun _ _ h => says_addString hne h) (says_new ts (s ++ s')) p x hp.spells
          have hle := hq.least _ hsp
          rw [cost_addString] at hle
          have := cost_merge ts i j ts.tokens.length p
          simp only at hle
          rw [cost_addString] at *
          omega
  exact key samples cut cut' hl g2 hc g3

theorem ownTexts_addString {ts : CSet} (h : OwnTexts ts) {s : Text} (hs : ¬ IsToken ts s) (hne : s ≠ []) :
    OwnTexts (ts.addString s) := by
  have hget : ∀ (i : Nat) (t : CToken), (ts.addString s).tokens[i]? = some t →
      ts.tokens[i]? = some t ∨ (i = ts.tokens.length ∧ t = .str s) := by
    intro i t hi
    have hi : (ts.tokens ++ [.str s])[i]? = some t := hi
    by_cases hlt : i < ts.tokens.length
    · rw [List.getElem?_append_left hlt] at hi
      exact .inl hi
    · rw [List.getElem?_append_right (by omega)] at hi
      have h0 : i - ts.tokens.length = 0 := by
        by_contra hne
        rw [List.getElem?_eq_none (by simp; omega)] at hi
        cases hi
      rw [h0] at hi
      exact .inr ⟨by omega, (Option.some.inj hi).symm⟩
  constructor
  · intro i j t t' x hi hj ht ht'
    rcases hget i t hi with hi | ⟨hi, rfl⟩ <;> rcases hget j t' hj with hj | ⟨hj, rfl⟩
    · exact h.own i j t t' x hi hj ht ht'
    · have := Option.some.inj ht'
      subst this
      exact absurd ⟨t, List.mem_of_getElem? hi, ht⟩ hs
    · have := Option.some.inj ht
      subst this
      exact absurd ⟨t', List.mem_of_getElem? hj, ht'⟩ hs
    · omega
  · intro t ht
    rcases List.mem_append.1 ht with ht | ht
    · exact h.nonempty t ht
    · rw [List.mem_singleton.1 ht]
      intro e
      exact hne (Option.some.inj e)

theorem exists_of_zip {xs : List Text} {a : List (List Piece)} (hl : a.length = xs.length) {ps : List Piece}
    (h : ps ∈ a) : ∃ x, (x, ps) ∈ xs.zip a := by
  induction xs generalizing a with
  | nil => rw [List.length_eq_zero_iff.1 hl] at h; cases h
  | cons x xs ih =>
    cases a with
    | nil => cases h
    | cons p a =>
      rcases List.mem_cons.1 h with rfl | h
      · exact ⟨x, by simp⟩
      · obtain ⟨y, hy⟩ := ih (by simpa using hl) h
        exact ⟨y, by simp [hy]⟩

theorem exists_pos_of_sum {α : Type} {f : α → Nat} {l : List α} (h : 0 < (l.map f).sum) : ∃ a ∈ l, 0 < f a := by
  induction l with
  | nil => simp at h
  | cons a l ih =>
    by_cases ha : 0 < f a
    · exact ⟨a, by simp, ha⟩
    · rw [List.map_cons, List.sum_cons] at h
      obtain ⟨b, hb, hb'⟩ := ih (by omega)
      exact ⟨b, by simp [hb], hb'⟩

/-- One round. -/
theorem round_spec {order : CStats → List (Nat × Nat)} (ho : Traverses order) {samples : List Text} {ts : CSet}
    {st : CStats} (hm : Made ts) (hs : ShortEncodings ts) (hown : OwnTexts ts) (hlen : ts.tokens.length ≤ 65536)
    (hst : tokenize ts (samples.map utf8Encode) = .ok st) :
    (NoPairs st ∧ selectTokenBpe ts st (order st) = .error .unwrapNone) ∨
    (¬ NoPairs st ∧ ∃ s st', selectTokenBpe ts st (order st) = .ok s ∧ Round samples ts st (ts.addString s) st' ∧
      OwnTexts (ts.addString s)) := by
  obtain ⟨st0, cut, h1, h2, h3, h4⟩ := C86_samples hm hs samples
  rw [hst] at h1
  have := Except.ok.inj h1
  subst this
  have ho : ∀ i j, (i, j) ∈ order st ↔ 0 < st.pairs i j := by
    refine ho st ts.tokens.length ?_
    intro i j hpos
    rw [h4.pairs hlen i j] at hpos
    obtain ⟨ps, hps, hpos'⟩ := exists_pos_of_sum hpos
    obtain ⟨x, hx⟩ := exists_of_zip h2 hps
    obtain ⟨⟨s, hsa⟩, ⟨s', hsb⟩⟩ := neighbours_says ps x (h3 _ hx).spells (List.count_pos_iff.1 hpos')
    obtain ⟨t, g1, _⟩ := says_tok_iff.1 hsa
    obtain ⟨t', g2, _⟩ := says_tok_iff.1 hsb
    constructor
    · by_contra hge
      rw [List.getElem?_eq_none (by omega)] at g1
      cases g1
    · by_contra hge
      rw [List.getElem?_eq_none (by omega)] at g2
      cases g2
  obtain ⟨hnone, hsome⟩ := bestOfPairs_spec st.pairs (order st) none 0 (by intro p hp; cases hp)
  unfold selectTokenBpe
  cases hb : bestOfPairs st.pairs (order st) none 0 with
  | none =>
    left
    refine ⟨?_, rfl⟩
    have hempty := (hnone.1 hb).2
    intro i j
    by_contra hne
    have := (ho i j).2 (by omega)
    rw [hempty] at this
    cases this
  | some p =>
    right
    obtain ⟨k1, _, k3⟩ := hsome p hb
    have hmem : p ∈ order st := by
      rcases k1 with k1 | k1
      · cases k1
      · exact k1
    have hpos : 0 < st.pairs p.1 p.2 := (ho p.1 p.2).1 hmem
    refine ⟨fun hno => by rw [hno] at hpos; omega, ?_⟩
    have hcount := h4.pairs hlen p.1 p.2
    rw [hcount] at hpos
    obtain ⟨ps, hps, hpos'⟩ := exists_pos_of_sum hpos
    obtain ⟨x, hx⟩ := exists_of_zip h2 hps
    have hch := h3 _ hx
    simp only at hch
    have hnb : (p.1, p.2) ∈ neighbours ps := List.count_pos_iff.1 hpos'
    obtain ⟨⟨s, hsa⟩, ⟨s', hsb⟩⟩ := neighbours_says ps x hch.spells hnb
    obtain ⟨t, g1, g2⟩ := says_tok_iff.1 hsa
    obtain ⟨t', g3, g4⟩ := says_tok_iff.1 hsb
    have hn1 : s ≠ [] := fun e => hown.nonempty t (List.mem_of_getElem? g1) (by rw [g2, e])
    have hn2 : s' ≠ [] := fun e => hown.nonempty t' (List.mem_of_getElem? g3) (by rw [g4, e])
    have hne : (s ++ s').length ≠ 1 := by
      have := List.length_pos_iff.2 hn1
      have := List.length_pos_iff.2 hn2
      rw [List.length_append]
      omega
    have hnot : ¬ IsToken ts (s ++ s') := by
      rintro ⟨t'', ht'', hx''⟩
      obtain ⟨k, hk, hk'⟩ := List.getElem_of_mem ht''
      have hsay : Says ts (.tok k) (s ++ s') :=
        says_tok_iff.2 ⟨t'', by rw [List.getElem?_eq_getElem hk, hk'], hx''⟩
      have hle := hch.least _ (spells_merge g1 g2 g3 g4 (fun _ _ h => h) hsay ps x hch.spells)
      have hc := cost_merge ts p.1 p.2 k ps
      have := count_neighbours p.1 p.2 ps
      omega
    obtain ⟨st', f1, f2⟩ := total_after hm hs h2 h3 hsa hsb hne
    refine ⟨s ++ s', st', ?_, ⟨⟨p.1, p.2, t, t', s, s', g1, g2, g3, g4, by rw [hcount]; exact hpos, ?_, hnot, rfl, ?_⟩, f1⟩,
      ownTexts_addString hown hnot (by simp [hn1])⟩
    · rw [unwrapR_some, R.ok_bind, getR_of g1, R.ok_bind, g2, unwrapR_some, R.ok_bind, getR_of g3, R.ok_bind, g4,
        unwrapR_some, R.ok_bind]
    · intro a b
      by_cases hab : 0 < st.pairs a b
      · exact k3 (a, b) ((ho a b).2 hab)
      · omega
    · have h5 := sum_map_le (l := cut) (fun ps _ => count_neighbours p.1 p.2 ps)
      rw [← hcount] at h5
      have h6 : (cut.map (fun ps => 2 * merges p.1 p.2 ps)).sum = 2 * (cut.map (merges p.1 p.2)).sum := by
        clear * -
        induction cut with
        | nil => rfl
        | cons a l ih => simp only [List.map_cons, List.sum_cons, ih]; omega
      rw [h6] at h5
      have := h4.total
      omega

/-- The loop. -/
theorem growLoop_spec {order : CStats → List (Nat × Nat)} (ho : Traverses order) {samples : List Text} {n : Nat}
    (hn : n ≤ 65536) : ∀ (fuel : Nat) (ts : CSet) (st : CStats), Made ts → ShortEncodings ts → OwnTexts ts →
    ts.tokens.length ≤ n → n ≤ ts.tokens.length + fuel → tokenize ts (samples.map utf8Encode) = .ok st →
    (∃ ts' st', growLoop order samples n fuel ts st = .ok (ts', st') ∧
      Rounds samples (n - ts.tokens.length) ts st ts' st' ∧ ts'.tokens.length = n) ∨
    (growLoop order samples n fuel ts st = .error .unwrapNone ∧
      ∃ k ts' st', Rounds samples k ts st ts' st' ∧ ts'.tokens.length < n ∧ NoPairs st') := by
  intro fuel
  induction fuel with
  | zero =>
    intro ts st hm hs hown hle hf hst
    left
    refine ⟨ts, st, ?_, ?_, by omega⟩
    · unfold growLoop
      rw [if_neg (by omega)]
    · rw [show n - ts.tokens.length = 0 by omega]
      exact .none ts st
  | succ fuel ih =>
    intro ts st hm hs hown hle hf hst
    unfold growLoop
    by_cases hlt : ts.tokens.length < n
    · rw [if_pos hlt]
      rcases round_spec ho hm hs hown (by omega) hst with ⟨h1, h2⟩ | ⟨_, s, st', h1, h2, h3⟩
      · right
        rw [h2]
        exact ⟨rfl, 0, ts, st, .none ts st, hlt, h1⟩
      · have hl' : (ts.addString s).tokens.length = ts.tokens.length + 1 := by simp [CSet.addString]
        rw [h1, R.ok_bind]
        dsimp only
        rw [h2.stats, R.ok_bind]
        rcases ih (ts.addString s) st' (.string s hm) hs h3 (by omega) (by omega) h2.stats with
          ⟨ts', st'', g1, g2, g3⟩ | ⟨g1, k, ts', st'', g2, g3, g4⟩
        · left
          refine ⟨ts', st'', g1, ?_, g3⟩
          rw [show n - ts.tokens.length = (n - (ts.addString s).tokens.length) + 1 by omega]
          exact .more h2 g2
        · right
          exact ⟨g1, k + 1, ts', st'', .more h2 g2, g3, g4⟩
    · rw [if_neg hlt]
      left
      refine ⟨ts, st, rfl, ?_, by omega⟩
      rw [show n - ts.tokens.length = 0 by omega]
      exact .none ts st

end Chars
end Tokens
