import Verif.Proofs.OldBest

/-! Rounds of the first generation's optimizer: `add_tokens`, `add_tokens_bpe`. -/

set_option linter.unusedVariables false

namespace Tokens.Old
open Tokens Spec.Old

variable {env : Env} {lit : LiteralEncoding}

/-! ### `add_tokens` -/

theorem range_getD (vals : List (Bytes × Nat)) :
    (List.range vals.length).map (fun i => vals.getD i ([], 0)) = vals := by
  apply List.ext_getElem
  · simp
  · intro i h1 h2
    simp [List.getD_eq_getElem?_getD, List.getElem?_eq_getElem h2]

theorem sorted_vals {vals : List (Bytes × Nat)} {order : List Nat} (hp : order.Perm (List.range vals.length))
    (hs : order.Pairwise (fun a b => -(((vals.getD a ([], 0)).2 : Nat) : Int) ≤ -(((vals.getD b ([], 0)).2 : Nat) : Int))) :
    ∃ sorted : List (Bytes × Nat), order.map (fun i => vals.getD i ([], 0)) = sorted ∧ sorted.Perm vals ∧
      sorted.Pairwise (fun a b => b.2 ≤ a.2) := by
  refine ⟨_, rfl, ?_, ?_⟩
  · have := hp.map (fun i => vals.getD i ([], 0))
    rwa [range_getD] at this
  · rw [List.pairwise_map]
    exact hs.imp (fun h => by omega)

theorem litUses_map (f : Bytes → List Piece) (xs : List Bytes) (b : UInt8) :
    litUses (xs.map f) b = (xs.map (fun x => (f x).count (.lit b))).sum := by
  rw [litUses, List.map_map]; rfl

theorem pairCountIn_all (f : Bytes → List Piece) (xs : List Bytes) (p : Nat × Nat) :
    pairCountIn (xs.map f) p = (allPairs f xs).count p := by
  rw [pairCountIn, List.map_map, allPairs]
  induction xs with
  | nil => rfl
  | cons x xs ih => rw [List.map_cons, List.sum_cons, ih, List.flatMap_cons, List.count_append]; rfl

theorem count_key {f : Bytes → List Piece} {xs : List Bytes} (hlt : ∀ p ∈ allPairs f xs, p.2 < 65536) {p : Nat × Nat}
    (hp : p.2 < 65536) : ((allPairs f xs).map keyOf).count (keyOf p) = (allPairs f xs).count p := by
  generalize allPairs f xs = l at hlt
  induction l with
  | nil => rfl
  | cons q l ih =>
    rw [List.map_cons, List.count_cons, List.count_cons, ih (fun q hq => hlt q (by simp [hq]))]
    congr 1
    have hq := hlt q (by simp)
    by_cases h : q = p
    · simp [h]
    · have : keyOf q ≠ keyOf p := fun e => h (by rw [← unkey_keyOf hq, ← unkey_keyOf hp, e])
      simp [h, this]

/-- The values of `add_tokens`. -/
def valuesOf (ts : OSet) (st : OStats) (es : List (Nat × Nat)) : List (Bytes × Nat) :=
  (litList st).map (fun p => (p.1, p.2 * (ts.literal.literalCost - 1))) ++
    es.map (fun p => (pairText ts (unkey p.1), p.2))

theorem mem_valuesOf {ts : OSet} {xs : List Bytes} {f : Bytes → List Piece} {st : OStats} (hf : ∀ x, Cheapest ts x (f x))
    (h : Tally ts true f st xs) (hbig : ts.tokens.length ≤ 65536) {es : List (Nat × Nat)} (he : Entries st es)
    (s : Bytes) (v : Nat) : (s, v) ∈ valuesOf ts st es ↔ Value ts (xs.map f) s v := by
  have hlt : ∀ p ∈ allPairs f xs, p.2 < 65536 := fun p hp => by have := allPairs_lt hf hp; omega
  unfold valuesOf
  rw [List.mem_append, List.mem_map, List.mem_map]
  constructor
  · rintro (⟨⟨s', c⟩, hp, e⟩ | ⟨⟨k, c⟩, hp, e⟩)
    · obtain ⟨b, rfl, rfl, hc⟩ := mem_litList.1 hp
      obtain ⟨rfl, rfl⟩ := Prod.mk.inj e
      rw [h.lit, ← litUses_map] at hc ⊢
      exact .lit b hc
    · obtain ⟨rfl, rfl⟩ := Prod.mk.inj e
      obtain ⟨h1, h2⟩ := entry_pair hf h hbig he hp
      obtain ⟨rfl, hc⟩ := (he.all k c).1 hp
      have e : st.pairCount k = pairCountIn (xs.map f) (unkey k) := by
        rw [pairCountIn_all, ← count_key hlt (hlt _ h2), pairCount_all h]
        congr 1
        unfold unkey keyOf
        dsimp only
        omega
      dsimp only at h1 h2 ⊢
      rw [e] at h1 ⊢
      exact .pair _ h1
  · rintro (⟨b, hb⟩ | ⟨p, hp⟩)
    · refine .inl ⟨([b], litUses (xs.map f) b), mem_litList.2 ⟨b, rfl, ?_, hb⟩, rfl⟩
      rw [h.lit, litUses_map]
    · have hin : p ∈ allPairs f xs := List.count_pos_iff.1 (by rwa [← pairCountIn_all])
      have e : st.pairCount (keyOf p) = pairCountIn (xs.map f) p := by
        rw [pairCountIn_all, ← count_key hlt (hlt _ hin), pairCount_all h]
      refine .inr ⟨(keyOf p, pairCountIn (xs.map f) p), (he.all _ _).2 ⟨e, hp⟩, ?_⟩
      rw [unkey_keyOf (hlt _ hin)]

theorem value_new {ts : OSet} (hok : SetOK ts) {xs : List Bytes} {f : Bytes → List Piece} {st : OStats}
    (hf : ∀ x, Cheapest ts x (f x)) (h : Tally ts true f st xs) {s : Bytes} {v : Nat} (hv : Value ts (xs.map f) s v) :
    NewText ts xs s := by
  cases hv with
  | lit b hb =>
    refine lit_cand hf h (b := b) ?_
    rwa [h.lit, ← litUses_map]
  | pair p hp =>
    exact pair_cand hok hf (List.count_pos_iff.1 (by rwa [← pairCountIn_all]))

theorem litList_nodup (st : OStats) : ((litList st).map Prod.fst).Nodup := by
  unfold litList
  rw [List.map_map]
  exact List.Nodup.map (fun a b h => by simpa using h) (allBytes_nodup.filter _)

theorem neighbours_split {i j : Nat} {ps : List Piece} (h : (i, j) ∈ neighbours ps) :
    ∃ as bs, ps = as ++ .tok i :: .tok j :: bs := by
  induction ps with
  | nil => cases h
  | cons p ps ih =>
    cases ps with
    | nil => rw [neighbours_single] at h; cases h
    | cons q ps =>
      rw [neighbours_cons, List.mem_append] at h
      rcases h with h | h
      · cases p with
        | lit b => cases h
        | tok a =>
          cases q with
          | lit b => cases h
          | tok b =>
            rw [pairOf, List.mem_singleton] at h
            cases h
            exact ⟨[], ps, rfl⟩
      · obtain ⟨as, bs, e⟩ := ih h
        exact ⟨p :: as, bs, by rw [e]; rfl⟩

/-- With the same text, the first of two neighbours is not the longer one. -/
theorem pair_not_longer {ts : OSet} {x : Bytes} {ps : List Piece} (hc : Cheapest ts x ps)
    (hl : Longest ts ps) {i j : Nat} (h : (i, j) ∈ neighbours ps) {i' j' : Nat} {s t s' t' : Bytes}
    (e1 : text ts (.tok i) = some s) (e2 : text ts (.tok j) = some t) (e3 : text ts (.tok i') = some s')
    (e4 : text ts (.tok j') = some t') (he : s ++ t = s' ++ t') : t'.length ≤ t.length := by
  obtain ⟨as, bs, rfl⟩ := neighbours_split h
  have e5 : as ++ Piece.tok i :: .tok j :: bs = (as ++ [.tok i]) ++ .tok j :: bs := by simp
  have e6 : as ++ Piece.tok i :: .tok j :: bs = ((as ++ [.tok i]) ++ [.tok j]) ++ bs := by simp
  rw [e6] at hc
  obtain ⟨u, hu⟩ := cheapest_left hc
  obtain ⟨v, t0, rfl, h1, h2⟩ := spells_snoc_inv hu.spells
  rw [e2] at h2; cases h2
  obtain ⟨w, s0, rfl, h3, h4⟩ := spells_snoc_inv h1
  rw [e1] at h4; cases h4
  have h5 : Spells ts (as ++ [.tok i'] ++ [.tok j']) (w ++ s ++ t) := by
    have e7 : w ++ s ++ t = w ++ s' ++ t' := by rw [List.append_assoc, he, List.append_assoc]
    rw [e7]
    exact spells_snoc (spells_snoc h3 e3) e4
  refine hl _ _ _ e5 _ hu.spells (as ++ [.tok i']) (.tok j') ⟨h5, ?_⟩ t t' e2 e4
  intro qs hq
  have := hu.least qs hq
  simp only [cost_append, cost] at this ⊢
  omega

/-- Two pairs of neighbours have the same text. -/
def Ambiguous (ts : OSet) (cut : List (List Piece)) : Prop :=
  ∃ p q, p ≠ q ∧ 0 < pairCountIn cut p ∧ 0 < pairCountIn cut q ∧ pairText ts p = pairText ts q

theorem not_ambiguous {ts : OSet} (hok : SetOK ts) {xs : List Bytes} {f : Bytes → List Piece}
    (hf : ∀ x, Cheapest ts x (f x)) (hlo : ∀ x, Longest ts (f x)) : ¬ Ambiguous ts (xs.map f) := by
  rintro ⟨⟨i, j⟩, ⟨i', j'⟩, hne, h1, h2, h3⟩
  have key : ∀ i j, 0 < pairCountIn (xs.map f) (i, j) → ∃ x s t, (i, j) ∈ neighbours (f x) ∧
      text ts (.tok i) = some s ∧ text ts (.tok j) = some t ∧ pairText ts (i, j) = s ++ t := by
    intro i j h
    rw [pairCountIn_all] at h
    obtain ⟨x, hx, h⟩ := List.mem_flatMap.1 (List.count_pos_iff.1 h)
    obtain ⟨s, t, h4, h5, h6, h7⟩ := cheapest_pair (hf x) h
    exact ⟨x, s, t, h, h4, h5, pairText_eq h4 h5⟩
  obtain ⟨x, s, t, g1, g2, g3, g4⟩ := key i j h1
  obtain ⟨x', s', t', k1, k2, k3, k4⟩ := key i' j' h2
  have he : s ++ t = s' ++ t' := by rw [← g4, h3, k4]
  have a1 := pair_not_longer (hf x) (hlo x) g1 g2 g3 k2 k3 he
  have a2 := pair_not_longer (hf x') (hlo x') k1 k2 k3 g2 g3 he.symm
  obtain ⟨rfl, rfl⟩ := List.append_inj' he (by omega)
  apply hne
  rw [text_inj hok g2 k2, text_inj hok g3 k3]

theorem values_dup {ts : OSet} (hok : SetOK ts) {xs : List Bytes} {f : Bytes → List Piece} {st : OStats}
    (hf : ∀ x, Cheapest ts x (f x)) (h : Tally ts true f st xs) (hbig : ts.tokens.length ≤ 65536)
    {es : List (Nat × Nat)} (he : Entries st es) (hd : ¬ ((valuesOf ts st es).map Prod.fst).Nodup) :
    Ambiguous ts (xs.map f) := by
  by_contra hna
  apply hd
  unfold valuesOf
  rw [List.map_append, List.map_map, List.map_map, List.nodup_append']
  have hpos : ∀ p ∈ es, 0 < pairCountIn (xs.map f) (unkey p.1) ∧ 2 ≤ (pairText ts (unkey p.1)).length := by
    intro p hp
    have h2 := (entry_pair hf h hbig he hp).2
    refine ⟨by rw [pairCountIn_all]; exact List.count_pos_iff.2 h2, ?_⟩
    obtain ⟨x, hx, h3⟩ := List.mem_flatMap.1 h2
    obtain ⟨s, t, h4, h5, h6, h7⟩ := cheapest_pair (hf x) (i := (unkey p.1).1) (j := (unkey p.1).2) h3
    rw [show unkey p.1 = ((unkey p.1).1, (unkey p.1).2) from rfl, pairText_eq h4 h5, List.length_append]
    have a1 := List.length_pos_iff.2 (strings_ne hok s (text_mem h4))
    have a2 := List.length_pos_iff.2 (strings_ne hok t (text_mem h5))
    omega
  refine ⟨?_, ?_, ?_⟩
  · have := litList_nodup st
    exact this
  · have hkeys := he.keys
    have hn : es.Nodup := List.Nodup.of_map _ hkeys
    refine List.Nodup.map_on ?_ hn
    intro p hp q hq e
    by_contra hpq
    apply hna
    refine ⟨unkey p.1, unkey q.1, ?_, (hpos p hp).1, (hpos q hq).1, e⟩
    intro e2
    apply hpq
    have e3 : p.1 = q.1 := by
      unfold unkey at e2
      obtain ⟨a, b⟩ := Prod.mk.inj e2
      omega
    exact List.inj_on_of_nodup_map hkeys hp hq e3
  · intro s h1 h2
    obtain ⟨p, hp, rfl⟩ := List.mem_map.1 h1
    obtain ⟨q, hq, e⟩ := List.mem_map.1 h2
    obtain ⟨s, c⟩ := p
    obtain ⟨b, rfl, _, _⟩ := mem_litList.1 hp
    have := (hpos q hq).2
    simp only [Function.comp] at e
    rw [e] at this
    simp at this

theorem chosen {ts : OSet} {cut : List (List Piece)} {vals sorted : List (Bytes × Nat)}
    (hv : ∀ s v, (s, v) ∈ vals ↔ Value ts cut s v) (hp : sorted.Perm vals)
    (hs : sorted.Pairwise (fun a b => b.2 ≤ a.2)) (n : Nat) : Chosen ts cut n ((sorted.map Prod.fst).take n) := by
  rw [← List.map_take]
  have hmem : ∀ s v, Value ts cut s v → (s, v) ∈ sorted := fun s v h => hp.mem_iff.2 ((hv s v).2 h)
  have hsplit : ∀ s v, Value ts cut s v → (s, v) ∈ sorted.take n ∨ (s, v) ∈ sorted.drop n := by
    intro s v h
    have := hmem s v h
    rwa [← List.take_append_drop n sorted, List.mem_append] at this
  refine ⟨?_, ?_, ?_⟩
  · rw [List.length_map, List.length_take]; omega
  · intro s hs'
    obtain ⟨⟨s, v⟩, h1, rfl⟩ := List.mem_map.1 hs'
    refine ⟨v, (hv _ _).1 (hp.mem_iff.1 (List.mem_of_mem_take h1)), ?_⟩
    intro s' v' h' hn
    rcases hsplit s' v' h' with h2 | h2
    · exact absurd (List.mem_map_of_mem (f := Prod.fst) h2) hn
    · rw [← List.take_append_drop n sorted, List.pairwise_append] at hs
      exact hs.2.2 _ h1 _ h2
  · intro hlt s v h
    rw [List.length_map, List.length_take] at hlt
    rcases hsplit s v h with h2 | h2
    · exact List.mem_map_of_mem (f := Prod.fst) h2
    · rw [List.drop_eq_nil_of_le (by omega)] at h2
      cases h2

theorem subR_of' {a b : Nat} (h : b ≤ a) : subR a b = .ok (a - b) := subR_of h

theorem forall2_map {ts : OSet} {f : Bytes → List Piece} (hf : ∀ x, Cheapest ts x (f x)) (xs : List Bytes) :
    List.Forall₂ (Cheapest ts) xs (xs.map f) := by
  rw [List.forall₂_map_right_iff]
  exact List.forall₂_same.2 (fun x _ => hf x)

theorem wp_addTokens (he : Usable env) {ts : OSet} (hg : Good lit ts) (hbig : ts.tokens.length ≤ 65536) (c : Which)
    (n : Nat) {sv : Saved} : (addTokens c ts n).wp env lit sv (fun r sv' => sv' = sv ∧
      ∃ ts' added, r = .ok (ts', added) ∧ Good lit ts' ∧ Added env c ts n ts' added) := by
  refine ⟨hg, hbig, ?_⟩
  intro st hst
  have hex := entries_exist hst
  obtain ⟨f, hf, ht, hlo⟩ := hst
  refine wp_lift (literalValues_eq st ht.llen) ?_
  have hlc : 1 ≤ ts.literal.literalCost := by have := literalCost_two ts.literal; omega
  refine wp_lift (subR_of hlc) ?_
  refine ⟨hex, ?_⟩
  intro es hes
  refine wp_lift (entries_texts hf ht hbig hes) ?_
  intro order hp hs
  change (Prog.lift (addAll ts ((order.map (fun i => ((valuesOf ts st es).getD i ([], 0)).1)).take n)) >>= fun ts' =>
    pure (ts', (order.map (fun i => ((valuesOf ts st es).getD i ([], 0)).1)).take n)).wp env lit sv _
  obtain ⟨sorted, h1, h2, h3⟩ := sorted_vals (vals := valuesOf ts st es) hp hs
  have e : order.map (fun i => ((valuesOf ts st es).getD i ([], 0)).1) = sorted.map Prod.fst := by
    rw [← h1, List.map_map]; rfl
  rw [e]
  have hch := chosen (fun s v => mem_valuesOf hf ht hbig hes s v) h2 h3 n
  have hnew : ∀ s ∈ (sorted.map Prod.fst).take n, NewText ts (env.samples c) s := by
    intro s hs
    obtain ⟨v, hv, _⟩ := hch.worth s hs
    exact value_new hg.ok hf ht hv
  have hnd : ((sorted.map Prod.fst).take n).Nodup := by
    by_contra hnd
    refine not_ambiguous hg.ok hf hlo (values_dup hg.ok hf ht hbig hes ?_)
    exact fun h => hnd (((h2.map Prod.fst).nodup_iff.2 h).sublist (List.take_sublist _ _))
  · obtain ⟨ts', g1, g2, g3, g4, g5⟩ := addAll_new _ hg.made hnd (fun s hs => ⟨(hnew s hs).new, (hnew s hs).ne⟩)
    refine wp_lift g1 ?_
    refine ⟨rfl, ts', _, rfl, ⟨g2, ?_, g5.trans hg.literal⟩, g3, g4, ⟨_, forall2_map hf _, hch⟩, hnew, ?_⟩
    · intro s hs
      rw [g3, List.mem_append] at hs
      rcases hs with hs | hs
      · exact hg.noZero s hs
      · exact .inl (cand_zero (hnew s hs) (env_zero he c))
    · constructor
      · intro e0
        by_cases hn : n = 0
        · exact .inl hn
        · right
          have hs0 : sorted = [] := by
            cases sorted with
            | nil => rfl
            | cons a l =>
              obtain ⟨n, rfl⟩ := Nat.exists_eq_succ_of_ne_zero hn
              simp at e0
          rw [hs0] at h2
          have h4 : valuesOf ts st es = [] := h2.nil_eq.symm
          unfold valuesOf at h4
          rw [List.append_eq_nil_iff, List.map_eq_nil_iff, List.map_eq_nil_iff] at h4
          exact (no_values hg.ok (env_ne he c) hf ht).1 ⟨h4.1, (entries_nil hf ht hbig hes).1 h4.2⟩
      · rintro (rfl | hall)
        · rfl
        · obtain ⟨a1, a2⟩ := (no_values hg.ok (env_ne he c) hf ht).2 hall
          have h4 : valuesOf ts st es = [] := by
            unfold valuesOf
            rw [a1, (entries_nil hf ht hbig hes).2 a2]
            rfl
          rw [h4] at h2
          rw [h2.eq_nil]
          simp

/-- `add_tokens` when every sample is a token. -/
theorem wp_addTokens_all (he : Usable env) {ts : OSet} (hg : Good lit ts) (hbig : ts.tokens.length ≤ 65536) (c : Which)
    (n : Nat) (hall : AllTokens ts (env.samples c)) {sv : Saved} :
    (addTokens c ts n).wp env lit sv (fun r sv' => sv' = sv ∧
      ∃ ts', r = .ok (ts', []) ∧ Good lit ts' ∧ strings ts' = strings ts) := by
  refine wp_mono _ ?_ (wp_addTokens he hg hbig c n)
  rintro r sv' ⟨rfl, h⟩
  refine ⟨rfl, ?_⟩
  obtain ⟨ts1, added, rfl, hg1, ha⟩ := h
  have h0 := ha.some.2 (.inr hall)
  subst h0
  exact ⟨ts1, rfl, hg1, by rw [ha.strings]; simp⟩

/-! ### `add_tokens_bpe` -/

theorem tot_added {ts ts' : OSet} {l : List Bytes} (h : strings ts' = strings ts ++ l) (hl : ts'.literal = ts.literal)
    (xs : List Bytes) : tot ts' xs ≤ tot ts xs :=
  tot_mono (fun s hs => by rw [h]; simp [hs]) hl xs

theorem ntokens_added {ts ts1 : OSet} (hg : Good lit ts) (hg1 : Good lit ts1) {added : List Bytes}
    (h : strings ts1 = strings ts ++ added) : ts1.ntokens = ts.ntokens + added.length := by
  have := congrArg List.length h
  rw [List.length_append, length_strings, length_strings] at this
  unfold OSet.ntokens
  rw [hg1.literal, hg.literal]
  omega

/-- When every sample is a token, nothing is ever added. -/
theorem wp_stuck (he : Usable env) (c : Which) {ntokens block : Nat} (hN : ntokens ≤ 65536) :
    ∀ (fuel : Nat) {ts : OSet} {sv : Saved}, Good lit ts → ts.ntokens < ntokens → AllTokens ts (env.samples c) →
    (addTokensBpe c ntokens block fuel ts).wp env lit sv (fun r sv' => sv' = sv ∧ r = .error .fuel) := by
  intro fuel
  induction fuel with
  | zero =>
    intro ts sv hg hlt hall
    rw [addTokensBpe, if_pos hlt]
    exact ⟨rfl, rfl⟩
  | succ fuel ih =>
    intro ts sv hg hlt hall
    rw [addTokensBpe, if_pos hlt]
    have hlen : ts.tokens.length ≤ ts.ntokens := Nat.le_add_right _ _
    refine wp_bind' (wp_mono _ ?_ (wp_addTokens_all he hg (by omega) c _ hall))
    rintro r sv' ⟨rfl, ts1, rfl, hg1, h1⟩
    refine ⟨hg1, ?_⟩
    intro st _
    change (addTokensBpe c ntokens block fuel ts1).wp env lit sv' _
    have hn1 := ntokens_added hg hg1 (added := []) (by rw [h1]; simp)
    rw [List.length_nil] at hn1
    exact ih hg1 (by omega) (fun x hx => by rw [h1]; exact hall x hx)

theorem wp_addTokensBpe (he : Usable env) (c : Which) {ntokens block : Nat} (hN : ntokens ≤ 65536) (hb : 0 < block) :
    ∀ (fuel : Nat) {ts : OSet} {sv : Saved}, Good lit ts → ntokens - ts.ntokens ≤ fuel →
    (addTokensBpe c ntokens block fuel ts).wp env lit sv (fun r sv' => sv' = sv ∧
      ((∃ ts', r = .ok ts' ∧ Good lit ts' ∧ Grown env c ts ts' ∧ ts'.ntokens = max ntokens ts.ntokens) ∨
        (r = .error .fuel ∧ ∃ ts', Good lit ts' ∧ Grown env c ts ts' ∧ ts'.ntokens < ntokens ∧
          AllTokens ts' (env.samples c)))) := by
  intro fuel
  have hdone : ∀ {ts : OSet} {sv : Saved}, Good lit ts → ¬ ts.ntokens < ntokens → 
      ∃ ts', (Except.ok ts : R OSet) = .ok ts' ∧ Good lit ts' ∧ Grown env c ts ts' ∧ ts'.ntokens = max ntokens ts.ntokens :=
    fun {ts sv} hg hd => ⟨ts, rfl, hg, ⟨⟨[], by simp, by simp⟩, rfl, rfl⟩, by omega⟩
  induction fuel with
  | zero =>
    intro ts sv hg hf
    rw [addTokensBpe, if_neg (by omega)]
    exact ⟨rfl, .inl (hdone (sv := sv) hg (by omega))⟩
  | succ fuel ih =>
    intro ts sv hg hf
    rw [addTokensBpe]
    by_cases hlt : ts.ntokens < ntokens
    · rw [if_pos hlt]
      have hlen : ts.tokens.length ≤ ts.ntokens := Nat.le_add_right _ _
      refine wp_bind' (wp_mono _ ?_ (wp_addTokens he hg (by omega) c _))
      rintro r sv' ⟨rfl, h⟩
      obtain ⟨ts1, added, rfl, hg1, ha⟩ := h
      · refine ⟨hg1, ?_⟩
        intro st _
        change (addTokensBpe c ntokens block fuel ts1).wp env lit sv' _
        obtain ⟨cut, _, hch⟩ := ha.best
        have hn1 := ntokens_added hg hg1 ha.strings
        by_cases h0 : added = []
        · -- nothing could be added
          subst h0
          rw [List.length_nil] at hn1
          have hall : AllTokens ts (env.samples c) := by
            rcases ha.some.1 rfl with h | h
            · omega
            · exact h
          have hall1 : AllTokens ts1 (env.samples c) := fun x hx => by rw [ha.strings]; simp [hall x hx]
          refine wp_mono _ ?_ (wp_stuck he c hN fuel hg1 (by omega) hall1)
          rintro r sv'' ⟨rfl, rfl⟩
          exact ⟨rfl, .inr (⟨rfl, ts1, hg1, ⟨⟨[], ha.strings, by simp⟩, ha.fixed, hg1.literal.trans hg.literal.symm⟩, by omega, hall1⟩)⟩
        · have hpos := List.length_pos_iff.2 h0
          have hle := hch.length
          refine wp_mono _ ?_ (ih hg1 (by omega))
          rintro r sv'' ⟨rfl, h⟩
          refine ⟨rfl, ?_⟩
          have hgr : ∀ {ts'}, Grown env c ts1 ts' → Grown env c ts ts' := by
            rintro ts' ⟨⟨l, e, hl⟩, hfx, hlt⟩
            refine ⟨⟨added ++ l, by rw [e, ha.strings, List.append_assoc], ?_⟩, hfx.trans ha.fixed, hlt.trans (hg1.literal.trans hg.literal.symm)⟩
            intro s hs
            rcases List.mem_append.1 hs with hs | hs
            · exact (ha.new s hs).found
            · exact hl s hs
          rcases h with ⟨ts', e, h1, h2, h3⟩ | ⟨e, ts', h1, h2, h3⟩
          · exact .inl ⟨ts', e, h1, hgr h2, by omega⟩
          · exact .inr ⟨e, ts', h1, hgr h2, h3⟩
    · rw [if_neg hlt]
      exact ⟨rfl, .inl (hdone (sv := sv) hg hlt)⟩

end Tokens.Old
