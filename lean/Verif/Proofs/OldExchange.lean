import Verif.Proofs.OldRounds

/-! `remove_and_add_token` and `optimize_bpe` of the first generation's optimizer. -/

set_option linter.unusedVariables false

namespace Tokens.Old
open Tokens Spec.Old

variable {env : Env} {lit : LiteralEncoding}

theorem not_fixed {ts : OSet} (h : SetOK ts) {t : OToken} (ht : t ∈ ts.tokens) (hm : t.isMandatory = false) :
    t.string ∉ fixed ts := by
  intro hf
  obtain ⟨t', ht', e⟩ := List.mem_map.1 hf
  obtain ⟨h1, h2⟩ := List.mem_filter.1 ht'
  have := List.inj_on_of_nodup_map (strings_nodup h) h1 ht e
  rw [this, hm] at h2
  cases h2

theorem fixed_sub {ts : OSet} {s : Bytes} (h : s ∈ fixed ts) : s ∈ strings ts := by
  obtain ⟨t, ht, rfl⟩ := List.mem_map.1 h
  exact List.mem_map_of_mem (List.mem_filter.1 ht).1

/-! ### One round -/

theorem wp_removeLoop (he : Usable env) {ts : OSet} (hg : Good lit ts) (hbig : ts.tokens.length ≤ 65536) :
    ∀ (rest : List Bytes) (tries : Nat) (att : Attempts) {sv : Saved}, rest.Nodup →
    (∀ s ∈ rest, s ∈ strings ts ∧ s ∉ fixed ts) → rest.Pairwise (fun a b => att a ≤ att b) →
    (removeLoop ts (tot ts env.mid) rest tries att).wp env lit sv (fun r sv' => sv' = sv ∧
      ((∃ ts' att' s s' tried, r = .ok (some ts', att') ∧ Good lit ts' ∧ Improved env ts ts' s s' ∧ (tried ++ [s]) <+: rest ∧
          (∀ x ∈ tried, Useless env ts x) ∧ (∀ x, att' x = if x ∈ s :: tried then att x + 1 else att x) ∧
          (512 ≤ tries + tried.length → att s = 0)) ∨
        (∃ att' tried, r = .ok (none, att') ∧ tried <+: rest ∧ (∀ s ∈ tried, Useless env ts s) ∧
          (∀ x, att' x = if x ∈ tried then att x + 1 else att x) ∧ (512 ≤ tries + tried.length ∨ tried = rest) ∧
          ∀ s ∈ rest, 0 < att' s) ∨
        (r = .error .unwrapNone ∧ ∃ s ∈ rest, ∃ ts0, Without ts s ts0 ∧ AllTokens ts0 env.fast))) := by
  intro rest
  induction rest with
  | nil =>
    intro tries att sv _ _ _
    refine ⟨rfl, .inr (.inl ⟨att, [], rfl, List.nil_prefix, by simp, by simp, .inr rfl, by simp⟩)⟩
  | cons s rest ih =>
    intro tries att sv hnd hin hpw
    rw [List.nodup_cons] at hnd
    rw [List.pairwise_cons] at hpw
    rw [removeLoop]
    by_cases hstop : tries ≥ 512 ∧ att s > 0
    · rw [if_pos hstop]
      refine ⟨rfl, .inr (.inl ⟨att, [], rfl, List.nil_prefix, by simp, by simp, .inl (by simp; omega), ?_⟩)⟩
      intro x hx
      rcases List.mem_cons.1 hx with rfl | hx
      · exact hstop.2
      · have := hpw.1 x hx
        have := hstop.2
        omega
    · rw [if_neg hstop]
      obtain ⟨hs1, hs2⟩ := hin s (by simp)
      obtain ⟨ts0, g1, g2, g3, g4, g5⟩ := removeToken_some hg.ok hs1 hs2
      refine wp_lift g1 ?_
      have hw : Without ts s ts0 := ⟨.remove hg.made g1, g2.symm, g4⟩
      have hg0 : Good lit ts0 := ⟨.remove hg.made g1, fun x hx => hg.noZero x (g2.mem_iff.2 (by simp [hx])), g4.trans hg.literal⟩
      have hnext : ∀ {sv' : Saved}, Useless env ts s →
          (removeLoop ts (tot ts env.mid) rest (tries + 1) (att.bump s)).wp env lit sv' (fun r sv'' => sv'' = sv' ∧
            ((∃ ts' att' s1 s' tried, r = .ok (some ts', att') ∧ Good lit ts' ∧ Improved env ts ts' s1 s' ∧
                (tried ++ [s1]) <+: (s :: rest) ∧ (∀ x ∈ tried, Useless env ts x) ∧
                (∀ x, att' x = if x ∈ s1 :: tried then att x + 1 else att x) ∧
                (512 ≤ tries + tried.length → att s1 = 0)) ∨
              (∃ att' tried, r = .ok (none, att') ∧ tried <+: (s :: rest) ∧ (∀ s ∈ tried, Useless env ts s) ∧
                (∀ x, att' x = if x ∈ tried then att x + 1 else att x) ∧
                (512 ≤ tries + tried.length ∨ tried = s :: rest) ∧ ∀ x ∈ (s :: rest), 0 < att' x) ∨
              (r = .error .unwrapNone ∧ ∃ x ∈ (s :: rest), ∃ ts0, Without ts x ts0 ∧ AllTokens ts0 env.fast))) := by
        intro sv' hu
        have hbump : ∀ x ∈ rest, att.bump s x = att x := fun x hx => by
          unfold Attempts.bump
          rw [if_neg]
          rintro rfl
          exact hnd.1 hx
        refine wp_mono _ ?_ (ih (tries + 1) (att.bump s) hnd.2 (fun x hx => hin x (by simp [hx])) ?_)
        · rintro r sv'' ⟨rfl, h⟩
          refine ⟨rfl, ?_⟩
          rcases h with ⟨ts', att', s1, s', tried, e, g, himp, h1, h2, h3, h4⟩ | ⟨att', tried, e, h1, h2, h3, h4, h5⟩ | ⟨e, x, hx, h⟩
          · have hst : s ∉ s1 :: tried := fun h => hnd.1 (h1.subset (by simpa [or_comm] using h))
            refine .inl ⟨ts', att', s1, s', s :: tried, e, g, himp, ?_, ?_, ?_, ?_⟩
            · obtain ⟨t, rfl⟩ := h1
              exact ⟨t, rfl⟩
            · intro x hx
              rcases List.mem_cons.1 hx with rfl | hx
              · exact hu
              · exact h2 x hx
            · intro x
              rw [h3]
              by_cases hxs : x = s
              · subst hxs
                rw [if_neg hst, if_pos (by simp)]
                exact if_pos rfl
              · have e1 : att.bump s x = att x := if_neg hxs
                rw [e1]
                simp only [List.mem_cons, hxs, false_or]
            · intro h
              rw [List.length_cons] at h
              have := h4 (by omega)
              rwa [hbump s1 (h1.subset (by simp))] at this
          · have hst : s ∉ tried := fun h => hnd.1 (h1.subset h)
            refine .inr (.inl ⟨att', s :: tried, e, ?_, ?_, ?_, ?_, ?_⟩)
            · obtain ⟨t, rfl⟩ := h1
              exact ⟨t, rfl⟩
            · intro x hx
              rcases List.mem_cons.1 hx with rfl | hx
              · exact hu
              · exact h2 x hx
            · intro x
              rw [h3]
              by_cases hxs : x = s
              · subst hxs
                rw [if_neg hst, if_pos (by simp)]
                exact if_pos rfl
              · have e1 : att.bump s x = att x := if_neg hxs
                rw [e1]
                simp only [List.mem_cons, hxs, false_or]
            · rcases h4 with h4 | h4
              · left
                simp only [List.length_cons]
                omega
              · right
                rw [h4]
            · intro x hx
              rcases List.mem_cons.1 hx with rfl | hx
              · rw [h3, if_neg hst]
                show 0 < att.bump x x
                unfold Attempts.bump
                rw [if_pos rfl]
                omega
              · exact h5 x hx
          · exact .inr (.inr ⟨e, x, by simp [hx], h⟩)
        · refine hpw.2.imp_of_mem ?_
          intro a b ha hb h
          rw [hbump a ha, hbump b hb]
          exact h
      refine wp_bind' (wp_mono _ ?_ (wp_bestToken he hg0 (by omega) .fast))
      rintro r sv' ⟨rfl, h⟩
      rcases h with ⟨s', rfl, hnew, cut, hcut, hbest⟩ | ⟨rfl, hall⟩
      · have hprop : Proposed env ts s s' := ⟨ts0, cut, hw, hnew, hcut, hbest⟩
        show (if s' = s then _ else _ : Prog _).wp env lit sv' _
        by_cases hss : s' = s
        · rw [if_pos hss]
          exact hnext ⟨s', hprop, .inl hss⟩
        · rw [if_neg hss]
          obtain ⟨ts1, k1, k2, k3, k4, k5⟩ := addToken_new hg0.ok hnew.new
          have hm1 : Made ts1 := .add hg0.made hnew.ne k1
          have hg1 : Good lit ts1 := by
            refine ⟨hm1, ?_, k5.trans hg0.literal⟩
            intro x hx
            rw [k3, List.mem_append, List.mem_singleton] at hx
            rcases hx with hx | rfl
            · exact hg0.noZero x hx
            · exact .inl (cand_zero hnew (env_zero he .fast))
          have hex : Exchanged ts ts1 s s' := by
            refine ⟨hs1, hs2, ?_, ?_, k4.trans g3, k5.trans g4⟩
            · intro hc
              rcases List.mem_cons.1 (g2.mem_iff.1 hc) with h | h
              · exact hss h
              · exact hnew.new h
            · rw [k3]
              have h1 : (s :: (strings ts0 ++ [s'])).Perm (s' :: (s :: strings ts0)) := by
                rw [← List.cons_append]
                exact List.perm_append_singleton _ _
              exact h1.trans (g2.symm.cons s')
          refine wp_lift k1 ?_
          refine ⟨hg1, ?_⟩
          intro st hst
          have hc := cached_cost hg1.literal hst
          show (if st.cost < tot ts env.mid then _ else _ : Prog _).wp env lit sv' _
          by_cases hlt : st.cost < tot ts env.mid
          · rw [if_pos hlt]
            refine ⟨rfl, .inl ⟨ts1, _, s, s', [], rfl, hg1, ⟨hm1, hex, hprop, ?_⟩, ⟨rest, rfl⟩, by simp, ?_, ?_⟩⟩
            · intro c c' h1 h2
              rw [isCost_iff] at h1 h2
              rw [h1, h2, ← show st.cost = tot ts1 env.mid from hc]
              exact hlt
            · intro x
              simp only [List.mem_singleton]
              rfl
            · intro h
              rw [List.length_nil] at h
              by_contra hc
              exact hstop ⟨by omega, by omega⟩
          · rw [if_neg hlt]
            refine hnext ⟨s', hprop, .inr ⟨ts1, hex, ?_⟩⟩
            intro c c' h1 h2
            rw [isCost_iff] at h1 h2
            rw [h1, h2, ← show st.cost = tot ts1 env.mid from hc]
            omega
      · exact ⟨rfl, .inr (.inr ⟨rfl, s, by simp, ts0, hw, hall⟩)⟩

theorem removable_eq {ts : OSet} : ∀ (ids : List Nat), (∀ i ∈ ids, i < ts.tokens.length) →
    removable ts ids = .ok ((ids.filterMap (fun i => ts.tokens[i]?)).filterMap
      (fun t => if t.isMandatory then none else some t.string))
  | [], _ => rfl
  | i :: is, h => by
    have hi := List.getElem?_eq_getElem (h i (by simp))
    rw [removable, getR_of hi, removable_eq is (fun j hj => h j (by simp [hj])), List.filterMap_cons, hi]
    simp only [R.ok_bind, List.filterMap_cons]
    by_cases hm : (ts.tokens[i]'(h i (by simp))).isMandatory = true
    · rw [if_pos hm, if_pos hm]
    · rw [if_neg hm, if_neg hm]

theorem length_le_of_spells {ts : OSet} (hne : ∀ s ∈ strings ts, s ≠ []) {ps : List Piece} {x : Bytes} (h : Spells ts ps x) :
    ps.length ≤ x.length := by
  induction h with
  | nil => exact Nat.le_refl _
  | @cons p ps s x hp _ ih =>
    have : s ≠ [] := by
      cases p with
      | tok i => exact hne s (text_mem hp)
      | lit b => simp only [text, Option.some.injEq] at hp; subst hp; simp
    have := List.length_pos_iff.2 this
    rw [List.length_cons, List.length_append]
    omega

theorem cached_small {c : Which} {ts : OSet} {st : OStats} (h : Cached env lit c ts st) (i : Nat) :
    st.tokenCount.getD i 0 ≤ (env.samples c).flatten.length := by
  obtain ⟨ts0, st0, pairs, h1, h2, ⟨f, h3, h4, -⟩, rfl⟩ := h
  show st0.tokenCount.getD i 0 ≤ _
  rw [h4.tok]
  generalize env.samples c = xs
  clear h4
  induction xs with
  | nil => simp
  | cons x xs ih =>
    rw [List.map_cons, List.sum_cons, List.flatten_cons, List.length_append]
    have a1 : (f x).count (.tok i) ≤ (f x).length := List.count_le_length
    have a2 := length_le_of_spells (strings_ne h1.ok) (h3 x).spells
    omega

/-- What `remove_and_add_token` does. -/
theorem wp_removeAndAdd (he : Usable env) (hsmall : env.mid.flatten.length < 2 ^ 32) {ts : OSet} (hg : Good lit ts)
    (hbig : ts.tokens.length ≤ 65536) (att : Attempts) {sv : Saved} :
    (removeAndAdd ts att).wp env lit sv (fun r sv' => sv' = sv ∧
      ((∃ ts' att' s s' tried, r = .ok (some ts', att') ∧ Good lit ts' ∧ Improved env ts ts' s s' ∧ Found env ts att att' tried s) ∨
        (∃ att' tried, r = .ok (none, att') ∧ GaveUp env ts att att' tried) ∨
        (r = .error .unwrapNone ∧ ∃ s ts0, s ∈ strings ts ∧ s ∉ fixed ts ∧ Without ts s ts0 ∧ AllTokens ts0 env.fast))) := by
  refine ⟨hg, ?_⟩
  intro st hst
  have hlen := cached_length hst
  have hra : rassert (decide (ts.tokens.length ≤ st.tokenCount.length)) = .ok () := rassert_true (by simp [hlen])
  refine wp_lift hra ?_
  intro ids hp hs
  have hlt : ∀ i ∈ ids, i < ts.tokens.length := fun i hi => List.mem_range.1 (hp.mem_iff.1 hi)
  refine wp_lift (removable_eq ids hlt) ?_
  rw [cached_cost hg.literal hst]
  show (removeLoop ts (tot ts env.mid) _ 0 att).wp env lit sv _
  generalize hstrs : ((ids.filterMap (fun i => ts.tokens[i]?)).filterMap
      (fun t => if t.isMandatory then none else some t.string)) = strs
  have hperm : (ids.filterMap (fun i => ts.tokens[i]?)).Perm ts.tokens := by
    have h1 := hp.filterMap (fun i => ts.tokens[i]?)
    have h2 : (List.range ts.tokens.length).filterMap (fun i => ts.tokens[i]?) = ts.tokens := by
      have h3 : ∀ l : List OToken, (List.range l.length).filterMap (fun i => l[i]?) = l := by
        intro l
        induction l with
        | nil => rfl
        | cons a l ih =>
          rw [List.length_cons, List.range_succ_eq_map, List.filterMap_cons]
          simp only [List.getElem?_cons_zero, List.filterMap_map]
          rw [show ((fun i => (a :: l)[i]?) ∘ Nat.succ) = (fun i => l[i]?) from rfl, ih]
      exact h3 _
    rwa [h2] at h1
  have hmem : ∀ s, s ∈ strs ↔ s ∈ strings ts ∧ s ∉ fixed ts := by
    intro s
    rw [← hstrs, List.mem_filterMap]
    constructor
    · rintro ⟨t, ht, h⟩
      rw [hperm.mem_iff] at ht
      by_cases hm : t.isMandatory = true
      · rw [if_pos hm] at h; cases h
      · rw [if_neg hm] at h
        obtain rfl := Option.some.inj h
        exact ⟨List.mem_map_of_mem ht, not_fixed hg.ok ht (by simpa using hm)⟩
    · rintro ⟨h1, h2⟩
      obtain ⟨t, ht, rfl⟩ := List.mem_map.1 h1
      refine ⟨t, hperm.mem_iff.2 ht, ?_⟩
      rw [if_neg]
      intro hm
      exact h2 (List.mem_map_of_mem (List.mem_filter.2 ⟨ht, hm⟩))
  have hsub : strs.Sublist (ids.map (fun i => (strings ts).getD i [])) := by
    rw [← hstrs]
    clear hstrs hmem hperm hs hp
    induction ids with
    | nil => exact List.Sublist.slnil
    | cons i is ih =>
      have hi := List.getElem?_eq_getElem (hlt i (by simp))
      have e : (strings ts).getD i [] = (ts.tokens[i]'(hlt i (by simp))).string := by
        rw [List.getD_eq_getElem?_getD, strings, List.getElem?_map, hi]; rfl
      rw [List.filterMap_cons, hi]
      simp only [List.filterMap_cons, List.map_cons]
      by_cases hm : (ts.tokens[i]'(hlt i (by simp))).isMandatory = true
      · rw [if_pos hm]
        exact (ih (fun j hj => hlt j (by simp [hj]))).cons _
      · rw [if_neg hm]
        simp only []
        rw [e]
        exact (ih (fun j hj => hlt j (by simp [hj]))).cons_cons _
  have hnd : strs.Nodup := by
    refine hsub.nodup ?_
    have h1 : (ids.map (fun i => (strings ts).getD i [])).Perm (strings ts) := by
      have h2 := hp.map (fun i => (strings ts).getD i [])
      have h3 : (List.range ts.tokens.length).map (fun i => (strings ts).getD i []) = strings ts := by
        rw [← length_strings]
        apply List.ext_getElem
        · simp
        · intro i h1 h2
          simp [List.getD_eq_getElem?_getD, List.getElem?_eq_getElem h2]
      rwa [h3] at h2
    exact h1.nodup_iff.2 (strings_nodup hg.ok)
  have hpw : strs.Pairwise (fun a b => att a ≤ att b) := by
    refine List.Pairwise.sublist hsub ?_
    rw [List.pairwise_map]
    refine hs.imp ?_
    intro i j hij
    have hci := cached_small hst i
    have hcj := cached_small hst j
    show att ((ts.tokens.map OToken.string).getD i []) ≤ att ((ts.tokens.map OToken.string).getD j [])
    unfold removalKey at hij
    have hci' : st.tokenCount.getD i 0 ≤ env.mid.flatten.length := hci
    have hcj' : st.tokenCount.getD j 0 ≤ env.mid.flatten.length := hcj
    generalize att ((ts.tokens.map OToken.string).getD i []) = m at hij ⊢
    generalize att ((ts.tokens.map OToken.string).getD j []) = k at hij ⊢
    have : st.tokenCount.getD i 0 + m * 2 ^ 32 ≤ st.tokenCount.getD j 0 + k * 2 ^ 32 := by exact_mod_cast hij
    omega
  have hleast : ∀ {l : List Bytes}, l <+: strs → ∀ s ∈ l, ∀ s' ∈ strings ts, s' ∉ fixed ts → s' ∉ l → att s ≤ att s' := by
    rintro l ⟨l', e⟩ s hs s' h1 h2 h3
    have h4 := (hmem s').2 ⟨h1, h2⟩
    rw [← e] at h4 hpw
    rcases List.mem_append.1 h4 with h | h
    · exact absurd h h3
    · exact (List.pairwise_append.1 hpw).2.2 s hs s' h
  refine wp_mono _ ?_ (wp_removeLoop he hg hbig strs 0 att hnd (fun s hs => (hmem s).1 hs) hpw)
  rintro r sv' ⟨rfl, h⟩
  refine ⟨rfl, ?_⟩
  rcases h with ⟨ts', att', s, s', tried, e, g, himp, h1, h2, h3, h4⟩ | ⟨att', tried, e, h1, h2, h3, h4, h5⟩ | ⟨e, s, hs, ts0, h1, h2⟩
  · have hp1 : (tried ++ [s]).Perm (s :: tried) := List.perm_append_singleton _ _
    refine .inl ⟨ts', att', s, s', tried, e, g, himp, ⟨hp1.nodup_iff.1 (hnd.sublist h1.sublist), ?_, ?_, h3⟩, h2, ?_⟩
    · exact fun x hx => (hmem x).1 (h1.subset (hp1.mem_iff.2 hx))
    · exact fun x hx y a b c => hleast h1 x (hp1.mem_iff.2 hx) y a b (fun h => c (hp1.mem_iff.1 h))
    · exact fun h => h4 (by omega)
  · refine .inr (.inl ⟨att', tried, e, ⟨hnd.sublist h1.sublist, fun s hs => (hmem s).1 (h1.subset hs), hleast h1, h3⟩, h2, ?_, ?_⟩)
    · rcases h4 with h4 | h4
      · exact .inl (by omega)
      · exact .inr (fun s a b => by rw [h4]; exact (hmem s).2 ⟨a, b⟩)
    · exact fun s a b => h5 s ((hmem s).2 ⟨a, b⟩)
  · exact .inr (.inr ⟨e, s, ts0, ((hmem s).1 hs).1, ((hmem s).1 hs).2, h1, h2⟩)

end Tokens.Old
