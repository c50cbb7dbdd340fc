import Verif.Spec.OldRemove
import Verif.Proofs.OldMay

/-! `_add_and_remove_token` of the first generation's optimizer. -/

set_option linter.unusedVariables false

namespace Tokens.Old
open Tokens Spec.Old

variable {env : Env} {lit : LiteralEncoding}

theorem removable_facts {ts : OSet} (hok : SetOK ts) {ids : List Nat} (hp : ids.Perm (List.range ts.tokens.length)) :
    ∃ strs, removable ts ids = .ok strs ∧ strs.Nodup ∧ (∀ s, s ∈ strs ↔ s ∈ strings ts ∧ s ∉ fixed ts) ∧
      strs.Sublist (ids.map (fun i => (strings ts).getD i [])) := by
  have hlt : ∀ i ∈ ids, i < ts.tokens.length := fun i hi => List.mem_range.1 (hp.mem_iff.1 hi)
  refine ⟨_, removable_eq ids hlt, ?_⟩
  generalize hstrs : ((ids.filterMap (fun i => ts.tokens[i]?)).filterMap
      (fun t => if t.isMandatory then none else some t.string)) = strs
  have hperm : (ids.filterMap (fun i => ts.tokens[i]?)).Perm ts.tokens := by
    have h1 := hp.filterMap (fun i => ts.tokens[i]?)
    have h2 : (List.range ts.tokens.length).filterMap (fun i => ts.tokens[i]?) = ts.tokens := by
      have h3 : ∀ l : List OToken, (List.range l.length).filterMap (fun i => l[i]?) = l := by
        intro l
        induction l with
        | nil => rfl
        | cons a l ih =>
          rw [List.length_cons, List.range_succ_eq_map, List.filterMap_cons]
          simp only [List.getElem?_cons_zero, List.filterMap_map]
          rw [show ((fun i => (a :: l)[i]?) ∘ Nat.succ) = (fun i => l[i]?) from rfl, ih]
      exact h3 _
    rwa [h2] at h1
  have hmem : ∀ s, s ∈ strs ↔ s ∈ strings ts ∧ s ∉ fixed ts := by
    intro s
    rw [← hstrs, List.mem_filterMap]
    constructor
    · rintro ⟨t, ht, h⟩
      rw [hperm.mem_iff] at ht
      by_cases hm : t.isMandatory = true
      · rw [if_pos hm] at h; cases h
      · rw [if_neg hm] at h
        obtain rfl := Option.some.inj h
        exact ⟨List.mem_map_of_mem ht, not_fixed hok ht (by simpa using hm)⟩
    · rintro ⟨h1, h2⟩
      obtain ⟨t, ht, rfl⟩ := List.mem_map.1 h1
      refine ⟨t, hperm.mem_iff.2 ht, ?_⟩
      rw [if_neg]
      intro hm
      exact h2 (List.mem_map_of_mem (List.mem_filter.2 ⟨ht, hm⟩))
  have hsub : strs.Sublist (ids.map (fun i => (strings ts).getD i [])) := by
    rw [← hstrs]
    clear hstrs hmem hperm hp
    induction ids with
    | nil => exact List.Sublist.slnil
    | cons i is ih =>
      have hi := List.getElem?_eq_getElem (hlt i (by simp))
      have e : (strings ts).getD i [] = (ts.tokens[i]'(hlt i (by simp))).string := by
        rw [List.getD_eq_getElem?_getD, strings, List.getElem?_map, hi]; rfl
      rw [List.filterMap_cons, hi]
      simp only [List.filterMap_cons, List.map_cons]
      by_cases hm : (ts.tokens[i]'(hlt i (by simp))).isMandatory = true
      · rw [if_pos hm]
        exact (ih (fun j hj => hlt j (by simp [hj]))).cons _
      · rw [if_neg hm]
        simp only []
        rw [e]
        exact (ih (fun j hj => hlt j (by simp [hj]))).cons_cons _
  refine ⟨?_, hmem, hsub⟩
  refine hsub.nodup ?_
  have h1 : (ids.map (fun i => (strings ts).getD i [])).Perm (strings ts) := by
    have h2 := hp.map (fun i => (strings ts).getD i [])
    have h3 : (List.range ts.tokens.length).map (fun i => (strings ts).getD i []) = strings ts := by
      rw [← length_strings]
      apply List.ext_getElem
      · simp
      · intro i h1 h2
        simp [List.getD_eq_getElem?_getD, List.getElem?_eq_getElem h2]
    rwa [h3] at h2
  exact h1.nodup_iff.2 (strings_nodup hok)

theorem cached_scanned {c : Which} {ts : OSet} {st : OStats} (h : Cached env lit c ts st) :
    st.scannedBytes = (env.samples c).flatten.length := by
  obtain ⟨ts0, st0, pairs, h1, h2, ⟨f, h3, h4, -⟩, rfl⟩ := h
  show st0.scannedBytes = _
  rw [h4.scanned, List.length_flatten]

/-- Once a token was skipped, all others are skipped. -/
theorem wp_lost (he : Usable env) {initial fastBefore limit : Nat} : ∀ (rest : List Bytes) {ts : OSet} {sv : Saved},
    Good lit ts → rest.Nodup → (∀ s ∈ rest, s ∈ strings ts ∧ s ∉ fixed ts) → fastBefore ≤ tot ts env.fast →
    limit < tot ts env.fast - fastBefore →
    (addRemoveLoop initial fastBefore limit rest ts).wp env lit sv (fun r sv' => sv' = sv ∧ r = .ok none) := by
  intro rest
  induction rest with
  | nil => intro ts sv hg _ _ _ _; exact ⟨rfl, rfl⟩
  | cons s rest ih =>
    intro ts sv hg hnd hin hle hlt
    rw [List.nodup_cons] at hnd
    obtain ⟨hs1, hs2⟩ := hin s (by simp)
    obtain ⟨ts0, g1, g2, g3, g4, g5⟩ := removeToken_some hg.ok hs1 hs2
    have hg0 : Good lit ts0 := ⟨.remove hg.made g1, fun x hx => hg.noZero x (g2.mem_iff.2 (by simp [hx])), g4.trans hg.literal⟩
    have hmono : tot ts env.fast ≤ tot ts0 env.fast :=
      tot_mono (fun x hx => g2.mem_iff.2 (by simp [hx])) g4.symm _
    rw [addRemoveLoop]
    refine wp_lift g1 ?_
    refine ⟨hg0, fun st hst => ?_⟩
    have hc : st.cost = tot ts0 env.fast := cached_cost hg0.literal hst
    refine wp_lift (subR_of (a := st.cost) (b := fastBefore) (by omega)) ?_
    rw [if_pos (by omega)]
    refine ih hg0 hnd.2 ?_ (by omega) (by omega)
    intro x hx
    obtain ⟨h1, h2⟩ := hin x (by simp [hx])
    refine ⟨?_, by rw [g3]; exact h2⟩
    rcases List.mem_cons.1 (g2.mem_iff.1 h1) with h | h
    · subst h; exact absurd hx hnd.1
    · exact h

/-- The set without one token costs the same, whichever it is. -/
theorem without_tot {more : OSet} {s : Bytes} {a b : OSet} (ha : Without more s a) (hb : Without more s b) (xs : List Bytes) :
    tot a xs = tot b xs := by
  refine tot_perm ?_ (ha.literal.trans hb.literal.symm) xs
  exact (List.perm_cons s).1 (hb.strings.trans ha.strings.symm)

theorem important_iff {ts more less : OSet} {s : Bytes} (h : Without more s less) : Important env ts more s ↔
    (tot ts env.mid - tot more env.mid) * env.fast.flatten.length * 3 / (env.mid.flatten.length * 2) <
      tot less env.fast - tot more env.fast := by
  constructor
  · rintro ⟨less', h1, h2⟩
    rw [without_tot h h1]
    exact h2 _ _ _ _ (isCost_iff.2 rfl) (isCost_iff.2 rfl) (isCost_iff.2 rfl) (isCost_iff.2 rfl)
  · intro h1
    refine ⟨less, h, ?_⟩
    intro c c' f f' a b d e
    rw [isCost_iff] at a b d e
    subst a b d e
    exact h1

theorem tooDear_iff {ts more less : OSet} {s : Bytes} (h : Without more s less) : TooDear env ts more s ↔
    tot ts env.mid ≤ tot less env.mid := by
  constructor
  · rintro ⟨less', h1, h2⟩
    rw [without_tot h h1]
    exact h2 _ _ (isCost_iff.2 rfl) (isCost_iff.2 rfl)
  · intro h1
    refine ⟨less, h, ?_⟩
    intro c c' a b
    rw [isCost_iff] at a b
    subst a b
    exact h1

theorem wp_addRemoveLoop (he : Usable env) {ts more : OSet} {limit : Nat}
    (hlim : limit = (tot ts env.mid - tot more env.mid) * env.fast.flatten.length * 3 / (env.mid.flatten.length * 2)) :
    ∀ (rest tried : List Bytes) {cur : OSet} {sv : Saved}, Good lit cur → (strings cur).Perm (strings more) →
    fixed cur = fixed more → cur.literal = more.literal → (tried ++ rest).Nodup →
    (∀ s, s ∈ tried ++ rest ↔ s ∈ strings more ∧ s ∉ fixed more) →
    (∀ s ∈ tried, TooDear env ts more s ∧ ¬ Important env ts more s) →
    (addRemoveLoop (tot ts env.mid) (tot more env.fast) limit rest cur).wp env lit sv (fun r sv' => sv' = sv ∧
      ((∃ ts' s, r = .ok (some ts') ∧ Good lit ts' ∧ s ∈ strings more ∧ s ∉ fixed more ∧ Without more s ts' ∧
          fixed ts' = fixed more ∧ tot ts' env.mid < tot ts env.mid ∧ ¬ Important env ts more s) ∨
        (r = .ok none ∧ ∃ tried, InVain env ts more tried ∧ ((∀ s ∈ strings more, s ∉ fixed more → s ∈ tried) ∨
          ∃ s ∈ strings more, s ∉ fixed more ∧ Important env ts more s)))) := by
  intro rest
  induction rest with
  | nil =>
    intro tried cur sv hg hp hf hl hnd hmem ht
    rw [List.append_nil] at hnd hmem
    exact ⟨rfl, .inr ⟨rfl, tried, ⟨hnd, fun s hs => ⟨((hmem s).1 hs).1, ((hmem s).1 hs).2, ht s hs⟩⟩,
      .inl (fun s h1 h2 => (hmem s).2 ⟨h1, h2⟩)⟩⟩
  | cons s rest ih =>
    intro tried cur sv hg hp hf hl hnd hmem ht
    obtain ⟨hs1, hs2⟩ := (hmem s).1 (by simp)
    obtain ⟨ts0, g1, g2, g3, g4, g5⟩ := removeToken_some hg.ok (hp.mem_iff.2 hs1) (by rw [hf]; exact hs2)
    have hg0 : Good lit ts0 := ⟨.remove hg.made g1, fun x hx => hg.noZero x (g2.mem_iff.2 (by simp [hx])), g4.trans hg.literal⟩
    have hw : Without more s ts0 := ⟨hg0.made, g2.symm.trans hp, g4.trans hl⟩
    have hmono : tot more env.fast ≤ tot ts0 env.fast :=
      tot_mono (fun x hx => hw.strings.mem_iff.1 (by simp [hx])) hw.literal.symm _
    rw [addRemoveLoop]
    refine wp_lift g1 ?_
    refine ⟨hg0, fun st hst => ?_⟩
    have hc : st.cost = tot ts0 env.fast := cached_cost hg0.literal hst
    refine wp_lift (subR_of (a := st.cost) (b := tot more env.fast) (by omega)) ?_
    have himp := important_iff (env := env) (ts := ts) hw
    rw [← hlim] at himp
    by_cases hskip : st.cost - tot more env.fast > limit
    · rw [if_pos hskip]
      refine wp_mono _ ?_ (wp_lost he rest hg0 ?_ ?_ hmono (by omega))
      · rintro r sv' ⟨rfl, rfl⟩
        refine ⟨rfl, .inr ⟨rfl, tried, ⟨(List.nodup_append.1 hnd).1, fun x hx => ?_⟩, .inr ⟨s, hs1, hs2, himp.2 (by omega)⟩⟩⟩
        have := (hmem x).1 (by simp [hx])
        exact ⟨this.1, this.2, ht x hx⟩
      · exact ((List.nodup_cons.1 (List.nodup_append.1 hnd).2.1)).2
      · intro x hx
        obtain ⟨h1, h2⟩ := (hmem x).1 (by simp [hx])
        refine ⟨?_, by rw [g3, hf]; exact h2⟩
        rcases List.mem_cons.1 (g2.mem_iff.1 (hp.mem_iff.2 h1)) with h | h
        · subst h
          exact absurd hx (List.nodup_cons.1 (List.nodup_append.1 hnd).2.1).1
        · exact h
    · rw [if_neg hskip]
      have hnot : ¬ Important env ts more s := fun h => hskip (by have := himp.1 h; omega)
      refine ⟨hg0, fun st' hst' => ?_⟩
      have hc' : st'.cost = tot ts0 env.mid := cached_cost hg0.literal hst'
      show (if st'.cost < tot ts env.mid then _ else _ : Prog _).wp env lit sv _
      by_cases hlt : st'.cost < tot ts env.mid
      · rw [if_pos hlt]
        exact ⟨rfl, .inl ⟨ts0, s, rfl, hg0, hs1, hs2, hw, g3.trans hf, by omega, hnot⟩⟩
      · rw [if_neg hlt]
        have hns : s ∉ strings ts0 := by
          have := strings_nodup hg.ok
          rw [g2.nodup_iff, List.nodup_cons] at this
          exact this.1
        obtain ⟨ts1, k1, k2, k3, k4, k5⟩ := addToken_new hg0.ok hns
        have hne : s ≠ [] := strings_ne hg.ok s (hp.mem_iff.2 hs1)
        have hp1 : (strings ts1).Perm (strings cur) := by
          rw [k3]
          exact (List.perm_append_singleton _ _).trans g2.symm
        refine wp_lift k1 ?_
        have hg1 : Good lit ts1 := ⟨.add hg0.made hne k1, fun x hx => hg.noZero x (hp1.mem_iff.1 hx), k5.trans hg0.literal⟩
        have hsplit : tried ++ [s] ++ rest = tried ++ s :: rest := by simp
        refine ih (tried ++ [s]) hg1 (hp1.trans hp) (k4.trans (g3.trans hf)) (k5.trans (g4.trans hl)) ?_ ?_ ?_
        · rw [hsplit]; exact hnd
        · intro x; rw [hsplit]; exact hmem x
        · intro x hx
          rcases List.mem_append.1 hx with h | h
          · exact ht x h
          · rw [List.mem_singleton] at h
            subst h
            exact ⟨(tooDear_iff hw).2 (by omega), hnot⟩

/-- What `_add_and_remove_token` does. -/
theorem wp_addAndRemove (he : Usable env) {ts : OSet} (hg : Good lit ts) (hbig : ts.tokens.length < 65536) (hne : env.mid ≠ [])
    {sv : Saved} : (addAndRemove ts).wp env lit sv (fun r sv' => sv' = sv ∧ ∃ more added, Good lit more ∧
      Added env .mid ts 1 more added ∧
      ((∃ ts' s s', r = .ok (some ts') ∧ Good lit ts' ∧ added = [s'] ∧ Exchanged ts ts' s s' ∧
          tot ts' env.mid < tot ts env.mid ∧ ¬ Important env ts more s) ∨
        (r = .ok none ∧ ∃ tried, InVain env ts more tried ∧ ((∀ s ∈ strings more, s ∉ fixed more → s ∈ tried) ∨
          ∃ s ∈ strings more, s ∉ fixed more ∧ Important env ts more s)))) := by
  refine ⟨hg, fun st hst => ?_⟩
  have hc : st.cost = tot ts env.mid := cached_cost hg.literal hst
  show (addTokens .mid ts 1 >>= _ : Prog _).wp env lit sv _
  refine wp_bind' (wp_mono _ ?_ (wp_addTokens he hg (by omega) .mid 1))
  rintro r sv' ⟨rfl, more, added, rfl, hgm, ha⟩
  have hl : more.literal = ts.literal := hgm.literal.trans hg.literal.symm
  have hle : tot more env.mid ≤ tot ts env.mid := tot_added ha.strings hl env.mid
  refine ⟨hgm, fun st1 hst1 => ?_⟩
  have hc1 : st1.cost = tot more env.mid := cached_cost hgm.literal hst1
  have hb1 : st1.scannedBytes = env.mid.flatten.length := cached_scanned hst1
  refine ⟨hgm, fun st2 hst2 => ?_⟩
  have hc2 : st2.cost = tot more env.fast := cached_cost hgm.literal hst2
  have hb2 : st2.scannedBytes = env.fast.flatten.length := cached_scanned hst2
  have hlen := cached_length hst1
  refine wp_lift (rassert_true (by simp [hlen])) ?_
  intro ids hp hs
  obtain ⟨strs, e1, hnd, hmem, -⟩ := removable_facts hgm.ok hp
  refine wp_lift e1 ?_
  refine wp_lift (subR_of (a := st.cost) (b := st1.cost) (by omega)) ?_
  have hpos : env.mid.flatten.length * 2 ≠ 0 := by
    obtain ⟨x, xs, e⟩ := List.exists_cons_of_ne_nil hne
    have := (he.mid x (by rw [e]; simp)).1
    have := List.length_pos_iff.2 this
    rw [e, List.flatten_cons, List.length_append]
    omega
  have hlim : fastLimit (st.cost - st1.cost) st2.scannedBytes st1.scannedBytes =
      .ok ((tot ts env.mid - tot more env.mid) * env.fast.flatten.length * 3 / (env.mid.flatten.length * 2)) := by
    unfold fastLimit
    rw [hb1, if_neg hpos, hb2, hc, hc1]
  refine wp_lift hlim ?_
  rw [hc, hc2]
  refine wp_mono _ ?_ (wp_addRemoveLoop he rfl strs [] hgm (List.Perm.refl _) rfl rfl hnd hmem (by simp))
  rintro r sv'' ⟨rfl, h⟩
  refine ⟨rfl, more, added, hgm, ha, ?_⟩
  rcases h with ⟨ts', s, e, hg', h1, h2, h3, h4, h5, h6⟩ | h
  · left
    have hadd := ha.best.choose_spec.2.length
    have hnew : ∃ s', added = [s'] := by
      cases hadd' : added with
      | nil =>
        exfalso
        rw [hadd'] at ha
        have hs := ha.strings
        rw [List.append_nil] at hs
        have : tot ts env.mid ≤ tot ts' env.mid :=
          tot_mono (fun x hx => by rw [← hs]; exact h3.strings.mem_iff.1 (by simp [hx])) (hl.symm.trans h3.literal.symm) _
        omega
      | cons a l =>
        rw [hadd'] at hadd
        have : l = [] := List.length_eq_zero_iff.1 (by simp only [List.length_cons] at hadd; omega)
        exact ⟨a, by rw [this]⟩
    obtain ⟨s', rfl⟩ := hnew
    have hss : s ≠ s' := by
      rintro rfl
      have hp' : (strings ts').Perm (strings ts) := by
        refine (List.perm_cons s).1 (h3.strings.trans ?_)
        rw [ha.strings]
        exact List.perm_append_singleton _ _
      have := tot_perm hp' (hl.symm.trans h3.literal.symm) env.mid
      omega
    have hmem' : s ∈ strings ts := by
      rw [ha.strings, List.mem_append, List.mem_singleton] at h1
      exact h1.resolve_right hss
    refine ⟨ts', s, s', e, hg', rfl, ⟨hmem', by rw [← ha.fixed]; exact h2, (ha.new s' (by simp)).new, ?_, h4.trans ha.fixed, h3.literal.trans hl⟩,
      h5, h6⟩
    refine h3.strings.trans ?_
    rw [ha.strings]
    exact List.perm_append_singleton _ _
  · exact .inr h

/-- Without samples there is a division by zero. -/
theorem wp_addAndRemove_empty (he : Usable env) {ts : OSet} (hg : Good lit ts) (hbig : ts.tokens.length < 65536)
    (hne : env.mid = []) {sv : Saved} : (addAndRemove ts).wp env lit sv (fun r sv' => r = .error .panic) := by
  refine ⟨hg, fun st hst => ?_⟩
  have hc : st.cost = tot ts env.mid := cached_cost hg.literal hst
  show (addTokens .mid ts 1 >>= _ : Prog _).wp env lit sv _
  refine wp_bind' (wp_mono _ ?_ (wp_addTokens he hg (by omega) .mid 1))
  rintro r sv' ⟨rfl, more, added, rfl, hgm, ha⟩
  have hl : more.literal = ts.literal := hgm.literal.trans hg.literal.symm
  have hle : tot more env.mid ≤ tot ts env.mid := tot_added ha.strings hl env.mid
  refine ⟨hgm, fun st1 hst1 => ?_⟩
  have hc1 : st1.cost = tot more env.mid := cached_cost hgm.literal hst1
  have hb1 : st1.scannedBytes = env.mid.flatten.length := cached_scanned hst1
  refine ⟨hgm, fun st2 hst2 => ?_⟩
  have hlen := cached_length hst1
  refine wp_lift (rassert_true (by simp [hlen])) ?_
  intro ids hp hs
  obtain ⟨strs, e1, hnd, hmem, -⟩ := removable_facts hgm.ok hp
  refine wp_lift e1 ?_
  refine wp_lift (subR_of (a := st.cost) (b := st1.cost) (by omega)) ?_
  refine wp_lift_error (e := .panic) ?_ rfl
  unfold fastLimit
  rw [hb1, hne]
  rfl

end Tokens.Old
