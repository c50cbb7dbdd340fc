import Verif.Proofs.OldRemove
import Verif.Props.OldOptimizer

/-!
C102: `_add_and_remove_token` of the first generation of the optimizer, which nothing calls.
-/

set_option linter.unusedVariables false

namespace Tokens.Props
open Tokens Old Spec.Old

/-- C102 (exchange).  For all samples, every set, after any calls of the caches: `_add_and_remove_token` ends without a panic if there is a
sample.  One text becomes a token, of those with the highest value (`more` is the set with it).

* If it returns a set, then this is the old one with one token, that is not mandatory, exchanged for the new one; the samples cost less with it, and without the
  old token the fast samples did not cost too much more.
* If it returns none, then tokens were tried in vain, and these were all, or there is one without which the fast samples cost
  too much.

Not proved, because the code violates it: if it returns none, every token was in vain or important (`C102_missed`: after the first
important token no other is tried). -/
theorem C102_exchange_partial {env : Env} (he : Usable env) (hne : env.mid ≠ []) {lit : LiteralEncoding} {calls : List Call}
    (hc : ∀ c ∈ calls, Allowed lit c.set) {ts : OSet} (hts : Allowed lit ts) (hfew : ts.tokens.length < 65536) :
    (∃ r w, Run env (ask calls >>= fun _ => addAndRemove ts) World.start r w) ∧
    ∀ r w, Run env (ask calls >>= fun _ => addAndRemove ts) World.start r w → ∃ more added, Made more ∧
      Added env .mid ts 1 more added ∧
      ((∃ ts' s s', r = .ok (some ts') ∧ Allowed lit ts' ∧ added = [s'] ∧ Exchanged ts ts' s s' ∧
          (∀ c c', IsCost ts env.mid c → IsCost ts' env.mid c' → c' < c) ∧ ¬ Important env ts more s) ∨
        (r = .ok none ∧ ∃ tried, InVain env ts more tried ∧ ((∀ s ∈ strings more, s ∉ fixed more → s ∈ tried) ∨
          ∃ s ∈ strings more, s ∉ fixed more ∧ Important env ts more s))) := by
  have hwp : (ask calls >>= fun _ => addAndRemove ts).wp env lit World.start.saved _ :=
    wp_after hc (wp_addAndRemove he hts.good hfew hne)
  refine ⟨wp_total he _ hwp (worldOk_start env lit), ?_⟩
  intro r w hr
  obtain ⟨-, more, added, hg, ha, h⟩ := (wp_sound he hr hwp (worldOk_start env lit)).1
  refine ⟨more, added, hg.made, ha, ?_⟩
  rcases h with ⟨ts', s, s', e, hg', ea, hex, hlt, himp⟩ | h
  · have := exchanged_length hex
    refine .inl ⟨ts', s, s', e, ⟨hg'.made, hg'.noZero, hg'.literal, by omega⟩, ea, hex, ?_, himp⟩
    intro c c' h1 h2
    rw [isCost_iff.1 h1, isCost_iff.1 h2]
    exact hlt
  · exact .inr h

/-- C102 (no samples).  If there is no sample, every run panics: a division by zero. -/
theorem C102_no_samples {env : Env} (he : Usable env) (hne : env.mid = []) {lit : LiteralEncoding} {calls : List Call}
    (hc : ∀ c ∈ calls, Allowed lit c.set) {ts : OSet} (hts : Allowed lit ts) (hfew : ts.tokens.length < 65536) {r : R (Option OSet)}
    {w : World} (hr : Run env (ask calls >>= fun _ => addAndRemove ts) World.start r w) : r = .error .panic := by
  have hwp : (ask calls >>= fun _ => addAndRemove ts).wp env lit World.start.saved _ :=
    wp_after hc (wp_addAndRemove_empty he hts.good hfew hne)
  exact (wp_sound he hr hwp (worldOk_start env lit)).1

example : ∃ r w, Run { xyxEnv with mid := [] } (ask [] >>= fun _ => addAndRemove ySet) World.start r w ∧ r = .error .panic := by
  have hu : Usable { xyxEnv with mid := [] } := ⟨xyx_usable.slow, by simp, xyx_usable.fast, xyx_usable.threads⟩
  have hwp : (ask [] >>= fun _ => addAndRemove ySet).wp { xyxEnv with mid := [] } .dist8 World.start.saved _ :=
    wp_after (calls := []) (by simp) (wp_addAndRemove_empty hu ySet_allowed.good (by decide) rfl)
  obtain ⟨r, w, hr⟩ := wp_total hu _ hwp (worldOk_start _ _)
  exact ⟨r, w, hr, C102_no_samples hu rfl (by simp) ySet_allowed (by decide) hr⟩

/-! ### What is missed -/

/-- A set with the tokens `u`, `v`, `y`. -/
def uvySet : OSet :=
  { tokens := [{ string := [117], isMandatory := false, suffix := .none },
               { string := [118], isMandatory := false, suffix := .none },
               { string := [121], isMandatory := false, suffix := .none }]
    byString := ((StrMap.insert (fun _ => none) [117] 0).insert [118] 1).insert [121] 2
    literal := .dist8 }

/-- The samples: `abcd`, and for the fast cache `uv`. -/
def missEnv : Env := { slow := [[120]], mid := [[97, 98, 99, 100]], fast := [[117, 118]], nthreads := 1 }

theorem miss_usable : Usable missEnv := ⟨by simp [missEnv], by simp [missEnv], by simp [missEnv], by decide⟩

theorem uvySet_allowed : Allowed .dist8 uvySet := by
  refine ⟨.add (s := [121]) (.add (s := [118]) (.add (s := [117]) (.new (le := .dist8) rfl) (by decide) rfl) (by decide) rfl)
    (by decide) rfl, ?_, rfl, by decide⟩
  intro s hs
  have : s = [117] ∨ s = [118] ∨ s = [121] := by simpa [strings, uvySet] using hs
  rcases this with rfl | rfl | rfl <;> exact .inl (by decide)

theorem uvySet_strings : strings uvySet = [[117], [118], [121]] := rfl

theorem piece_sub {ts : OSet} {ps : List Piece} {x : Bytes} (h : Spells ts ps x) {p : Piece} (hp : p ∈ ps) {s : Bytes}
    (hs : text ts p = some s) : ∀ c ∈ s, c ∈ x := by
  induction h with
  | nil => cases hp
  | @cons q ps s' x hq _ ih =>
    intro c hc
    rcases List.mem_cons.1 hp with rfl | hp
    · rw [hq] at hs
      obtain rfl := Option.some.inj hs
      exact List.mem_append_left _ hc
    · exact List.mem_append_right _ (ih hp c hc)

/-- The token that is added is one of the four bytes of the sample. -/
theorem miss_added {more : OSet} {added : List Bytes} (h : Added missEnv .mid uvySet 1 more added) :
    ∃ b, b ∈ ([97, 98, 99, 100] : Bytes) ∧ strings more = [[117], [118], [121], [b]] := by
  obtain ⟨cut, hc, hch⟩ := h.best
  have hne : added ≠ [] := by
    intro hc
    rcases h.some.1 hc with h | h
    · cases h
    · exact absurd (h [97, 98, 99, 100] (by simp [missEnv, Env.samples])) (by rw [uvySet_strings]; decide)
  obtain ⟨s, l, rfl⟩ := List.exists_cons_of_ne_nil hne
  have hl : l = [] := List.length_eq_zero_iff.1 (by have := hch.length; simp only [List.length_cons] at this; omega)
  subst hl
  obtain ⟨v, hv, -⟩ := hch.worth s (by simp)
  have hcut : ∃ ps, cut = [ps] ∧ Cheapest uvySet [97, 98, 99, 100] ps := by
    change List.Forall₂ (Cheapest uvySet) [[97, 98, 99, 100]] cut at hc
    cases hc with
    | cons h1 h2 => cases h2; exact ⟨_, rfl, h1⟩
  obtain ⟨ps, rfl, hps⟩ := hcut
  cases hv with
  | lit b hb =>
    refine ⟨b, ?_, h.strings⟩
    have : Piece.lit b ∈ ps := by
      unfold litUses at hb
      simp only [List.map_cons, List.map_nil, List.sum_cons, List.sum_nil, Nat.add_zero] at hb
      exact List.count_pos_iff.1 hb
    exact (cheapest_lit hps this).2
  | pair p hp =>
    exfalso
    unfold pairCountIn at hp
    simp only [List.map_cons, List.map_nil, List.sum_cons, List.sum_nil, Nat.add_zero] at hp
    have hm := List.count_pos_iff.1 hp
    have h1 : Piece.tok p.1 ∈ ps := by
      obtain ⟨as, bs, e⟩ := mem_neighbours (i := p.1) (j := p.2) hm
      rw [e]; simp
    obtain ⟨s, w, -, h3, -⟩ : ∃ s w : Bytes, True ∧ text uvySet (.tok p.1) = some s ∧ True := by
      obtain ⟨as, bs, e⟩ := List.append_of_mem h1
      have := hps.spells
      rw [e] at this
      obtain ⟨y, z, -, -, h2⟩ := spells_append_inv this
      obtain ⟨s, w, -, h3, -⟩ := spells_inv h2
      exact ⟨s, w, trivial, h3, trivial⟩
    have h4 := piece_sub hps.spells h1 h3
    have h5 := text_mem h3
    rw [uvySet_strings] at h5
    have : s = [117] ∨ s = [118] ∨ s = [121] := by simpa using h5
    rcases this with rfl | rfl | rfl
    · exact absurd (h4 117 (List.mem_singleton.2 rfl)) (by decide)
    · exact absurd (h4 118 (List.mem_singleton.2 rfl)) (by decide)
    · exact absurd (h4 121 (List.mem_singleton.2 rfl)) (by decide)

theorem sorted_head {key : Nat → Int} {n i : Nat} (hi : i < n) (h : ∀ j, j < n → key i ≤ key j) :
    ∃ l, (i :: l).Perm (List.range n) ∧ (i :: l).Pairwise (fun a b => key a ≤ key b) := by
  obtain ⟨l0, h1, h2⟩ := sorted_exists key n
  have hm : i ∈ l0 := h1.mem_iff.2 (List.mem_range.2 hi)
  refine ⟨l0.erase i, (List.perm_cons_erase hm).symm.trans h1, List.pairwise_cons.2 ⟨?_, h2.sublist List.erase_sublist⟩⟩
  intro j hj
  exact h j (List.mem_range.1 (h1.mem_iff.1 (List.mem_of_mem_erase hj)))

theorem miss_flat {ts : OSet} {l : List UInt8} (h : strings ts = l.map ([·])) : Flat ts := by
  intro s hs
  rw [h] at hs
  obtain ⟨b, -, rfl⟩ := List.mem_map.1 hs
  exact ⟨b, rfl⟩

theorem miss_tot {ts : OSet} {l : List UInt8} (h : (strings ts).Perm (l.map ([·]))) (hl : ts.literal = .dist8) (xs : List Bytes) :
    tot ts xs = (xs.map (fun x => (x.map (fun c => if c ∈ l then 1 else 8)).sum)).sum := by
  have hf : Flat ts := by
    intro s hs
    obtain ⟨b, -, rfl⟩ := List.mem_map.1 (h.mem_iff.1 hs)
    exact ⟨b, rfl⟩
  rw [flat_tot hf]
  congr 1
  apply List.map_congr_left
  intro x _
  congr 1
  apply List.map_congr_left
  intro c _
  unfold byteCost1
  rw [hl]
  have : ([c] ∈ strings ts) ↔ c ∈ l := by
    rw [h.mem_iff]
    simp
  by_cases hc : c ∈ l
  · rw [if_pos hc, if_pos (this.2 hc)]
  · rw [if_neg hc, if_neg (fun h => hc (this.1 h))]
    rfl

/-- There is a run that returns no set. -/
theorem miss_run {sv : Saved} : (addAndRemove uvySet).may missEnv .dist8 sv (fun r _ => r = .ok none) := by
  have hg := uvySet_allowed.good
  refine ⟨hg, fun st hst => ?_⟩
  have hc : st.cost = tot uvySet missEnv.mid := cached_cost hg.literal hst
  show (addTokens .mid uvySet 1 >>= _ : Prog _).may missEnv .dist8 sv _
  refine may_bind' (may_mono _ ?_ (may_of_wp _ (wp_addTokens miss_usable hg (by decide) .mid 1)))
  rintro r sv' ⟨rfl, more, added, rfl, hgm, ha⟩
  obtain ⟨b, hb, hstr⟩ := miss_added ha
  have hlit : more.literal = .dist8 := hgm.literal
  have hlen4 : more.tokens.length = 4 := by rw [← length_strings, hstr]; rfl
  have hfx : fixed more = [] := ha.fixed
  have hb' : b = 97 ∨ b = 98 ∨ b = 99 ∨ b = 100 := by simpa using hb
  have hp4 : (strings more).Perm ([117, 118, 121, b].map ([·])) := by rw [hstr]; rfl
  have t0 : tot uvySet missEnv.mid = 32 := by
    rw [miss_tot (l := [117, 118, 121]) (List.Perm.refl _) rfl]; rfl
  have t1 : tot more missEnv.mid = 25 := by
    rw [miss_tot hp4 hlit]
    rcases hb' with rfl | rfl | rfl | rfl <;> rfl
  have t2 : tot more missEnv.fast = 2 := by
    rw [miss_tot hp4 hlit]
    rcases hb' with rfl | rfl | rfl | rfl <;> rfl
  refine ⟨hgm, fun st1 hst1 => ?_⟩
  have hc1 : st1.cost = tot more missEnv.mid := cached_cost hlit hst1
  have hb1 : st1.scannedBytes = missEnv.mid.flatten.length := cached_scanned hst1
  refine ⟨hgm, fun st2 hst2 => ?_⟩
  have hc2 : st2.cost = tot more missEnv.fast := cached_cost hlit hst2
  have hb2 : st2.scannedBytes = missEnv.fast.flatten.length := cached_scanned hst2
  have hlen := cached_length hst1
  refine may_lift (rassert_true (by simp [hlen])) ?_
  -- the counts have the sum 1, so that one of the first two tokens is not used
  have hsum : st1.tokenCount.sum = 1 := by
    obtain ⟨ts0, st0, pairs, h1, h2, ⟨f, h3, h4, -⟩, rfl⟩ := hst1
    have e8 : st0.cost = st0.tokenCount.sum + 8 * st0.literalCount.sum := by
      unfold OStats.cost
      rw [h4.lc, h1.literal]
      rfl
    have e1 := h4.total 1
    change _ = ([[97, 98, 99, 100]].map (fun x => cost 1 (f x))).sum at e1
    simp only [List.map_cons, List.map_nil, List.sum_cons, List.sum_nil, Nat.add_zero] at e1
    have hcost : ∀ ps : List Piece, cost 1 ps = ps.length := by
      intro ps
      induction ps with
      | nil => rfl
      | cons p ps ih => cases p <;> simp [cost] at ih ⊢ <;> omega
    rw [hcost] at e1
    have := length_le_of_spells (strings_ne h1.ok) (h3 [97, 98, 99, 100]).spells
    have hc1' : st0.cost = 25 := hc1.trans t1
    simp only [List.length_cons, List.length_nil] at this
    show st0.tokenCount.sum = 1
    omega
  have hcount : ∃ i, i < 2 ∧ st1.tokenCount.getD i 0 = 0 := by
    rw [hlen4] at hlen
    match hl : st1.tokenCount, hlen with
    | [a, b, c, d], _ =>
      rw [hl] at hsum
      simp only [List.sum_cons, List.sum_nil] at hsum
      by_cases ha : a = 0
      · exact ⟨0, by omega, ha⟩
      · exact ⟨1, by omega, show b = 0 by omega⟩
  obtain ⟨i, hi, hi0⟩ := hcount
  obtain ⟨ids, hp, hs⟩ := sorted_head (key := fun i => ((st1.tokenCount.getD i 0 : Nat) : Int)) (n := more.tokens.length) (i := i)
    (by omega) (by intro j hj; simp only [hi0]; omega)
  refine ⟨i :: ids, hp, hs, ?_⟩
  obtain ⟨strs, e1, hnd, hmem, hsub⟩ := removable_facts hgm.ok hp
  refine may_lift e1 ?_
  obtain ⟨t, ht⟩ : ∃ t, more.tokens[i]? = some t := ⟨_, List.getElem?_eq_getElem (by omega)⟩
  have hts : t.string = [117] ∨ t.string = [118] := by
    have : (strings more)[i]? = some t.string := by rw [strings, List.getElem?_map, ht]; rfl
    rw [hstr] at this
    match i, hi, this with
    | 0, _, h => exact .inl (Option.some.inj h).symm
    | 1, _, h => exact .inr (Option.some.inj h).symm
  have hman : t.isMandatory = false := by
    cases hm : t.isMandatory with
    | false => rfl
    | true =>
      have : t.string ∈ fixed more :=
        List.mem_map_of_mem (List.mem_filter.2 ⟨List.mem_of_getElem? ht, hm⟩)
      rw [hfx] at this
      cases this
  obtain ⟨rest, rfl⟩ : ∃ rest, strs = t.string :: rest := by
    rw [removable, getR_of ht, R.ok_bind] at e1
    cases hr : removable more ids with
    | error e => rw [hr] at e1; cases e1
    | ok rest =>
      rw [hr, R.ok_bind, hman] at e1
      exact ⟨rest, (Except.ok.inj e1).symm⟩
  refine may_lift (subR_of (a := st.cost) (b := st1.cost) (by omega)) ?_
  have hlim : fastLimit (st.cost - st1.cost) st2.scannedBytes st1.scannedBytes = .ok 5 := by
    rw [hc, hc1, t0, t1, hb1, hb2]
    rfl
  refine may_lift hlim ?_
  rw [hc2, t2]
  have hsm : t.string ∈ strings more := (hmem _).1 (by simp) |>.1
  obtain ⟨ts0, g1, g2, g3, g4, g5⟩ := removeToken_some hgm.ok hsm (by rw [hfx]; simp)
  have hg0 : Good .dist8 ts0 := ⟨.remove hgm.made g1, fun x hx => hgm.noZero x (g2.mem_iff.2 (by simp [hx])), g4.trans hlit⟩
  have t3 : tot ts0 missEnv.fast = 9 := by
    rcases hts with e | e
    · have hp3 : (strings ts0).Perm ([118, 121, b].map ([·])) := by
        rw [e] at g2
        refine (List.perm_cons [117]).1 (g2.symm.trans ?_)
        rw [hstr]
        rfl
      rw [miss_tot hp3 hg0.literal]
      rcases hb' with rfl | rfl | rfl | rfl <;> rfl
    · have hp3 : (strings ts0).Perm ([117, 121, b].map ([·])) := by
        rw [e] at g2
        refine (List.perm_cons [118]).1 (g2.symm.trans ?_)
        rw [hstr]
        exact List.Perm.swap _ _ _
      rw [miss_tot hp3 hg0.literal]
      rcases hb' with rfl | rfl | rfl | rfl <;> rfl
  rw [addRemoveLoop]
  refine may_lift g1 ?_
  refine ⟨hg0, fun st3 hst3 => ?_⟩
  have hc3 : st3.cost = tot ts0 missEnv.fast := cached_cost hg0.literal hst3
  refine may_lift (subR_of (a := st3.cost) (b := 2) (by omega)) ?_
  rw [if_pos (by omega)]
  refine may_mono _ ?_ (may_of_wp _ (wp_lost miss_usable rest hg0 (List.nodup_cons.1 hnd).2 ?_ (by omega) (by omega)))
  · rintro r sv'' ⟨-, rfl⟩
    rfl
  · intro x hx
    obtain ⟨h1, h2⟩ := (hmem x).1 (by simp [hx])
    refine ⟨?_, by rw [g3]; exact h2⟩
    rcases List.mem_cons.1 (g2.mem_iff.1 h1) with h | h
    · subst h; exact absurd hx (List.nodup_cons.1 hnd).1
    · exact h

/-- C102 (what is missed).  There are samples and a set such that some run returns no set, although, whichever token was
added, there is a token without which the samples cost less than before, and the fast samples cost the same: it is not tried, because after the first
token that is important for the fast samples is skipped, it is not put back (`continue` in line 218). -/
theorem C102_missed : ∃ (env : Env) (ts : OSet) (s : Bytes), Usable env ∧ Allowed .dist8 ts ∧ fixed ts = [] ∧
    (∃ w, Run env (addAndRemove ts) World.start (.ok none) w) ∧
    ∀ more added, Made more → more.literal = .dist8 → Added env .mid ts 1 more added → ∃ less, s ∈ strings more ∧ Without more s less ∧
      (∀ c c', IsCost ts env.mid c → IsCost less env.mid c' → c' < c) ∧
      (∀ c c', IsCost more env.fast c → IsCost less env.fast c' → c = c') ∧
      ¬ TooDear env ts more s ∧ ¬ Important env ts more s := by
  refine ⟨missEnv, uvySet, [121], miss_usable, uvySet_allowed, rfl, ?_, ?_⟩
  · obtain ⟨r, w, hr, rfl⟩ := may_run miss_usable _ (w := World.start) miss_run (worldOk_start _ _)
    exact ⟨w, hr⟩
  · intro more added hm hlit ha
    obtain ⟨b, hb, hstr⟩ := miss_added ha
    have hb' : b = 97 ∨ b = 98 ∨ b = 99 ∨ b = 100 := by simpa using hb
    have hy : [121] ∈ strings more := by rw [hstr]; simp
    obtain ⟨less, g1, g2, g3, g4, g5⟩ := removeToken_some (made_ok hm) hy (by rw [ha.fixed]; exact (by simp [fixed, uvySet]))
    have hw : Without more [121] less := ⟨.remove hm g1, g2.symm, g4⟩
    have hp4 : (strings more).Perm ([117, 118, 121, b].map ([·])) := by rw [hstr]; rfl
    have hp3 : (strings less).Perm ([117, 118, b].map ([·])) := by
      refine (List.perm_cons [121]).1 (g2.symm.trans ?_)
      rw [hstr]
      exact (List.perm_middle (l₁ := [[117], [118]]) (a := [121]) (l₂ := [[b]]))
    have t0 : tot uvySet missEnv.mid = 32 := by
      rw [miss_tot (l := [117, 118, 121]) (List.Perm.refl _) rfl]; rfl
    have t1 : tot less missEnv.mid = 25 := by
      rw [miss_tot hp3 (g4.trans hlit)]
      rcases hb' with rfl | rfl | rfl | rfl <;> rfl
    have t2 : tot more missEnv.fast = 2 := by
      rw [miss_tot hp4 hlit]
      rcases hb' with rfl | rfl | rfl | rfl <;> rfl
    have t3 : tot less missEnv.fast = 2 := by
      rw [miss_tot hp3 (g4.trans hlit)]
      rcases hb' with rfl | rfl | rfl | rfl <;> rfl
    refine ⟨less, hy, hw, ?_, ?_, ?_, ?_⟩
    · intro c c' h1 h2
      rw [isCost_iff.1 h1, isCost_iff.1 h2, t0, t1]
      omega
    · intro c c' h1 h2
      rw [isCost_iff.1 h1, isCost_iff.1 h2, t2, t3]
    · rw [tooDear_iff hw, t0, t1]
      omega
    · rw [important_iff hw, t2, t3]
      exact Nat.not_lt_zero _

/-- The same samples and set: whatever the order, at most one token is exchanged. -/
example : ∃ r w, Run missEnv (ask [] >>= fun _ => addAndRemove uvySet) World.start r w ∧
    ((∃ ts', r = .ok (some ts') ∧ ts'.tokens.length = 3) ∨ r = .ok none) := by
  obtain ⟨⟨r, w, hr⟩, h⟩ := C102_exchange_partial miss_usable (by simp [missEnv]) (calls := []) (by simp) uvySet_allowed (by decide)
  obtain ⟨more, added, -, -, h⟩ := h r w hr
  rcases h with ⟨ts', s, s', e, -, -, hex, -⟩ | ⟨e, -⟩
  · exact ⟨r, w, hr, .inl ⟨ts', e, (exchanged_length hex).trans rfl⟩⟩
  · exact ⟨r, w, hr, .inr e⟩

end Tokens.Props
