import Verif.Proofs.OldMay

/-! Sets of the first generation with tokens of one byte only, and two runs of `optimize_token_set` with them: one that
ends in a panic, and one that does not end. -/

set_option linter.unusedVariables false

namespace Tokens.Old
open Tokens Spec.Old

variable {env : Env} {lit : LiteralEncoding}

/-- All tokens are single bytes. -/
def Flat (ts : OSet) : Prop := ∀ s ∈ strings ts, ∃ b, s = [b]

theorem flat_piece {ts : OSet} (h : Flat ts) {p : Piece} {s : Bytes} (hp : text ts p = some s) : ∃ b, s = [b] := by
  cases p with
  | lit b => exact ⟨b, (Option.some.inj hp).symm⟩
  | tok i => exact h s (text_mem hp)

theorem flat_uses {ts : OSet} (h : Flat ts) {ps : List Piece} {x : Bytes} (hs : Spells ts ps x) (c : UInt8) :
    ps.countP (fun p => decide (text ts p = some [c])) = x.count c := by
  induction hs with
  | nil => rfl
  | @cons p ps s x hp _ ih =>
    obtain ⟨b, rfl⟩ := flat_piece h hp
    rw [List.countP_cons, ih, List.singleton_append, List.count_cons, hp]
    simp

/-- What a byte costs. -/
def byteCost1 (ts : OSet) (c : UInt8) : Nat := if [c] ∈ strings ts then 1 else ts.literal.literalCost

theorem flat_cost {ts : OSet} (h : Flat ts) (x : Bytes) : leastCost ts x = (x.map (byteCost1 ts)).sum := by
  have hlow : ∀ {ps : List Piece} {x : Bytes}, Spells ts ps x →
      (x.map (byteCost1 ts)).sum ≤ cost ts.literal.literalCost ps := by
    intro ps x hs
    induction hs with
    | nil => exact Nat.le_refl _
    | @cons p ps s x hp _ ih =>
      obtain ⟨b, rfl⟩ := flat_piece h hp
      rw [List.singleton_append, List.map_cons, List.sum_cons]
      have h2 := literalCost_two ts.literal
      cases p with
      | lit c =>
        simp only [cost]
        have : byteCost1 ts b ≤ ts.literal.literalCost := by unfold byteCost1; split <;> omega
        omega
      | tok i =>
        simp only [cost]
        have : byteCost1 ts b = 1 := if_pos (text_mem hp)
        omega
  have hex : ∃ ps, Spells ts ps x ∧ cost ts.literal.literalCost ps = (x.map (byteCost1 ts)).sum := by
    induction x with
    | nil => exact ⟨[], .nil, rfl⟩
    | cons b x ih =>
      obtain ⟨ps, h1, h2⟩ := ih
      by_cases hb : [b] ∈ strings ts
      · obtain ⟨i, hi⟩ := mem_text hb
        refine ⟨.tok i :: ps, Spells.cons (s := [b]) hi h1, ?_⟩
        rw [cost, h2, List.map_cons, List.sum_cons, byteCost1, if_pos hb]
      · refine ⟨.lit b :: ps, Spells.cons (s := [b]) rfl h1, ?_⟩
        rw [cost, h2, List.map_cons, List.sum_cons, byteCost1, if_neg hb]
  obtain ⟨ps, h1, h2⟩ := hex
  obtain ⟨qs, h3, h4⟩ := leastCost_exists ts x
  have h5 := leastCost_le h1
  have h6 := hlow h3.spells
  omega

theorem flat_tot {ts : OSet} (h : Flat ts) (xs : List Bytes) :
    tot ts xs = (xs.map (fun x => (x.map (byteCost1 ts)).sum)).sum := by
  unfold tot
  congr 1
  exact List.map_congr_left (fun x _ => flat_cost h x)

theorem flat_byteUses {ts : OSet} (h : Flat ts) {xs : List Bytes} {cut : List (List Piece)}
    (hc : List.Forall₂ (Cheapest ts) xs cut) (c : UInt8) :
    byteUsesIn ts cut c = (xs.map (fun x => x.count c)).sum := by
  unfold byteUsesIn
  induction hc with
  | nil => rfl
  | cons h1 _ ih =>
    rw [List.map_cons, List.sum_cons, ih, List.map_cons, List.sum_cons, flat_uses h h1.spells]

/-- Without tokens, the most used text is a most frequent byte. -/
theorem empty_best {ts : OSet} (h : strings ts = []) {xs : List Bytes} {cut : List (List Piece)}
    (hc : List.Forall₂ (Cheapest ts) xs cut) {s : Bytes} (hb : BestText ts cut s) :
    ∃ b, s = [b] ∧ ∀ c, (xs.map (fun x => x.count c)).sum ≤ (xs.map (fun x => x.count b)).sum := by
  have hflat : Flat ts := by intro s hs; rw [h] at hs; cases hs
  have htok : ∀ i, text ts (.tok i) = none := by
    intro i
    cases e : text ts (.tok i) with
    | none => rfl
    | some t => have := text_mem e; rw [h] at this; cases this
  have hlit : ∀ c, litUses cut c = (xs.map (fun x => x.count c)).sum := by
    intro c
    unfold litUses
    clear hb
    induction hc with
    | nil => rfl
    | @cons x ps xs cut h1 _ ih =>
      rw [List.map_cons, List.sum_cons, ih, List.map_cons, List.sum_cons, ← flat_uses hflat h1.spells c]
      congr 1
      rw [List.count_eq_countP]
      apply List.countP_congr
      intro p _
      simp only [beq_iff_eq, decide_eq_true_eq]
      cases p with
      | lit b => simp [text]
      | tok i => simp [htok]
  have hpair : ∀ t, pairUses ts cut t = 0 := by
    intro t
    unfold pairUses
    clear hb hlit
    induction hc with
    | nil => rfl
    | @cons x ps xs cut h1 _ ih =>
      rw [List.map_cons, List.sum_cons, ih]
      have : neighbours ps = [] := by
        cases hn : neighbours ps with
        | nil => rfl
        | cons p l =>
          obtain ⟨i, j⟩ := p
          obtain ⟨s, t, h4, -⟩ := cheapest_pair h1 (i := i) (j := j) (by rw [hn]; simp)
          rw [htok] at h4; cases h4
      rw [this]; rfl
  obtain ⟨m, h0, h1, h2, h3⟩ := hb.most
  rcases h1 with h1 | ⟨b, rfl, h1⟩
  · rw [hpair] at h1; omega
  · refine ⟨b, rfl, ?_⟩
    intro c
    rw [← hlit, ← hlit, h1]
    exact h2 c

theorem flat_one {ts : OSet} {b : UInt8} (h : strings ts = [[b]]) : Flat ts := by
  intro s hs
  rw [h, List.mem_singleton] at hs
  exact ⟨b, hs⟩

theorem one_cost {ts : OSet} {b : UInt8} (h : strings ts = [[b]]) (hl : ts.literal = .dist8) (xs : List Bytes) :
    tot ts xs = (xs.map (fun x => (x.map (fun c => if c = b then 1 else 8)).sum)).sum := by
  rw [flat_tot (flat_one h)]
  congr 1
  apply List.map_congr_left
  intro x _
  congr 1
  apply List.map_congr_left
  intro c _
  unfold byteCost1
  rw [h, hl]
  by_cases hc : c = b <;> simp [hc, LiteralEncoding.literalCost]

/-- What is proposed when the only token is taken out. -/
theorem one_proposed {ts : OSet} {b : UInt8} (h : strings ts = [[b]]) {s' : Bytes} (hp : Proposed env ts [b] s') :
    ∃ c, s' = [c] ∧ ∀ d, (env.fast.map (fun x => x.count d)).sum ≤ (env.fast.map (fun x => x.count c)).sum := by
  obtain ⟨ts0, cut, h1, h2, h3, h4⟩ := hp
  refine empty_best ?_ h3 h4
  have := h1.strings.length_eq
  rw [h, List.length_cons] at this
  exact List.length_eq_zero_iff.1 (by simpa using this)

theorem one_exchanged {ts ts' : OSet} {b : UInt8} {s s' : Bytes} (h : strings ts = [[b]]) (he : Exchanged ts ts' s s') :
    s = [b] ∧ strings ts' = [s'] := by
  have h1 := he.old
  rw [h, List.mem_singleton] at h1
  subst h1
  refine ⟨rfl, ?_⟩
  have h2 := he.result
  rw [h] at h2
  have h3 : ([b] :: strings ts').Perm ([b] :: [s']) := h2.trans (.swap _ _ _)
  exact List.perm_singleton.1 (List.perm_cons _ |>.1 h3)

/-- After `optimize_byte_tokens` the only token is a most frequent byte. -/
theorem one_best {ts ts' : OSet} {b : UInt8} (h : strings ts = [[b]]) {xs : List Bytes} {cut : List (List Piece)}
    (hc : List.Forall₂ (Cheapest ts) xs cut) {removed added : List UInt8} (hb : BestBytes ts ts' cut removed added) :
    ∃ c, strings ts' = [[c]] ∧ ∀ d, (xs.map (fun x => x.count d)).sum ≤ (xs.map (fun x => x.count c)).sum := by
  have hl := best_ntokens hb
  rw [← length_strings, ← length_strings, h] at hl
  obtain ⟨s, hs⟩ := List.length_eq_one_iff.1 hl
  have hin : s ∈ strings ts ++ added.map ([·]) := hb.result.mem_iff.1 (by rw [hs]; simp)
  have : ∃ c, s = [c] := by
    rcases List.mem_append.1 hin with h1 | h1
    · exact flat_one h s h1
    · obtain ⟨c, _, rfl⟩ := List.mem_map.1 h1
      exact ⟨c, rfl⟩
  obtain ⟨c, rfl⟩ := this
  refine ⟨c, hs, ?_⟩
  intro d
  by_cases hd : d = c
  · rw [hd]
  · have := hb.best c d (by rw [hs]; simp) (by rw [hs]; simpa using hd)
    rwa [flat_byteUses (flat_one h) hc, flat_byteUses (flat_one h) hc] at this

/-! ### A run that does not end -/

/-- The fast and the normal samples are `xxy`, the slow samples `xyy`. -/
def endlessEnv : Env := { slow := [[120, 121, 121]], mid := [[120, 120, 121]], fast := [[120, 120, 121]], nthreads := 1 }

theorem endless_usable : Usable endlessEnv :=
  ⟨by simp [endlessEnv], by simp [endlessEnv], by simp [endlessEnv], by decide⟩

theorem byte_most {xs : List Bytes} {b c : UInt8} (hm : ∀ d, d ≠ b → (xs.map (fun x => x.count d)).sum <
    (xs.map (fun x => x.count b)).sum) (h : ∀ d, (xs.map (fun x => x.count d)).sum ≤ (xs.map (fun x => x.count c)).sum) :
    c = b := by
  by_contra hne
  have h1 := hm c hne
  have h2 := h b
  omega

theorem endless_fast (d : UInt8) (hd : d ≠ 120) : (endlessEnv.fast.map (fun x => x.count d)).sum <
    (endlessEnv.fast.map (fun x => x.count (120 : UInt8))).sum := by
  by_cases h2 : d = 121
  · subst h2; decide
  · have e : ([120, 120, 121] : Bytes).count d = 0 := by
      rw [List.count_eq_zero]
      simp [hd, h2]
    simp only [endlessEnv, List.map_cons, List.map_nil, e]
    decide

theorem endless_slow (d : UInt8) (hd : d ≠ 121) : (endlessEnv.slow.map (fun x => x.count d)).sum <
    (endlessEnv.slow.map (fun x => x.count (121 : UInt8))).sum := by
  by_cases h2 : d = 120
  · subst h2; decide
  · have e : ([120, 121, 121] : Bytes).count d = 0 := by
      rw [List.count_eq_zero]
      simp [hd, h2]
    simp only [endlessEnv, List.map_cons, List.map_nil, e]
    decide

theorem endless_remove {ts : OSet} (hg : Good .dist8 ts) (hs : strings ts = [[121]]) (hfx : fixed ts = []) (att : Attempts)
    {sv : Saved} : (removeAndAdd ts att).wp endlessEnv .dist8 sv (fun r sv' => sv' = sv ∧
      ∃ ts' att', r = .ok (some ts', att') ∧ Good .dist8 ts' ∧ strings ts' = [[120]] ∧ fixed ts' = []) := by
  have hlen : ts.tokens.length = 1 := by rw [← length_strings, hs]; rfl
  refine wp_mono _ ?_ (wp_removeAndAdd endless_usable (by decide) hg (by omega) att)
  rintro r sv' ⟨rfl, h⟩
  refine ⟨rfl, ?_⟩
  have hprop : ∀ {s'}, Proposed endlessEnv ts [121] s' → s' = [120] := by
    intro s' hp
    obtain ⟨c, rfl, hc⟩ := one_proposed hs hp
    rw [byte_most endless_fast hc]
  rcases h with ⟨ts', att', s, s', tried, rfl, hg', himp, -⟩ | ⟨att', tried, rfl, hgu⟩ | ⟨rfl, s, ts0, h1, h2, h3, h4⟩
  · obtain ⟨rfl, h2⟩ := one_exchanged hs himp.exchanged
    rw [hprop himp.proposed] at h2
    exact ⟨ts', att', rfl, hg', h2, himp.exchanged.fixed.trans hfx⟩
  · exfalso
    have hin : [121] ∈ tried := by
      rcases hgu.enough with h | h
      · have h1 : tried.length ≤ 1 := by
          have := List.Subperm.length_le (List.subperm_of_subset hgu.trials.nodup
            (fun s hs' => (hgu.trials.tokens s hs').1))
          rw [hs] at this
          exact this
        omega
      · exact h [121] (by rw [hs]; simp) (by rw [hfx]; simp)
    obtain ⟨s', hp, h | ⟨ts', he, hc⟩⟩ := hgu.useless _ hin
    · rw [hprop hp] at h; exact absurd h (by decide)
    · rw [hprop hp] at he
      obtain ⟨-, h2⟩ := one_exchanged hs he
      have h3 := hc _ _ (isCost_iff.2 rfl) (isCost_iff.2 rfl)
      rw [one_cost hs hg.literal, one_cost h2 (he.literal.trans hg.literal)] at h3
      exact absurd h3 (by decide)
  · exfalso
    have h5 := h4 [120, 120, 121] (by simp [endlessEnv])
    have h6 := h3.strings.length_eq
    rw [hs, List.length_cons] at h6
    have h7 : strings ts0 = [] := List.length_eq_zero_iff.1 (by simpa using h6)
    rw [h7] at h5
    cases h5

theorem endless_sometimes {ts : OSet} {best : Nat} (hg : Good .dist8 ts) (hs : strings ts = [[120]]) (hfx : fixed ts = [])
    {sv : Saved} : (sometimes ts best).may endlessEnv .dist8 sv (fun r sv' =>
      ∃ ts' best', r = .ok (ts', best') ∧ Good .dist8 ts' ∧ strings ts' = [[121]] ∧ fixed ts' = []) := by
  refine ⟨true, may_of_wp _ ?_⟩
  refine wp_bytes hg hfx (K := fun st p => (do
    let st ← if p.1 then slowStats p.2 else pure st
    if st.cost < best then do
      saveTokenSet p.2 st
      return (p.2, st.cost)
    else return (p.2, best))) ?_
  intro st ch ts' f removed added hf hst hb hg' h1 h2
  have hc : strings ts' = [[121]] := by
    obtain ⟨c, h3, h4⟩ := one_best hs (forall2_map hf endlessEnv.slow) hb
    rw [h3, byte_most endless_slow h4]
  have hfx' := hb.fixed.trans hfx
  have hend : ∀ st' : OStats, ((if st'.cost < best then do
      saveTokenSet ts' st'
      return (ts', st'.cost)
    else return (ts', best)) : Prog (OSet × Nat)).wp endlessEnv .dist8 sv (fun r sv' =>
      ∃ ts' best', r = .ok (ts', best') ∧ Good .dist8 ts' ∧ strings ts' = [[121]] ∧ fixed ts' = []) := by
    intro st'
    split
    · exact ⟨ts', _, rfl, hg', hc, hfx'⟩
    · exact ⟨ts', _, rfl, hg', hc, hfx'⟩
  cases ch with
  | false => exact hend st
  | true => exact ⟨hg', fun st' _ => hend st'⟩

theorem endless_loop : ∀ (fuel : Nat) {ts : OSet} {best : Nat} (att : Attempts) {sv : Saved}, Good .dist8 ts →
    strings ts = [[121]] → fixed ts = [] →
    (setLoop fuel ts best att).may endlessEnv .dist8 sv (fun r _ => r = .error .fuel) := by
  intro fuel
  induction fuel with
  | zero => intro ts best att sv _ _ _; exact rfl
  | succ fuel ih =>
    intro ts best att sv hg hs hfx
    rw [setLoop]
    refine may_bind' (may_mono _ ?_ (may_of_wp _ (endless_remove hg hs hfx att)))
    rintro r sv' ⟨rfl, ts', att', rfl, hg', hs', hfx'⟩
    refine may_bind' (may_mono _ ?_ (endless_sometimes hg' hs' hfx'))
    rintro r sv'' ⟨ts2, best2, rfl, hg2, hs2, hfx2⟩
    exact ih att' hg2 hs2 hfx2

/-- The set with the only token `y`. -/
def ySet : OSet :=
  { tokens := [{ string := [121], isMandatory := false, suffix := .none }]
    byString := StrMap.insert (fun _ => none) [121] 0
    literal := .dist8 }

theorem ySet_made : Made ySet := .add (s := [121]) (.new (le := .dist8) rfl) (by decide) rfl

theorem ySet_strings : strings ySet = [[121]] := rfl

theorem ySet_fixed : fixed ySet = [] := rfl

theorem ySet_good : Good .dist8 ySet := ⟨ySet_made, by
  intro s hs
  rw [ySet_strings, List.mem_singleton] at hs
  subst hs
  exact .inl (by decide), rfl⟩

theorem ySet_ntokens : ySet.ntokens = 2 := rfl

/-- The start, when there are tokens enough. -/
theorem startSet_enough {fuel block : Nat} {ts : OSet} {n : Nat} (hn : ts.ntokens = n) :
    startSet fuel ts n block = slowStats ts >>= fun st => optimizeByteTokens ts st >>= fun p => (do
        let st ← if p.1 then do
            let st' ← slowStats p.2
            Prog.lift (rassert (decide (st'.cost ≤ st.cost)))
            pure st'
          else pure st
        saveTokenSet p.2 st
        return (p.2, st.cost)) := by
  unfold startSet
  rw [if_neg (by omega)]
  rfl

theorem start_end {env : Env} {ts ts' : OSet} {f : Bytes → List Piece} {removed added : List UInt8}
    (hg : Good lit ts) (hg' : Good lit ts') (hf : ∀ x, Cheapest ts x (f x)) {st : OStats} (hst : Fresh ts env.slow false st)
    (hb : BestBytes ts ts' (env.slow.map f) removed added) (ch : Bool) {sv : Saved} :
    ((do
        let st ← if ch then do
            let st' ← slowStats ts'
            Prog.lift (rassert (decide (st'.cost ≤ st.cost)))
            pure st'
          else pure st
        saveTokenSet ts' st
        return (ts', st.cost)) : Prog (OSet × Nat)).wp env lit sv (fun r _ => ∃ best, r = .ok (ts', best)) := by
  cases ch with
  | false => exact ⟨_, rfl⟩
  | true =>
    refine ⟨hg', ?_⟩
    intro st' hst'
    have c1 := fresh_cost hst
    have c2 : st'.cost = tot ts' env.slow := fresh_cost hst'
    have hle := best_le hg.ok hf hb
    have e : rassert (decide (st'.cost ≤ st.cost)) = .ok () := rassert_true (by simp; omega)
    show (Prog.lift (rassert (decide (st'.cost ≤ st.cost))) >>= _ : Prog _).wp env lit sv _
    rw [e]
    exact ⟨_, rfl⟩

theorem endless_start (fuel : Nat) {sv : Saved} : (startSet fuel ySet 2 1).wp endlessEnv .dist8 sv (fun r _ =>
    ∃ ts best, r = .ok (ts, best) ∧ Good .dist8 ts ∧ strings ts = [[121]] ∧ fixed ts = []) := by
  rw [startSet_enough ySet_ntokens]
  refine wp_bytes ySet_good ySet_fixed ?_
  intro st ch ts' f removed added hf hst hb hg' h1 h2
  have hc : strings ts' = [[121]] := by
    obtain ⟨c, h3, h4⟩ := one_best ySet_strings (forall2_map hf endlessEnv.slow) hb
    rw [h3, byte_most endless_slow h4]
  refine wp_mono _ ?_ (start_end ySet_good hg' hf hst hb ch)
  rintro r sv' ⟨best, rfl⟩
  exact ⟨ts', best, rfl, hg', hc, hb.fixed.trans ySet_fixed⟩

/-- However many rounds are allowed, some run needs more. -/
theorem endless (fuel : Nat) : ∃ w, Run endlessEnv (optimizeTokenSet fuel ySet 2 1) World.start (.error .fuel) w := by
  have h : (optimizeTokenSet fuel ySet 2 1).may endlessEnv .dist8 World.start.saved (fun r _ => r = .error .fuel) := by
    refine may_bind' (may_mono _ ?_ (may_of_wp _ (endless_start fuel)))
    rintro r sv' ⟨ts, best, rfl, hg, hs, hfx⟩
    refine may_bind' (may_mono _ ?_ (endless_loop fuel (fun _ => 0) hg hs hfx))
    rintro r sv'' rfl
    exact rfl
  obtain ⟨r, w, h1, rfl⟩ := may_run endless_usable _ h (worldOk_start _ _)
  exact ⟨w, h1⟩

/-! ### A run that ends in a panic -/

/-- A sorted order that starts with a given smallest number. -/
theorem sorted_first (key : Nat → Int) (n i : Nat) (hi : i < n) (hm : ∀ j < n, key i ≤ key j) :
    ∃ l, (i :: l).Perm (List.range n) ∧ (i :: l).Pairwise (fun a b => key a ≤ key b) := by
  obtain ⟨l, h1, h2⟩ := sorted_exists key n
  have hin : i ∈ l := h1.mem_iff.2 (List.mem_range.2 hi)
  refine ⟨l.erase i, (List.perm_cons_erase hin).symm.trans h1, List.pairwise_cons.2 ⟨?_, h2.sublist List.erase_sublist⟩⟩
  intro j hj
  exact hm j (List.mem_range.1 (h1.mem_iff.1 (List.mem_of_mem_erase hj)))

/-- With one token, `optimize_byte_tokens` may take any byte that is used most. -/
theorem may_bytes {ts : OSet} {b : UInt8} (hg : Good lit ts) (hs : strings ts = [[b]]) (hfx : fixed ts = []) (c : UInt8)
    (hc : ∀ d, (env.slow.map (fun x => x.count d)).sum ≤ (env.slow.map (fun x => x.count c)).sum)
    {β : Type} {K : OStats → Bool × OSet → Prog β} {Q : R β → Saved → Prop} {sv : Saved}
    (h : ∀ st ch ts' f removed added, (∀ x, Cheapest ts x (f x)) → Fresh ts env.slow false st →
      BestBytes ts ts' (env.slow.map f) removed added → Good lit ts' → (ch = false → ts' = ts) → strings ts' = [[c]] →
      (K st (ch, ts')).may env lit sv Q) :
    (slowStats ts >>= fun st => optimizeByteTokens ts st >>= K st).may env lit sv Q := by
  refine ⟨hg, ?_⟩
  intro st hst
  obtain ⟨f, hf, ht, hlo⟩ := hst
  show (optimizeByteTokens ts st >>= K st).may env lit sv Q
  rw [byteTokens_sort hg.ok hf ht]
  have huse := flat_byteUses (flat_one hs) (forall2_map hf env.slow)
  have hcn : UInt8.ofNat c.toNat = c := UInt8.ofNat_toNat
  obtain ⟨l, h1, h2⟩ := sorted_first (fun i => -((byteUsesIn ts (env.slow.map f) (UInt8.ofNat i) : Nat) : Int)) 256 c.toNat
    c.toNat_lt (by
      intro j _
      rw [hcn, huse, huse]
      have := hc (UInt8.ofNat j)
      omega)
  refine ⟨c.toNat :: l, h1, h2, ?_⟩
  refine may_bind' (may_mono _ ?_ (may_of_wp _ (wp_byteRest hg h1 h2)))
  rintro r sv' ⟨rfl, ⟨ch, ts', removed, added, rfl, k1, k2, k3, k4, k5⟩ | ⟨-, d, -, h3, -⟩⟩
  · have hone : (oneBytes ts.tokens).length = 1 := by
      have h4 : ∀ d, d ∈ oneBytes ts.tokens ↔ d ∈ [b] := by
        intro d
        rw [mem_oneBytes]
        show [d] ∈ strings ts ↔ _
        rw [hs]
        simp
      have h5 := (List.perm_ext_iff_of_nodup (oneBytes_nodup (strings_nodup hg.ok)) (List.nodup_singleton b)).2 h4
      rw [h5.length_eq]
      rfl
    have hin : [c] ∈ strings ts' := by
      rw [k5, hone, List.map_cons, hcn]
      simp
    obtain ⟨d, e1, -⟩ := one_best hs (forall2_map hf env.slow) k2
    have e2 : d = c := by
      rw [e1, List.mem_singleton] at hin
      exact (List.cons.inj hin).1.symm
    subst e2
    exact h st ch ts' f removed added hf ⟨f, hf, ht, hlo⟩ k2 (best_good hg k1 k2) k3 e1
  · rw [hfx] at h3
    cases h3

/-- The fast and the normal samples are `y`, the slow samples `xy`. -/
def tieEnv : Env := { slow := [[120, 121]], mid := [[121]], fast := [[121]], nthreads := 1 }

theorem tie_usable : Usable tieEnv :=
  ⟨by simp [tieEnv], by simp [tieEnv], by simp [tieEnv], by decide⟩

theorem tie_slow (d : UInt8) : (tieEnv.slow.map (fun x => x.count d)).sum ≤ 1 := by
  by_cases h2 : d = 120
  · subst h2; decide
  · by_cases h3 : d = 121
    · subst h3; decide
    · have e : ([120, 121] : Bytes).count d = 0 := by
        rw [List.count_eq_zero]
        simp [h2, h3]
      simp only [tieEnv, List.map_cons, List.map_nil, e]
      decide

theorem tie_fast (d : UInt8) (hd : d ≠ 121) : (tieEnv.fast.map (fun x => x.count d)).sum <
    (tieEnv.fast.map (fun x => x.count (121 : UInt8))).sum := by
  have e : ([121] : Bytes).count d = 0 := by
    rw [List.count_eq_zero]
    simp [hd]
  simp only [tieEnv, List.map_cons, List.map_nil, e]
  decide

theorem tie_start (fuel : Nat) {sv : Saved} : (startSet fuel ySet 2 1).may tieEnv .dist8 sv (fun r _ =>
    ∃ ts best, r = .ok (ts, best) ∧ Good .dist8 ts ∧ strings ts = [[121]] ∧ fixed ts = []) := by
  rw [startSet_enough ySet_ntokens]
  refine may_bytes ySet_good ySet_strings ySet_fixed 121 tie_slow ?_
  intro st ch ts' f removed added hf hst hb hg' h1 hs'
  refine may_mono _ ?_ (may_of_wp _ (start_end ySet_good hg' hf hst hb ch))
  rintro r sv' ⟨best, rfl⟩
  exact ⟨ts', best, rfl, hg', hs', hb.fixed.trans ySet_fixed⟩

theorem tie_remove {ts : OSet} (hg : Good .dist8 ts) (hs : strings ts = [[121]]) (hfx : fixed ts = []) (att : Attempts)
    {sv : Saved} : (removeAndAdd ts att).wp tieEnv .dist8 sv (fun r sv' => ∃ att', r = .ok (none, att')) := by
  have hlen : ts.tokens.length = 1 := by rw [← length_strings, hs]; rfl
  refine wp_mono _ ?_ (wp_removeAndAdd tie_usable (by decide) hg (by omega) att)
  rintro r sv' ⟨rfl, h⟩
  have hprop : ∀ {s'}, Proposed tieEnv ts [121] s' → s' = [121] := by
    intro s' hp
    obtain ⟨c, rfl, hc⟩ := one_proposed hs hp
    rw [byte_most tie_fast hc]
  rcases h with ⟨ts', att', s, s', tried, rfl, hg', himp, -⟩ | ⟨att', tried, rfl, hgu⟩ | ⟨rfl, s, ts0, h1, h2, h3, h4⟩
  · exfalso
    obtain ⟨rfl, h2⟩ := one_exchanged hs himp.exchanged
    have h3 := himp.exchanged.new
    rw [hprop himp.proposed, hs] at h3
    simp at h3
  · exact ⟨att', rfl⟩
  · exfalso
    have h5 := h4 [121] (by simp [tieEnv])
    have h6 := h3.strings.length_eq
    rw [hs, List.length_cons] at h6
    have h7 : strings ts0 = [] := List.length_eq_zero_iff.1 (by simpa using h6)
    rw [h7] at h5
    cases h5

theorem tie_finish {ts : OSet} {best : Nat} (hg : Good .dist8 ts) (hs : strings ts = [[121]]) (hfx : fixed ts = [])
    {sv : Saved} : (finishSet ts best).may tieEnv .dist8 sv (fun r _ => r = .error .assertFailed) := by
  refine may_bytes hg hs hfx 120 tie_slow (K := fun st p => (do
    let st ← if p.1 then do
        let st' ← slowStats p.2
        Prog.lift (rassert (decide (st'.cost < st.cost)))
        pure st'
      else pure st
    if st.cost ≤ best then saveTokenSet p.2 st else return ())) ?_
  intro st ch ts' f removed added hf hst hb hg' h1 hs'
  cases ch with
  | false =>
    rw [h1 rfl, hs] at hs'
    simp at hs'
  | true =>
    refine ⟨hg', ?_⟩
    intro st' hst'
    have c1 := fresh_cost hst
    have c2 : st'.cost = tot ts' tieEnv.slow := fresh_cost hst'
    rw [one_cost hs hg.literal] at c1
    rw [one_cost hs' hg'.literal] at c2
    have d1 : st.cost = 9 := c1.trans (by decide)
    have d2 : st'.cost = 9 := c2.trans (by decide)
    have e : rassert (decide (st'.cost < st.cost)) = .error .assertFailed := by
      rw [d1, d2]; rfl
    show (Prog.lift (rassert (decide (st'.cost < st.cost))) >>= _ : Prog _).may tieEnv .dist8 sv _
    rw [e]
    exact rfl

/-- A run that ends with the assertion that the costs are less. -/
theorem tie (fuel : Nat) (h0 : 0 < fuel) :
    ∃ w, Run tieEnv (optimizeTokenSet fuel ySet 2 1) World.start (.error .assertFailed) w := by
  have h : (optimizeTokenSet fuel ySet 2 1).may tieEnv .dist8 World.start.saved (fun r _ => r = .error .assertFailed) := by
    refine may_bind' (may_mono _ ?_ (tie_start fuel))
    rintro r sv' ⟨ts, best, rfl, hg, hs, hfx⟩
    obtain ⟨fuel, rfl⟩ : ∃ k, fuel = k + 1 := ⟨fuel - 1, by omega⟩
    show ((setLoop (fuel + 1) ts best (fun _ => 0)) >>= _ : Prog _).may tieEnv .dist8 sv' _
    rw [setLoop]
    refine may_bind' (may_bind' (may_mono _ ?_ (may_of_wp _ (tie_remove hg hs hfx (fun _ => 0)))))
    rintro r sv'' ⟨att', rfl⟩
    exact tie_finish hg hs hfx
  obtain ⟨r, w, h1, rfl⟩ := may_run tie_usable _ h (worldOk_start _ _)
  exact ⟨w, h1⟩

end Tokens.Old
