import Verif.Proofs.OldBytes

/-! `optimize_bpe` and `optimize_token_set` of the first generation's optimizer. -/

set_option linter.unusedVariables false

namespace Tokens.Old
open Tokens Spec.Old

variable {env : Env} {lit : LiteralEncoding}

theorem exchanged_length {ts ts' : OSet} {s s' : Bytes} (h : Exchanged ts ts' s s') :
    ts'.tokens.length = ts.tokens.length := by
  have := h.result.length_eq
  rw [List.length_cons, List.length_cons, length_strings, length_strings] at this
  omega

theorem exchanged_ntokens {ts ts' : OSet} {s s' : Bytes} (h : Exchanged ts ts' s s') : ts'.ntokens = ts.ntokens := by
  unfold OSet.ntokens
  rw [exchanged_length h, h.literal]

theorem best_nt {ts ts' : OSet} {cut : List (List Piece)} {removed added : List UInt8}
    (h : BestBytes ts ts' cut removed added) : ts'.ntokens = ts.ntokens := by
  unfold OSet.ntokens
  rw [best_ntokens h, h.literal]

theorem steps_facts {ts ts' : OSet} (h : Steps env ts ts') : ts'.ntokens = ts.ntokens ∧ fixed ts' = fixed ts ∧
    tot ts' env.mid ≤ tot ts env.mid := by
  induction h with
  | refl => exact ⟨rfl, rfl, Nat.le_refl _⟩
  | @step ts ts' ts'' s s' h _ ih =>
    obtain ⟨h1, h2, h3⟩ := ih
    refine ⟨h1.trans (exchanged_ntokens h.exchanged), h2.trans h.exchanged.fixed, ?_⟩
    have := h.cheaper _ _ (isCost_iff.2 rfl) (isCost_iff.2 rfl)
    omega

theorem length_le_ntokens (ts : OSet) : ts.tokens.length ≤ ts.ntokens := Nat.le_add_right _ _

/-! ### `optimize_bpe` -/

theorem wp_bpeLoop (he : Usable env) (hsmall : env.mid.flatten.length < 2 ^ 32) : ∀ (fuel : Nat) {ts : OSet} (att : Attempts)
    {sv : Saved}, Good lit ts → ts.tokens.length ≤ 65536 → tot ts env.mid < fuel →
    (bpeLoop fuel ts att).wp env lit sv (fun r sv' => sv' = sv ∧
      ((∃ ts' a a' tried, r = .ok ts' ∧ Good lit ts' ∧ Steps env ts ts' ∧ GaveUp env ts' a a' tried) ∨
        (r = .error .unwrapNone ∧ Exhausted env ts.ntokens))) := by
  intro fuel
  induction fuel with
  | zero => intro ts att sv _ _ h; omega
  | succ fuel ih =>
    intro ts att sv hg hbig hfuel
    rw [bpeLoop]
    refine ⟨hg, ?_⟩
    intro st _
    show (removeAndAdd ts att >>= _ : Prog _).wp env lit sv _
    refine wp_bind' (wp_mono _ ?_ (wp_removeAndAdd he hsmall hg hbig att))
    rintro r sv' ⟨rfl, h⟩
    rcases h with ⟨ts', att', s, s', tried, rfl, hg', himp, -⟩ | ⟨att', tried, rfl, hgu⟩ | ⟨rfl, s, ts0, h1, h2, h3, h4⟩
    · have hlt := himp.cheaper _ _ (isCost_iff.2 rfl) (isCost_iff.2 rfl)
      refine wp_mono _ ?_ (ih att' hg' (by rw [exchanged_length himp.exchanged]; exact hbig) (by omega))
      rintro r sv'' ⟨rfl, h⟩
      refine ⟨rfl, ?_⟩
      rcases h with ⟨ts'', a, a', tried, e, k1, k2, k3⟩ | ⟨e, k⟩
      · exact .inl ⟨ts'', a, a', tried, e, k1, .step himp k2, k3⟩
      · rw [exchanged_ntokens himp.exchanged] at k
        exact .inr ⟨e, k⟩
    · exact ⟨rfl, .inl ⟨ts, att, att', tried, rfl, hg, .refl, hgu⟩⟩
    · exact ⟨rfl, .inr ⟨rfl, ts, s, ts0, hg.made, rfl, h1, h2, h3, h4⟩⟩

/-- Statistics from a cache, for the same tokens in some order. -/
theorem cached_right {c : Which} {ts : OSet} {st : OStats} (h : Cached env lit c ts st) :
    ∃ ts0, Made ts0 ∧ (strings ts0).Perm (strings ts) ∧ ts0.literal = lit ∧ Right ts0 (env.samples c) false st := by
  obtain ⟨ts0, st0, pairs, h1, h2, ⟨f, h3, h4, h5⟩, rfl⟩ := h
  refine ⟨ts0, h1.made, h2, h1.literal, fresh_right ⟨f, h3, ?_, h5⟩ (by intro h; cases h)⟩
  exact ⟨h4.lc, h4.tlen, h4.llen, h4.scanned, h4.tok, h4.lit, fun k => rfl, h4.total⟩

theorem wp_optimizeBpe (he : Usable env) (hsmall : env.mid.flatten.length < 2 ^ 32) {ntokens block : Nat}
    (hN : ntokens ≤ 65536) (hb : 0 < block) {ts : OSet} (hg : Good lit ts) (hbig : ts.tokens.length ≤ 65536) {fuel : Nat}
    (hf1 : ntokens - ts.ntokens ≤ fuel) (hf2 : tot ts env.mid < fuel) {sv : Saved} :
    (optimizeBpe fuel ts ntokens block).wp env lit sv (fun r sv' => sv' = sv ∧
      ((∃ ts1 ts' st a a' tried, r = .ok (ts', st) ∧ Good lit ts' ∧ Made ts1 ∧ Grown env .mid ts ts1 ∧ Steps env ts1 ts' ∧
          ts1.ntokens = max ntokens ts.ntokens ∧ GaveUp env ts' a a' tried ∧ Cached env lit .mid ts' st) ∨
        (r = .error .unwrapNone ∧ Exhausted env (max ntokens ts.ntokens)) ∨
        (r = .error .fuel ∧ ∃ ts', Good lit ts' ∧ Grown env .mid ts ts' ∧ ts'.ntokens < ntokens ∧ AllTokens ts' env.mid))) := by
  refine wp_bind' (wp_mono _ ?_ (wp_addTokensBpe he .mid hN hb fuel hg hf1))
  rintro r sv' ⟨rfl, h⟩
  rcases h with ⟨ts1, rfl, hg1, hgr, hn1⟩ | ⟨rfl, h⟩
  · obtain ⟨added, e, _⟩ := hgr.strings
    have hle := tot_added e (hg1.literal.trans hg.literal.symm) env.mid
    have hb1 : ts1.tokens.length ≤ 65536 := by
      by_cases hm : ntokens ≤ ts.ntokens
      · have : ts1.tokens.length = ts.tokens.length := by
          have h1 := hn1
          rw [Nat.max_eq_right hm] at h1
          unfold OSet.ntokens at h1
          rw [hg1.literal, hg.literal] at h1
          omega
        omega
      · have := length_le_ntokens ts1
        omega
    refine wp_bind' (wp_mono _ ?_ (wp_bpeLoop he hsmall fuel (fun _ => 0) hg1 hb1 (by omega)))
    rintro r sv'' ⟨rfl, h⟩
    rcases h with ⟨ts', a, a', tried, rfl, k1, k2, k3⟩ | ⟨rfl, k⟩
    · refine ⟨k1, ?_⟩
      intro st hst
      exact ⟨rfl, .inl ⟨ts1, ts', st, a, a', tried, rfl, k1, hg1.made, hgr, k2, hn1, k3, hst⟩⟩
    · rw [hn1] at k
      exact ⟨rfl, .inr (.inl ⟨rfl, k⟩)⟩
  · exact ⟨rfl, .inr (.inr ⟨rfl, h⟩)⟩

/-! ### `optimize_token_set` -/

/-- What holds between rounds: the saved sets are right, and `best` is the cost of one that costs least. -/
structure Inv (env : Env) (lit : LiteralEncoding) (n top : Nat) (best : Nat) (sv : Saved) : Prop where
  ok : SavedOk env lit n top sv
  least : ∀ p ∈ sv, best ≤ p.2.cost
  is : ∃ p ∈ sv, p.2.cost = best

theorem _root_.Tokens.Spec.Old.SavedOk.snoc {n top : Nat} {sv : Saved} (h : SavedOk env lit n top sv) {ts : OSet} {st : OStats} (hg : Good lit ts)
    (hn : ts.ntokens = n) (hr : Right ts env.slow false st) (hc : ∀ p ∈ sv, st.cost ≤ p.2.cost)
    (ht : st.cost ≤ top) : SavedOk env lit n top (sv ++ [(ts, st)]) := by
  refine ⟨?_, ?_, ?_⟩
  · intro p hp
    rcases List.mem_append.1 hp with hp | hp
    · exact h.each p hp
    · rw [List.mem_singleton] at hp
      subst hp
      exact ⟨hg.made, hg.noZero, hg.literal, hn, hr⟩
  · rw [List.pairwise_append]
    refine ⟨h.order, List.pairwise_singleton _ _, ?_⟩
    intro p hp q hq
    rw [List.mem_singleton] at hq
    subst hq
    exact hc p hp
  · intro p hp
    rcases List.mem_append.1 hp with hp | hp
    · exact h.top p hp
    · rw [List.mem_singleton] at hp
      subst hp
      exact ht

theorem Inv.save {n top best : Nat} {sv : Saved} (h : Inv env lit n top best sv) {ts : OSet} {st : OStats} (hg : Good lit ts)
    (hn : ts.ntokens = n) (hr : Right ts env.slow false st) (hc : st.cost ≤ best) : Inv env lit n top st.cost (sv ++ [(ts, st)]) := by
  have ht : st.cost ≤ top := by
    obtain ⟨p, hp, e⟩ := h.is
    have := h.ok.top p hp
    omega
  refine ⟨h.ok.snoc hg hn hr (fun p hp => Nat.le_trans hc (h.least p hp)) ht, ?_, ⟨(ts, st), by simp, rfl⟩⟩
  intro p hp
  rcases List.mem_append.1 hp with hp | hp
  · exact Nat.le_trans hc (h.least p hp)
  · rw [List.mem_singleton] at hp
    subst hp
    exact Nat.le_refl _

theorem fresh_right' {ts : OSet} {st : OStats} (h : Fresh ts env.slow false st) : Right ts env.slow false st :=
  fresh_right h (by intro h; cases h)

/-- The statistics on the slow samples, then `optimize_byte_tokens`. -/
theorem wp_bytes {ts : OSet} (hg : Good lit ts) (hfx : fixed ts = []) {β : Type} {K : OStats → Bool × OSet → Prog β}
    {Q : R β → Saved → Prop} {sv : Saved}
    (h : ∀ st ch ts' f removed added, (∀ x, Cheapest ts x (f x)) → Fresh ts env.slow false st →
      BestBytes ts ts' (env.slow.map f) removed added → Good lit ts' → (ch = false → ts' = ts) → (ch = true → added ≠ []) →
      (K st (ch, ts')).wp env lit sv Q) :
    (slowStats ts >>= fun st => optimizeByteTokens ts st >>= K st).wp env lit sv Q := by
  refine ⟨hg, ?_⟩
  intro st hst
  obtain ⟨f, hf, ht, hlo⟩ := hst
  show (optimizeByteTokens ts st >>= K st).wp env lit sv Q
  refine wp_bind' (wp_mono _ ?_ (wp_optimizeByteTokens hg (.inl fun b => by rw [hfx]; simp) hf ht))
  rintro r sv' ⟨rfl, ch, ts', removed, added, rfl, h1, h2, h3, h4⟩
  exact h st ch ts' f removed added hf ⟨f, hf, ht, hlo⟩ h2 (best_good hg h1 h2) h3 h4

theorem wp_sometimes {n top best : Nat} {ts : OSet} (hg : Good lit ts) (hfx : fixed ts = []) (hn : ts.ntokens = n) {sv : Saved}
    (hi : Inv env lit n top best sv) : (sometimes ts best).wp env lit sv (fun r sv' => ∃ ts' best', r = .ok (ts', best') ∧
      Good lit ts' ∧ fixed ts' = [] ∧ ts'.ntokens = n ∧ Inv env lit n top best' sv') := by
  intro b
  cases b with
  | false => exact ⟨ts, best, rfl, hg, hfx, hn, hi⟩
  | true =>
    refine wp_bytes hg hfx (K := fun st p => (do
      let st ← if p.1 then slowStats p.2 else pure st
      if st.cost < best then do
        saveTokenSet p.2 st
        return (p.2, st.cost)
      else return (p.2, best))) ?_
    intro st ch ts' f removed added hf hst hbb hg' h1 h2
    have hfx' : fixed ts' = [] := hbb.fixed.trans hfx
    have hn' : ts'.ntokens = n := (best_nt hbb).trans hn
    have hend : ∀ st', Right ts' env.slow false st' → ((if st'.cost < best then do
        saveTokenSet ts' st'
        return (ts', st'.cost)
      else return (ts', best)) : Prog (OSet × Nat)).wp env lit sv (fun r sv' => ∃ ts' best', r = .ok (ts', best') ∧
        Good lit ts' ∧ fixed ts' = [] ∧ ts'.ntokens = n ∧ Inv env lit n top best' sv') := by
      intro st' hr
      by_cases hlt : st'.cost < best
      · rw [if_pos hlt]
        exact ⟨ts', st'.cost, rfl, hg', hfx', hn', hi.save hg' hn' hr (by omega)⟩
      · rw [if_neg hlt]
        exact ⟨ts', best, rfl, hg', hfx', hn', hi⟩
    cases ch with
    | false =>
      obtain rfl := h1 rfl
      exact hend st (fresh_right' hst)
    | true =>
      refine ⟨hg', ?_⟩
      intro st' hst'
      exact hend st' (fresh_right' hst')

theorem wp_setLoop (he : Usable env) (hsmall : env.mid.flatten.length < 2 ^ 32) {n top : Nat} : ∀ (fuel : Nat) {ts : OSet}
    {best : Nat} (att : Attempts) {sv : Saved}, Good lit ts → fixed ts = [] → ts.tokens.length ≤ 65536 → ts.ntokens = n →
    Inv env lit n top best sv → (setLoop fuel ts best att).wp env lit sv (fun r sv' =>
      (∃ ts' best', r = .ok (ts', best') ∧ Good lit ts' ∧ fixed ts' = [] ∧ ts'.ntokens = n ∧ Inv env lit n top best' sv' ∧
        ∃ b a tried, GaveUp env ts' b a tried) ∨
      (r = .error .fuel ∧ SavedOk env lit n top sv' ∧ sv' ≠ []) ∨ (r = .error .unwrapNone ∧ SavedOk env lit n top sv' ∧ sv' ≠ [] ∧ Exhausted env n)) := by
  have hne : ∀ {best : Nat} {sv : Saved}, Inv env lit n top best sv → sv ≠ [] := by
    rintro best sv hi rfl
    obtain ⟨p, hp, _⟩ := hi.is
    cases hp
  intro fuel
  induction fuel with
  | zero =>
    intro ts best att sv hg hfx hbig hn hi
    exact .inr (.inl ⟨rfl, hi.ok, hne hi⟩)
  | succ fuel ih =>
    intro ts best att sv hg hfx hbig hn hi
    rw [setLoop]
    refine wp_bind' (wp_mono _ ?_ (wp_removeAndAdd he hsmall hg hbig att))
    rintro r sv' ⟨rfl, h⟩
    rcases h with ⟨ts', att', s, s', tried, rfl, hg', himp, -⟩ | ⟨att', tried, rfl, hgu⟩ | ⟨rfl, s, ts0, h1, h2, h3, h4⟩
    · refine wp_bind' (wp_mono _ ?_ (wp_sometimes hg' (himp.exchanged.fixed.trans hfx)
        ((exchanged_ntokens himp.exchanged).trans hn) hi))
      rintro r sv'' ⟨ts2, best2, rfl, k1, k2, k3, k4⟩
      refine ih att' k1 k2 ?_ k3 k4
      have hlen := exchanged_length himp.exchanged
      have e1 : ts2.ntokens = ts.ntokens := k3.trans hn.symm
      unfold OSet.ntokens at e1
      rw [k1.literal, hg.literal] at e1
      omega
    · exact .inl ⟨ts, best, rfl, hg, hfx, hn, hi, _, _, _, hgu⟩
    · exact .inr (.inr ⟨rfl, hi.ok, hne hi, ts, s, ts0, hg.made, hn, h1, h2, h3, h4⟩)

/-- The set that was saved last costs `best`. -/
theorem Inv.last {n top best : Nat} {sv : Saved} (h : Inv env lit n top best sv) :
    ∃ l, sv.getLast? = some l ∧ l.2.cost = best := by
  obtain ⟨p, hp, hc⟩ := h.is
  obtain ⟨as, l, rfl⟩ : ∃ as l, sv = as ++ [l] := by
    rcases List.eq_nil_or_concat sv with rfl | ⟨as, l, rfl⟩
    · cases hp
    · exact ⟨as, l, List.concat_eq_append⟩
  refine ⟨l, List.getLast?_concat, ?_⟩
  have h1 := h.least l (by simp)
  rcases List.mem_append.1 hp with hp | hp
  · have := (List.pairwise_append.1 h.ok.order).2.2 p hp l (by simp)
    omega
  · rw [List.mem_singleton] at hp
    rw [← hp, hc]

theorem wp_finishSet {n top : Nat} {best : Nat} {ts : OSet} (hg : Good lit ts) (hfx : fixed ts = []) (hn : ts.ntokens = n)
    {before after : Attempts} {tried : List Bytes} (hgu : GaveUp env ts before after tried)
    {sv : Saved} (hi : Inv env lit n top best sv) : (finishSet ts best).wp env lit sv (fun r sv' =>
      SavedOk env lit n top sv' ∧ sv' ≠ [] ∧ (r = .ok () → Final env n sv') ∧ Outcome env n r ∧ r ≠ .error .fuel) := by
  have hne : sv ≠ [] := by
    rintro rfl
    obtain ⟨p, hp, _⟩ := hi.is
    cases hp
  refine wp_bytes hg hfx (K := fun st p => (do
    let st ← if p.1 then do
        let st' ← slowStats p.2
        Prog.lift (rassert (decide (st'.cost < st.cost)))
        pure st'
      else pure st
    if st.cost ≤ best then saveTokenSet p.2 st else return ())) ?_
  intro st ch ts' f removed added hf hst hbb hg' h1 h2
  have hn' : ts'.ntokens = n := (best_nt hbb).trans hn
  have hfin : ∀ st', Right ts' env.slow false st' → st'.cost = tot ts' env.slow → ∀ {sv' : Saved} (last : OSet × OStats),
      sv'.getLast? = some last → last.2.cost ≤ st'.cost → Final env n sv' := by
    intro st' hr hc sv' last hl hle
    refine ⟨ts, ts', before, after, tried, _, removed, added, last, hg.made, hn, hgu, forall2_map hf _, hbb, hl, ?_⟩
    intro c hc'
    rw [isCost_iff.1 hc', ← hc]
    exact hle
  have hend : ∀ st', Right ts' env.slow false st' → st'.cost = tot ts' env.slow → ((if st'.cost ≤ best then saveTokenSet ts' st' else return ()) :
      Prog Unit).wp env lit sv (fun r sv' => SavedOk env lit n top sv' ∧ sv' ≠ [] ∧ (r = .ok () → Final env n sv') ∧ Outcome env n r ∧ r ≠ .error .fuel) := by
    intro st' hr hc
    by_cases hle : st'.cost ≤ best
    · rw [if_pos hle]
      refine ⟨(hi.save hg' hn' hr hle).ok, by simp, fun _ => hfin st' hr hc (ts', st') List.getLast?_concat (Nat.le_refl _), trivial, (by intro h; cases h)⟩
    · rw [if_neg hle]
      obtain ⟨last, h1, h2⟩ := hi.last
      exact ⟨hi.ok, hne, fun _ => hfin st' hr hc last h1 (by omega), trivial, (by intro h; cases h)⟩
  cases ch with
  | false =>
    obtain rfl := h1 rfl
    exact hend st (fresh_right' hst) (fresh_cost hst)
  | true =>
    refine ⟨hg', ?_⟩
    intro st' hst'
    have c1 := fresh_cost hst
    have c2 : st'.cost = tot ts' env.slow := fresh_cost hst'
    have hle := best_le hg.ok hf hbb
    by_cases hlt : st'.cost < st.cost
    · have e : rassert (decide (st'.cost < st.cost)) = .ok () := rassert_true (by simpa using hlt)
      show (Prog.lift (rassert (decide (st'.cost < st.cost))) >>= _ : Prog _).wp env lit sv _
      rw [e]
      exact hend st' (fresh_right' hst') c2
    · have e : rassert (decide (st'.cost < st.cost)) = .error .assertFailed := by
        rw [decide_eq_false hlt]; rfl
      show (Prog.lift (rassert (decide (st'.cost < st.cost))) >>= _ : Prog _).wp env lit sv _
      rw [e]
      refine ⟨hi.ok, hne, (by intro h; cases h), ⟨ts, ts', _, removed, added, tot ts env.slow, hg.made, hn, forall2_map hf _, hbb, h2 rfl,
        isCost_iff.2 rfl, isCost_iff.2 ?_⟩, (by intro h; cases h)⟩
      omega

theorem wp_startSet (he : Usable env) {ntokens block : Nat} (hN : ntokens ≤ 65536) {ts : OSet} (hb : ts.ntokens < ntokens → 0 < block)
    (hg : Good lit ts) (hfx : fixed ts = []) {fuel : Nat} (hf : ntokens - ts.ntokens ≤ fuel) :
    (startSet fuel ts ntokens block).wp env lit [] (fun r sv' =>
      (∃ ts' best, r = .ok (ts', best) ∧ Good lit ts' ∧ fixed ts' = [] ∧ ts'.ntokens = max ntokens ts.ntokens ∧
        Inv env lit (max ntokens ts.ntokens) (tot ts env.slow) best sv') ∨
      (r = .error .fuel ∧ sv' = [] ∧ Stuck env ts ntokens)) := by
  have hmain : ∀ {ts1 : OSet}, Good lit ts1 → fixed ts1 = [] → ts1.ntokens = max ntokens ts.ntokens →
      tot ts1 env.slow ≤ tot ts env.slow → (slowStats ts1 >>= fun st => optimizeByteTokens ts1 st >>= fun p => (do
        let st ← if p.1 then do
            let st' ← slowStats p.2
            Prog.lift (rassert (decide (st'.cost ≤ st.cost)))
            pure st'
          else pure st
        saveTokenSet p.2 st
        return (p.2, st.cost))).wp env lit [] (fun r sv' =>
      (∃ ts' best, r = .ok (ts', best) ∧ Good lit ts' ∧ fixed ts' = [] ∧ ts'.ntokens = max ntokens ts.ntokens ∧
        Inv env lit (max ntokens ts.ntokens) (tot ts env.slow) best sv') ∨
      (r = .error .fuel ∧ sv' = [] ∧ Stuck env ts ntokens)) := by
    intro ts1 hg1 hfx1 hn1 htop
    refine wp_bytes hg1 hfx1 ?_
    intro st ch ts' f removed added hf hst hbb hg' h1 h2
    have hn' : ts'.ntokens = max ntokens ts.ntokens := (best_nt hbb).trans hn1
    have hle := best_le hg1.ok hf hbb
    have hend : ∀ st', Right ts' env.slow false st' → st'.cost = tot ts' env.slow → Inv env lit (max ntokens ts.ntokens) (tot ts env.slow) st'.cost ([] ++ [(ts', st')]) := by
      intro st' hr hc
      refine ⟨SavedOk.snoc ⟨by simp, List.Pairwise.nil, by simp⟩ hg' hn' hr (by simp) (by omega), by simp, ⟨(ts', st'), by simp, rfl⟩⟩
    cases ch with
    | false =>
      obtain rfl := h1 rfl
      exact .inl ⟨ts', st.cost, rfl, hg', hbb.fixed.trans hfx1, hn', hend st (fresh_right' hst) (fresh_cost hst)⟩
    | true =>
      refine ⟨hg', ?_⟩
      intro st' hst'
      have c1 := fresh_cost hst
      have c2 : st'.cost = tot ts' env.slow := fresh_cost hst'
      have e : rassert (decide (st'.cost ≤ st.cost)) = .ok () := rassert_true (by simp; omega)
      show (Prog.lift (rassert (decide (st'.cost ≤ st.cost))) >>= _ : Prog _).wp env lit [] _
      rw [e]
      exact .inl ⟨ts', st'.cost, rfl, hg', hbb.fixed.trans hfx1, hn', hend st' (fresh_right' hst') c2⟩
  unfold startSet
  by_cases hlt : ts.ntokens < ntokens
  · rw [if_pos hlt]
    refine wp_bind' (wp_mono _ ?_ (wp_addTokensBpe he .mid hN (hb hlt) fuel hg hf))
    rintro r sv' ⟨rfl, h⟩
    rcases h with ⟨ts1, rfl, hg1, hgr, hn1⟩ | ⟨rfl, h⟩
    · obtain ⟨added, e, _⟩ := hgr.strings
      exact hmain hg1 (hgr.fixed.trans hfx) hn1 (tot_added e (hg1.literal.trans hg.literal.symm) env.slow)
    · obtain ⟨ts', g1, g2⟩ := h
      exact .inr ⟨rfl, rfl, ts', g1.made, g2⟩
  · rw [if_neg hlt]
    exact hmain hg hfx (by omega) (Nat.le_refl _)

theorem wp_optimizeTokenSet (he : Usable env) (hsmall : env.mid.flatten.length < 2 ^ 32) {ntokens block : Nat}
    (hN : ntokens ≤ 65536) {ts : OSet} (hb : ts.ntokens < ntokens → 0 < block) (hg : Good lit ts) (hfx : fixed ts = [])
    (hbig : ts.tokens.length ≤ 65536) {fuel : Nat} (hf : ntokens - ts.ntokens ≤ fuel) :
    (optimizeTokenSet fuel ts ntokens block).wp env lit [] (fun r sv' =>
      SavedOk env lit (max ntokens ts.ntokens) (tot ts env.slow) sv' ∧ (sv' = [] → ∃ e, r = .error e) ∧
      (r = .ok () → Final env (max ntokens ts.ntokens) sv') ∧ Outcome env (max ntokens ts.ntokens) r) := by
  refine wp_bind' (wp_mono _ ?_ (wp_startSet he hN hb hg hfx hf))
  intro r sv' h
  rcases h with ⟨ts1, best, rfl, hg1, hfx1, hn1, hi⟩ | ⟨rfl, rfl, -⟩
  · have hb1 : ts1.tokens.length ≤ 65536 := by
      by_cases hm : ntokens ≤ ts.ntokens
      · have h1 := hn1
        rw [Nat.max_eq_right hm] at h1
        unfold OSet.ntokens at h1
        rw [hg1.literal, hg.literal] at h1
        omega
      · have := length_le_ntokens ts1
        omega
    refine wp_bind' (wp_mono _ ?_ (wp_setLoop he hsmall fuel (fun _ => 0) hg1 hfx1 hb1 hn1 hi))
    intro r sv'' h
    rcases h with ⟨ts2, best2, rfl, hg2, hfx2, hn2, hi2, ab, aa, tried, hgu⟩ | ⟨rfl, h1, h2⟩ | ⟨rfl, h1, h2, h3⟩
    · refine wp_mono _ ?_ (wp_finishSet hg2 hfx2 hn2 hgu hi2)
      rintro r sv3 ⟨k1, k2, k4, k3, -⟩
      exact ⟨k1, fun h => absurd h k2, k4, k3⟩
    · exact ⟨h1, fun h => absurd h h2, (by intro h; cases h), trivial⟩
    · exact ⟨h1, fun h => absurd h h2, (by intro h; cases h), h3⟩
  · exact ⟨⟨by simp, List.Pairwise.nil, by simp⟩, fun _ => ⟨_, rfl⟩, (by intro h; cases h), trivial⟩

end Tokens.Old
