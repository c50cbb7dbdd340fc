import Verif.Props.Batch
import Verif.Proofs.Sizes
import Verif.Spec.Optimizing

/-! What programs of the optimizer do, with the cache reasoned away: `wp` and its soundness. -/

set_option linter.unusedSimpArgs false
set_option linter.unusedVariables false

namespace Tokens
open Spec TokenSet Batch

namespace Optimize

def Prog.wp (env : Env) (S : TokenSet → Prop) {α : Type} : Prog α → (R α → Prop) → Prop
  | .pure a, Q => Q (.ok a)
  | .fail e, Q => Q (.error e)
  | .stats ts k, Q => Family ts ∧ ∀ st, Fresh env ts st → (k st.cloneWithoutPairs).wp env S Q
  | .pairs ts k, Q => Family ts ∧ ∀ st, Fresh env ts st → (k st).wp env S Q
  | .sortUnstable key l k, Q => ∀ l', l'.Perm l → l'.Pairwise (fun a b => key a ≤ key b) →
      (k l').wp env S Q
  | .clock k, Q => ∀ b, (k b).wp env S Q
  | .save ts k, Q => S ts ∧ SeqsInRange ts ∧ k.wp env S Q

variable {env : Env} {S : TokenSet → Prop}

/-- What comes after a result. -/
def andThen {α β : Type} (env : Env) (S : TokenSet → Prop) (f : α → Prog β) (Q : R β → Prop) : R α → Prop
  | .ok a => (f a).wp env S Q
  | .error e => Q (.error e)

theorem wp_bind {α β : Type} (p : Prog α) (f : α → Prog β) (Q : R β → Prop) :
    (p.bind f).wp env S Q ↔ p.wp env S (andThen env S f Q) := by
  induction p with
  | pure a => exact Iff.rfl
  | fail e => exact Iff.rfl
  | stats ts k ih => exact and_congr Iff.rfl (forall_congr' fun st => imp_congr Iff.rfl (ih _))
  | pairs ts k ih => exact and_congr Iff.rfl (forall_congr' fun st => imp_congr Iff.rfl (ih _))
  | sortUnstable key l k ih =>
    exact forall_congr' fun l' => imp_congr Iff.rfl (imp_congr Iff.rfl (ih _))
  | clock k ih => exact forall_congr' fun b => ih _
  | save ts k ih => exact and_congr Iff.rfl (and_congr Iff.rfl ih)

theorem wp_mono {α : Type} (p : Prog α) {Q Q' : R α → Prop} (h : ∀ r, Q r → Q' r) :
    p.wp env S Q → p.wp env S Q' := by
  induction p with
  | pure a => exact h _
  | fail e => exact h _
  | stats ts k ih => exact fun hp => ⟨hp.1, fun st hs => ih _ (hp.2 st hs)⟩
  | pairs ts k ih => exact fun hp => ⟨hp.1, fun st hs => ih _ (hp.2 st hs)⟩
  | sortUnstable key l k ih => exact fun hp l' h1 h2 => ih _ (hp l' h1 h2)
  | clock k ih => exact fun hp b => ih _ (hp b)
  | save ts k ih => exact fun hp => ⟨hp.1, hp.2.1, ih hp.2.2⟩

theorem wp_bind' {α β : Type} {p : Prog α} {f : α → Prog β} {Q : R β → Prop}
    (h : p.wp env S (andThen env S f Q)) : (p >>= f).wp env S Q := (wp_bind p f Q).2 h

/-- A call without interaction that succeeds. -/
theorem wp_lift {α β : Type} {x : R α} {a : α} (hx : x = .ok a) {f : α → Prog β} {Q : R β → Prop}
    (h : (f a).wp env S Q) : (Prog.lift x >>= f).wp env S Q := by
  apply wp_bind'
  rw [hx]
  exact h

theorem wp_lift_error {α β : Type} {x : R α} {e : Err} (hx : x = .error e) {f : α → Prog β}
    {Q : R β → Prop} (h : Q (.error e)) : (Prog.lift x >>= f).wp env S Q := by
  apply wp_bind'
  rw [hx]
  exact h

theorem wp_getStats {β : Type} {ts : TokenSet} {f : TokenStats → Prog β} {Q : R β → Prop}
    (hf : Family ts) (h : ∀ st, Fresh env ts st → (f st.cloneWithoutPairs).wp env S Q) :
    (getStats ts >>= f).wp env S Q := wp_bind' ⟨hf, h⟩

theorem wp_getPairs {β : Type} {ts : TokenSet} {f : TokenStats → Prog β} {Q : R β → Prop}
    (hf : Family ts) (h : ∀ st, Fresh env ts st → (f st).wp env S Q) :
    (getStatsWithPairs ts >>= f).wp env S Q := wp_bind' ⟨hf, h⟩

/-! ### Soundness -/

theorem family_sort {ts : TokenSet} (h : Family ts) : ∃ ts', ts.sort = .ok ts' ∧ Family ts' ∧
    SeqsInRange ts' ∧ Identified ts' ∧ ∃ key, getKey ts' = .ok key := by
  obtain ⟨ts', hs⟩ := (sort_ok_iff ts).2 (Tokens.Family.usable h).inRange
  have hr := sort_inRange hs
  have hf := sort_family h hs
  exact ⟨ts', hs, hf, hr, family_identified hf, (jsonOf ts').render, by
    unfold getKey; rw [toJson_eq ts' hr]; rfl⟩

theorem fresh_exists (env : Env) {ts : TokenSet} (h : Family ts) : ∃ st, Fresh env ts st := by
  obtain ⟨ts', h1, h2, h3, _⟩ := family_sort h
  obtain ⟨st, h4⟩ := sync_exists (Tokens.Family.usable h2).accepted h3 env.sampler.samples env.initialSize
  exact ⟨st, ts', h1, h4⟩

theorem fresh_unique {env : Env} {ts : TokenSet} {x y : TokenStats} (hx : Fresh env ts x)
    (hy : Fresh env ts y) : x = y := by
  obtain ⟨a, h1, h2⟩ := hx
  obtain ⟨b, h3, h4⟩ := hy
  have := Except.ok.inj (h1.symm.trans h3)
  subst this
  exact Except.ok.inj (h2.symm.trans h4)

theorem tokenize_fails_not {ts : TokenSet} (he : EnvOk env) (ht : Tokenizable ts) (hr : SeqsInRange ts) :
    ¬ TokenizeFails ts env := by
  intro h
  cases h with
  | sync _ hs =>
    obtain ⟨st, h⟩ := sync_exists ht hr env.sampler.samples env.initialSize
    rw [h] at hs; cases hs
  | new _ hn =>
    obtain ⟨tk, h, _⟩ := FragmentTokenizer.new_ok_of ht
    rw [h] at hn; cases hn
  | stuck hsz hn hs hst hret =>
    rcases he.2 with h | h
    · exact hsz (by simpa using h)
    · exact hret (Props.C08_every_maximal_run_returns ts _ hn hr _ h _ _ he.1 _ hs hst).1

theorem tokenize_exists {ts : TokenSet} (he : EnvOk env) (ht : Tokenizable ts) (hr : SeqsInRange ts) :
    ∃ st, TokenizeFile ts env.sampler env.initialSize env.nthreads st := by
  by_cases hsz : env.sampler.totalSize < 1 <<< 25
  · obtain ⟨st, h⟩ := sync_exists ht hr env.sampler.samples env.initialSize
    exact ⟨st, .sync hsz h⟩
  · obtain ⟨tk, hn, _⟩ := FragmentTokenizer.new_ok_of ht
    obtain ⟨s, h1, h2⟩ := exists_stuck tk (pinit ts env.sampler.samples env.initialSize env.nthreads)
    rcases he.2 with h | h
    · exact absurd (by simpa using h) hsz
    · exact ⟨_, .par hsz hn h1 (Props.C08_every_maximal_run_returns ts _ hn hr _ h _ _ he.1 _ h1 h2).1⟩

/-- The cache of a world holds fresh statistics only. -/
def WorldOk (env : Env) (w : World) : Prop := CacheOk env.sampler env.initialSize env.nthreads w.cache

theorem stats_ok (he : EnvOk env) {c c' : Cache} {ts : TokenSet} {st : TokenStats} (hf : Family ts)
    (hc : CacheOk env.sampler env.initialSize env.nthreads c)
    (hg : GetStats env.sampler env.initialSize env.nthreads c ts c' st) :
    CacheOk env.sampler env.initialSize env.nthreads c' ∧
      ∃ full, Fresh env ts full ∧ st = full.cloneWithoutPairs := by
  cases hg with
  | hit hs hk hk' =>
    refine ⟨hc, ?_⟩
    obtain ⟨t, full, h1, h2, h3, h4, h5⟩ := hc _ st hk'
    have hfs := sort_family hf hs
    have := getKey_inj (family_identified hfs) h1 (sort_inRange hs) h2 hk h3
    subst this
    exact ⟨full, ⟨_, hs, Props.C07_tokenize_file _ h2 _ _ _ he.1 _ h4⟩, h5⟩
  | miss hs hk hk' ht =>
    have hfs := sort_family hf hs
    refine ⟨cacheOk_insert hc (family_identified hfs) (sort_inRange hs) hk ht, _, ⟨_, hs,
      Props.C07_tokenize_file _ (sort_inRange hs) _ _ _ he.1 _ ht⟩, rfl⟩

theorem pairs_ok (he : EnvOk env) {c c' : Cache} {ts : TokenSet} {st : TokenStats} (hf : Family ts)
    (hc : CacheOk env.sampler env.initialSize env.nthreads c)
    (hg : GetStatsWithPairs env.sampler env.initialSize env.nthreads c ts c' st) :
    CacheOk env.sampler env.initialSize env.nthreads c' ∧ Fresh env ts st := by
  cases hg with
  | mk hs ht hk =>
    have hfs := sort_family hf hs
    exact ⟨cacheOk_insert hc (family_identified hfs) (sort_inRange hs) hk ht, _, hs,
      Props.C07_tokenize_file _ (sort_inRange hs) _ _ _ he.1 _ ht⟩

theorem stats_fails_not (he : EnvOk env) {c : Cache} {ts : TokenSet} (hf : Family ts) :
    ¬ StatsFails env c ts := by
  obtain ⟨ts', h1, h2, h3, _, key, h4⟩ := family_sort hf
  intro h
  cases h with
  | sort h => rw [h1] at h; cases h
  | key hs hk =>
    have := Except.ok.inj (hs.symm.trans h1); subst this
    rw [h4] at hk; cases hk
  | tokenize hs hk hc ht =>
    have := Except.ok.inj (hs.symm.trans h1); subst this
    exact tokenize_fails_not he (Tokens.Family.usable h2).accepted h3 ht

theorem pairs_fails_not (he : EnvOk env) {ts : TokenSet} (hf : Family ts) : ¬ PairsFails env ts := by
  obtain ⟨ts', h1, h2, h3, _, key, h4⟩ := family_sort hf
  intro h
  cases h with
  | sort h => rw [h1] at h; cases h
  | key hs hk =>
    have := Except.ok.inj (hs.symm.trans h1); subst this
    rw [h4] at hk; cases hk
  | tokenize hs ht =>
    have := Except.ok.inj (hs.symm.trans h1); subst this
    exact tokenize_fails_not he (Tokens.Family.usable h2).accepted h3 ht

theorem savedFile_ok {ts : TokenSet} (hr : SeqsInRange ts) : ∃ f, savedFile ts = .ok f := by
  unfold savedFile
  rw [toJson_eq ts hr]
  exact ⟨_, rfl⟩

/-- What the files written since `w` may be. -/
def Wrote (S : TokenSet → Prop) (w w' : World) : Prop :=
  ∃ l, w'.saved = w.saved ++ l ∧ ∀ f ∈ l, ∃ ts, S ts ∧ savedFile ts = .ok f

theorem Wrote.refl (S : TokenSet → Prop) (w : World) : Wrote S w w := ⟨[], by simp, by simp⟩

theorem Wrote.trans {S : TokenSet → Prop} {a b c : World} (h1 : Wrote S a b) (h2 : Wrote S b c) :
    Wrote S a c := by
  obtain ⟨l, e1, f1⟩ := h1
  obtain ⟨m, e2, f2⟩ := h2
  refine ⟨l ++ m, by rw [e2, e1, List.append_assoc], ?_⟩
  intro f hf
  rcases List.mem_append.1 hf with h | h
  · exact f1 f h
  · exact f2 f h

theorem wp_sound (he : EnvOk env) {α : Type} {p : Prog α} {w w' : World} {r : R α}
    (hr : Run env p w r w') : ∀ {Q : R α → Prop}, p.wp env S Q → WorldOk env w →
      Q r ∧ WorldOk env w' ∧ Wrote S w w' := by
  induction hr with
  | pure => exact fun h hw => ⟨h, hw, .refl _ _⟩
  | fail => exact fun h hw => ⟨h, hw, .refl _ _⟩
  | stats hg _ ih =>
    intro Q h hw
    obtain ⟨h1, full, h2, h3⟩ := stats_ok he h.1 hw hg
    subst h3
    obtain ⟨a, b, c⟩ := ih (h.2 full h2) h1
    exact ⟨a, b, c⟩
  | statsFail hf => exact fun h hw => absurd hf (stats_fails_not he h.1)
  | pairs hg _ ih =>
    intro Q h hw
    obtain ⟨h1, h2⟩ := pairs_ok he h.1 hw hg
    obtain ⟨a, b, c⟩ := ih (h.2 _ h2) h1
    exact ⟨a, b, c⟩
  | pairsFail hf => exact fun h hw => absurd hf (pairs_fails_not he h.1)
  | sortUnstable hp hs _ ih => exact fun h hw => ih (h _ hp hs) hw
  | clock b _ ih => exact fun h hw => ih (h b) hw
  | save hf _ ih =>
    intro Q h hw
    obtain ⟨a, b, c⟩ := ih h.2.2 hw
    refine ⟨a, b, Wrote.trans ⟨[_], rfl, ?_⟩ c⟩
    intro f hf'
    simp at hf'
    subst hf'
    exact ⟨_, h.1, hf⟩
  | saveFail hf =>
    intro Q h hw
    obtain ⟨f, hf'⟩ := savedFile_ok h.2.1
    rw [hf'] at hf; cases hf

/-- The program has a run. -/
theorem wp_total (he : EnvOk env) {α : Type} (p : Prog α) : ∀ {Q : R α → Prop} {w : World},
    p.wp env S Q → WorldOk env w → ∃ r w', Run env p w r w' := by
  induction p with
  | pure a => exact fun _ _ => ⟨_, _, .pure⟩
  | fail e => exact fun _ _ => ⟨_, _, .fail⟩
  | stats ts k ih =>
    intro Q w h hw
    obtain ⟨ts', h1, h2, h3, _, key, h4⟩ := family_sort h.1
    obtain ⟨st, h5⟩ := tokenize_exists he (Tokens.Family.usable h2).accepted h3
    have : ∃ c' x, GetStats env.sampler env.initialSize env.nthreads w.cache ts c' x := by
      cases hc : w.cache key with
      | none => exact ⟨_, _, .miss h1 h4 hc h5⟩
      | some x => exact ⟨_, _, .hit h1 h4 hc⟩
    obtain ⟨c', x, hg⟩ := this
    obtain ⟨g1, full, g2, g3⟩ := stats_ok he h.1 hw hg
    subst g3
    obtain ⟨r, w', hrun⟩ := ih _ (w := ⟨c', w.saved⟩) (h.2 full g2) g1
    exact ⟨r, w', .stats hg hrun⟩
  | pairs ts k ih =>
    intro Q w h hw
    obtain ⟨ts', h1, h2, h3, _, key, h4⟩ := family_sort h.1
    obtain ⟨st, h5⟩ := tokenize_exists he (Tokens.Family.usable h2).accepted h3
    have hg : GetStatsWithPairs env.sampler env.initialSize env.nthreads w.cache ts _ st := .mk h1 h5 h4
    obtain ⟨g1, g2⟩ := pairs_ok he h.1 hw hg
    obtain ⟨r, w', hrun⟩ := ih _ (w := ⟨_, w.saved⟩) (h.2 st g2) g1
    exact ⟨r, w', .pairs hg hrun⟩
  | sortUnstable key l k ih =>
    intro Q w h hw
    have hp : (l.mergeSort (fun a b => decide (key a ≤ key b))).Perm l := List.mergeSort_perm _ _
    have hs : (l.mergeSort (fun a b => decide (key a ≤ key b))).Pairwise (fun a b => key a ≤ key b) := by
      have := List.pairwise_mergeSort (le := fun a b => decide (key a ≤ key b))
        (by intro a b c h1 h2; simp at *; omega) (by intro a b; simp; omega) l
      exact this.imp (by simp)
    obtain ⟨r, w', hrun⟩ := ih _ (h _ hp hs) hw
    exact ⟨r, w', .sortUnstable hp hs hrun⟩
  | clock k ih =>
    intro Q w h hw
    obtain ⟨r, w', hrun⟩ := ih true (h true) hw
    exact ⟨r, w', .clock true hrun⟩
  | save ts k ih =>
    intro Q w h hw
    obtain ⟨f, hf⟩ := savedFile_ok h.2.1
    obtain ⟨r, w', hrun⟩ := ih (w := ⟨w.cache, w.saved ++ [f]⟩) h.2.2 hw
    exact ⟨r, w', .save hf hrun⟩

end Optimize
end Tokens
