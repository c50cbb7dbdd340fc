import Verif.Model.Passes
import Verif.Spec.Passes
import Verif.Proofs.Json3
import Verif.Proofs.Batch
import Verif.Proofs.TokenSetOps

/-! The passes of the optimizer over the data. -/

set_option linter.unusedSimpArgs false
set_option linter.unusedVariables false

namespace Tokens
namespace Optimize
open Spec OptimizeBytes Batch TokenSet

variable {env : Env}

/-! ### Counting changes nothing -/

theorem runP_run {α} {p : Prog α} {w r w' n} (h : RunP env p w r w' n) : Run env p w r w' := by
  induction h with
  | pure => exact .pure
  | fail => exact .fail
  | hit hs hkey hc hk ih => exact .stats (.hit hs hkey hc) ih
  | miss hs hkey hc ht hk ih => exact .stats (.miss hs hkey hc ht) ih
  | statsFail hf => exact .statsFail hf
  | pairs hs ht hkey hk ih => exact .pairs (.mk hs ht hkey) ih
  | pairsFail hf => exact .pairsFail hf
  | sortUnstable hp hs hk ih => exact .sortUnstable hp hs ih
  | clock b hk ih => exact .clock b ih
  | save hf hk ih => exact .save hf ih
  | saveFail hf => exact .saveFail hf

theorem run_runP {α} {p : Prog α} {w r w'} (h : Run env p w r w') : ∃ n, RunP env p w r w' n := by
  induction h with
  | pure => exact ⟨_, .pure⟩
  | fail => exact ⟨_, .fail⟩
  | stats hg hk ih =>
    obtain ⟨n, ih⟩ := ih
    cases hg with
    | hit hs hkey hc => exact ⟨_, .hit hs hkey hc ih⟩
    | miss hs hkey hc ht => exact ⟨_, .miss hs hkey hc ht ih⟩
  | statsFail hf => exact ⟨_, .statsFail hf⟩
  | pairs hg hk ih =>
    obtain ⟨n, ih⟩ := ih
    cases hg with
    | mk hs ht hkey => exact ⟨_, .pairs hs ht hkey ih⟩
  | pairsFail hf => exact ⟨_, .pairsFail hf⟩
  | sortUnstable hp hs hk ih => exact ih.imp fun _ ih => .sortUnstable hp hs ih
  | clock b hk ih => exact ih.imp fun _ ih => .clock b ih
  | save hf hk ih => exact ih.imp fun _ ih => .save hf ih
  | saveFail hf => exact ⟨_, .saveFail hf⟩

theorem loopP_loop {bo nt ts rc w r w' k n} (h : LoopP env bo nt ts rc w r w' k n) :
    Loop env bo nt ts rc w r w' := by
  induction h with
  | stop hs => exact .stop (runP_run hs)
  | fail hs => exact .fail (runP_run hs)
  | again hs hsave _ ih => exact .again (runP_run hs) hsave ih
  | saveFail hs hsave => exact .saveFail (runP_run hs) hsave

theorem loop_loopP {bo nt ts rc w r w'} (h : Loop env bo nt ts rc w r w') :
    ∃ k n, LoopP env bo nt ts rc w r w' k n := by
  induction h with
  | stop hs => exact (run_runP hs).elim fun _ h => ⟨_, _, .stop h⟩
  | fail hs => exact (run_runP hs).elim fun _ h => ⟨_, _, .fail h⟩
  | again hs hsave _ ih =>
    obtain ⟨k, n, ih⟩ := ih
    exact (run_runP hs).elim fun _ h => ⟨_, _, .again h hsave ih⟩
  | saveFail hs hsave => exact (run_runP hs).elim fun _ h => ⟨_, _, .saveFail h hsave⟩

theorem implP_iff {bo nt ts w r w'} :
    (∃ k n, ImplP env bo nt ts w r w' k n) ↔ Impl env bo nt ts w r w' := by
  constructor
  · rintro ⟨k, n, h⟩
    cases h with
    | done h1 h2 h3 => exact .done (runP_run h1) (loopP_loop h2) (runP_run h3)
    | firstFail h1 => exact .firstFail (runP_run h1)
    | loopFail h1 h2 => exact .loopFail (runP_run h1) (loopP_loop h2)
  · intro h
    cases h with
    | done h1 h2 h3 =>
      obtain ⟨_, h1⟩ := run_runP h1
      obtain ⟨_, _, h2⟩ := loop_loopP h2
      obtain ⟨_, h3⟩ := run_runP h3
      exact ⟨_, _, .done h1 h2 h3⟩
    | firstFail h1 => exact (run_runP h1).elim fun _ h => ⟨_, _, .firstFail h⟩
    | loopFail h1 h2 =>
      obtain ⟨_, h1⟩ := run_runP h1
      obtain ⟨_, _, h2⟩ := loop_loopP h2
      exact ⟨_, _, .loopFail h1 h2⟩

theorem optimizeP_iff {nt p ty pre r w} :
    (∃ k n, OptimizeTokensetP env nt p ty pre r w k n) ↔ OptimizeTokenset env nt p ty pre r w := by
  constructor
  · rintro ⟨k, n, h⟩
    cases h with
    | run h1 h2 => exact .run (runP_run h1) (implP_iff.1 ⟨_, _, h2⟩)
    | startFail h1 => exact .startFail (runP_run h1)
  · intro h
    cases h with
    | run h1 h2 =>
      obtain ⟨_, h1⟩ := run_runP h1
      obtain ⟨_, _, h2⟩ := implP_iff.2 h2
      exact ⟨_, _, .run h1 h2⟩
    | startFail h1 => exact (run_runP h1).elim fun _ h => ⟨_, _, .startFail h⟩

/-! ### What the cache knows -/

/-- A call of `get_stats` on the set is a lookup. -/
def Known (c : Cache) (ts : TokenSet) : Prop :=
  ∃ ts' key st, ts.sort = .ok ts' ∧ getKey ts' = .ok key ∧ c key = some st

/-- The entries of the cache are for the sets of their keys. -/
def KeyOk (c : Cache) : Prop :=
  ∀ key st, c key = some st → getKey st.tokenSet = .ok key ∧ st.tokenSet.sort = .ok st.tokenSet

theorem keyOk_new : KeyOk (fun _ => none) := by intro k st h; simp at h

theorem tokenizeFile_set {ts : TokenSet} {s : SamplerData} {n : Option Nat} {nt : Nat} {st : TokenStats}
    (hr : SeqsInRange ts) (h : TokenizeFile ts s n nt st) : st.tokenSet = ts := by
  cases h with
  | sync h hs =>
    unfold tokenizeFileSync at hs
    cases hn : FragmentTokenizer.new ts with
    | error e => rw [hn] at hs; exact absurd hs (by simp [bind, Except.bind])
    | ok tk =>
      obtain ⟨d, hw⟩ := exists_work hn hr
      obtain ⟨st', h1, h2, _⟩ := sync_ok hn hw s.samples n
      unfold tokenizeFileSync at h1
      rw [h1] at hs
      rw [← Except.ok.inj hs]
      exact h2.tokenSet
  | par h hn hs hret =>
    obtain ⟨d, hw⟩ := exists_work hn hr
    exact (inv_steps hw (inv_init _ _ _) hs).stats.1.tokenSet

theorem known_insert {c : Cache} {ts : TokenSet} {key : Text} {st : TokenStats} (h : Known c ts) :
    Known (c.insert key st) ts := by
  obtain ⟨ts', k, st', h1, h2, h3⟩ := h
  unfold Cache.insert
  by_cases e : k = key
  · exact ⟨ts', k, st, h1, h2, by simp [e]⟩
  · exact ⟨ts', k, st', h1, h2, by simp [e, h3]⟩

theorem known_here {c : Cache} {ts ts' : TokenSet} {key : Text} {st : TokenStats}
    (hs : ts.sort = .ok ts') (hk : getKey ts' = .ok key) : Known (c.insert key st) ts :=
  ⟨ts', key, st, hs, hk, by simp [Cache.insert]⟩

theorem keyOk_insert {c : Cache} (h : KeyOk c) {ts ts' : TokenSet} {key : Text} {st : TokenStats}
    (hs : ts.sort = .ok ts') (hk : getKey ts' = .ok key) (hset : st.tokenSet = ts') :
    KeyOk (c.insert key st) := by
  intro k st' h'
  unfold Cache.insert at h'
  split at h'
  · next e =>
    have := Option.some.inj h'
    subst this
    subst e
    rw [hset]
    exact ⟨hk, sort_idem hs⟩
  · exact h k st' h'

theorem known_entry {c : Cache} (h : KeyOk c) {key : Text} {st : TokenStats} (hc : c key = some st) :
    Known c st.tokenSet :=
  ⟨_, key, st, (h key st hc).2, (h key st hc).1, hc⟩

/-! ### A budget of passes -/

/-- The program needs at most `n` passes if the cache knows `seen`; `Q` is told what is left and what the
cache knows at the end. -/
def Prog.pays {α : Type} : Prog α → List TokenSet → Nat → (α → List TokenSet → Nat → Prop) → Prop
  | .pure a, seen, n, Q => Q a seen n
  | .fail _, _, _, _ => True
  | .stats ts k, seen, n, Q =>
    (ts ∈ seen → ∀ st, (k st).pays (st.tokenSet :: seen) n Q) ∧
    (ts ∉ seen → 1 ≤ n ∧ ∀ st, (k st).pays (st.tokenSet :: ts :: seen) (n - 1) Q)
  | .pairs ts k, seen, n, Q => 1 ≤ n ∧ ∀ st, (k st).pays (st.tokenSet :: ts :: seen) (n - 1) Q
  | .sortUnstable _ l k, seen, n, Q => ∀ l', l'.Perm l → (k l').pays seen n Q
  | .clock k, seen, n, Q => ∀ b, (k b).pays seen n Q
  | .save _ k, seen, n, Q => k.pays seen n Q

theorem pays_bind {α β : Type} (p : Prog α) (f : α → Prog β) (seen : List TokenSet) (n : Nat)
    (Q : β → List TokenSet → Nat → Prop) :
    (p >>= f).pays seen n Q ↔ p.pays seen n (fun a s m => (f a).pays s m Q) := by
  show (p.bind f).pays seen n Q ↔ _
  induction p generalizing seen n with
  | pure a => exact Iff.rfl
  | fail e => exact Iff.rfl
  | stats ts k ih => simp only [Prog.bind, Prog.pays, ih]
  | pairs ts k ih => simp only [Prog.bind, Prog.pays, ih]
  | sortUnstable key l k ih => simp only [Prog.bind, Prog.pays, ih]
  | clock k ih => simp only [Prog.bind, Prog.pays, ih]
  | save ts k ih => simp only [Prog.bind, Prog.pays, ih]

theorem pays_lift {α : Type} (r : R α) (seen : List TokenSet) (n : Nat)
    (Q : α → List TokenSet → Nat → Prop) :
    (Prog.lift r).pays seen n Q ↔ ∀ a, r = .ok a → Q a seen n := by
  cases r with
  | ok a =>
    constructor
    · intro h b hb
      have := Except.ok.inj hb
      subst this
      exact h
    · intro h; exact h a rfl
  | error e =>
    constructor
    · intro _ a h; exact absurd h (by simp)
    · intro _; trivial

theorem pays_pure {α : Type} (a : α) (seen : List TokenSet) (n : Nat)
    (Q : α → List TokenSet → Nat → Prop) : (pure a : Prog α).pays seen n Q ↔ Q a seen n := Iff.rfl

theorem pays_pure' {α : Type} (a : α) (seen : List TokenSet) (n : Nat)
    (Q : α → List TokenSet → Nat → Prop) : (Prog.pure a : Prog α).pays seen n Q ↔ Q a seen n := Iff.rfl

theorem pays_mono {α : Type} {p : Prog α} {seen : List TokenSet} {n : Nat}
    {Q Q' : α → List TokenSet → Nat → Prop} (h : p.pays seen n Q)
    (hq : ∀ a s m, seen ⊆ s → m ≤ n → Q a s m → Q' a s m) : p.pays seen n Q' := by
  induction p generalizing seen n with
  | pure a => exact hq a _ _ (List.Subset.refl _) (Nat.le_refl _) h
  | fail e => trivial
  | stats ts k ih =>
    refine ⟨fun hm st => ih st (h.1 hm st) fun a s m hs hmn => hq a s m (fun x hx => hs (by simp [hx])) hmn,
      fun hm => ⟨(h.2 hm).1, fun st => ih st ((h.2 hm).2 st) fun a s m hs hmn =>
        hq a s m (fun x hx => hs (by simp [hx])) (by omega)⟩⟩
  | pairs ts k ih =>
    exact ⟨h.1, fun st => ih st (h.2 st) fun a s m hs hmn =>
        hq a s m (fun x hx => hs (by simp [hx])) (by omega)⟩
  | sortUnstable key l k ih => exact fun l' hl => ih l' (h l' hl) hq
  | clock k ih => exact fun b => ih b (h b) hq
  | save ts k ih => exact ih h hq

theorem pays_sound {α : Type} {p : Prog α} {w : World} {r : R α} {w' : World} {m : Nat}
    (h : RunP env p w r w' m) {seen : List TokenSet} {n : Nat} {Q : α → List TokenSet → Nat → Prop}
    (hok : KeyOk w.cache) (hseen : ∀ t ∈ seen, Known w.cache t) (hp : p.pays seen n Q) :
    KeyOk w'.cache ∧ m ≤ n ∧ ∀ a, r = .ok a →
      ∃ seen' n', Q a seen' n' ∧ (∀ t ∈ seen', Known w'.cache t) ∧ m + n' ≤ n := by
  induction h generalizing seen n with
  | @pure a w =>
    refine ⟨hok, Nat.zero_le _, fun b hb => ?_⟩
    have := Except.ok.inj hb
    subst this
    exact ⟨seen, n, hp, hseen, by omega⟩
  | fail => exact ⟨hok, Nat.zero_le _, fun a h => absurd h (by simp)⟩
  | @hit ts k w ts' key st r w' m hs hkey hc hk ih =>
    have hkn := known_entry hok hc
    by_cases hm : ts ∈ seen
    · exact ih hok (by
        intro t ht
        rcases List.mem_cons.1 ht with rfl | ht
        · exact hkn
        · exact hseen t ht) (hp.1 hm st)
    · obtain ⟨h1, h2⟩ := hp.2 hm
      obtain ⟨g1, g2, g3⟩ := ih hok (by
        intro t ht
        rcases List.mem_cons.1 ht with rfl | ht
        · exact hkn
        · rcases List.mem_cons.1 ht with rfl | ht
          · exact ⟨_, _, _, hs, hkey, hc⟩
          · exact hseen t ht) (h2 st)
      refine ⟨g1, by omega, fun a ha => ?_⟩
      obtain ⟨s', n', q1, q2, q3⟩ := g3 a ha
      exact ⟨s', n', q1, q2, by omega⟩
  | @miss ts k w ts' key st r w' m hs hkey hc ht hk ih =>
    by_cases hm : ts ∈ seen
    · obtain ⟨t1, k1, st1, e1, e2, e3⟩ := hseen ts hm
      have := Except.ok.inj (hs.symm.trans e1); subst this
      have := Except.ok.inj (hkey.symm.trans e2); subst this
      rw [hc] at e3
      exact absurd e3 (by simp)
    · obtain ⟨h1, h2⟩ := hp.2 hm
      have hset := tokenizeFile_set (sort_inRange hs) ht
      have hko : KeyOk (Cache.insert w.cache key { st with pairCounts := [] }) :=
        keyOk_insert hok hs hkey hset
      obtain ⟨g1, g2, g3⟩ := ih (seen := _) (n := n - 1) hko (by
        intro t ht
        rcases List.mem_cons.1 ht with rfl | ht
        · rw [show ({ st with pairCounts := [] } : TokenStats).tokenSet = ts' from hset]
          exact known_here (sort_idem hs) hkey
        · rcases List.mem_cons.1 ht with rfl | ht
          · exact known_here hs hkey
          · exact known_insert (hseen t ht)) (h2 _)
      refine ⟨g1, by omega, fun a ha => ?_⟩
      obtain ⟨s', n', q1, q2, q3⟩ := g3 a ha
      exact ⟨s', n', q1, q2, by omega⟩
  | @statsFail ts k w hf =>
    by_cases hm : ts ∈ seen
    · obtain ⟨t1, k1, st1, e1, e2, e3⟩ := hseen ts hm
      cases hf with
      | sort h => rw [e1] at h; exact absurd h (by simp)
      | key hs hk =>
        have := Except.ok.inj (hs.symm.trans e1); subst this
        rw [e2] at hk; exact absurd hk (by simp)
      | tokenize hs hk hc ht =>
        have := Except.ok.inj (hs.symm.trans e1); subst this
        have := Except.ok.inj (hk.symm.trans e2); subst this
        rw [hc] at e3
        exact absurd e3 (by simp)
    · exact ⟨hok, (hp.2 hm).1, fun a h => absurd h (by simp)⟩
  | @pairs ts k w ts' key st r w' m hs ht hkey hk ih =>
    obtain ⟨h1, h2⟩ := hp
    have hset := tokenizeFile_set (sort_inRange hs) ht
    have hko : KeyOk (Cache.insert w.cache key st.cloneWithoutPairs) := keyOk_insert hok hs hkey hset
    obtain ⟨g1, g2, g3⟩ := ih (seen := _) (n := n - 1) hko (by
      intro t ht
      rcases List.mem_cons.1 ht with rfl | ht
      · rw [hset]
        exact known_here (sort_idem hs) hkey
      · rcases List.mem_cons.1 ht with rfl | ht
        · exact known_here hs hkey
        · exact known_insert (hseen t ht)) (h2 _)
    refine ⟨g1, by omega, fun a ha => ?_⟩
    obtain ⟨s', n', q1, q2, q3⟩ := g3 a ha
    exact ⟨s', n', q1, q2, by omega⟩
  | pairsFail hf => exact ⟨hok, hp.1, fun a h => absurd h (by simp)⟩
  | sortUnstable hpm hs hk ih => exact ih hok hseen (hp _ hpm)
  | clock b hk ih => exact ih hok hseen (hp b)
  | save hf hk ih => exact ih hok hseen hp
  | saveFail hf => exact ⟨hok, Nat.zero_le _, fun a h => absurd h (by simp)⟩

/-! ### The functions of the optimizer -/

theorem addToken_pays (bo : BytesOptimizer) (ts : TokenSet) (seen : List TokenSet) (n : Nat) :
    (addToken bo ts).pays seen (n + 1) (fun _ s m => seen ⊆ s ∧ m = n) := by
  unfold addToken getStatsWithPairs
  rw [pays_bind]
  refine ⟨by omega, fun st => ?_⟩
  rw [pays_pure', show n + 1 - 1 = n from rfl, pays_bind, pays_lift]
  intro byte _
  rw [pays_bind, pays_lift]
  intro tok _
  rw [pays_pure]
  exact ⟨fun x hx => by simp [hx], rfl⟩

theorem getStats_pays (ts : TokenSet) (seen : List TokenSet) (n : Nat)
    {Q : TokenStats → List TokenSet → Nat → Prop}
    (hq : ∀ st s m, ts :: seen ⊆ s → st.tokenSet ∈ s → n ≤ m → Q st s m) :
    (getStats ts).pays seen (n + 1) Q := by
  refine ⟨fun hm st => ?_, fun hm => ⟨by omega, fun st => ?_⟩⟩
  · refine hq st _ _ ?_ (by simp) (by omega)
    intro x hx
    rcases List.mem_cons.1 hx with rfl | hx
    · simp [hm]
    · simp [hx]
  · exact hq st _ _ (fun x hx => List.mem_cons_of_mem _ hx) (by simp) (by omega)

theorem removeLoop_pays (bo : BytesOptimizer) (ts : TokenSet) (nt total : Nat) (l : List Bytes)
    (rc : Removals) (seen : List TokenSet) (n : Nat) (hn : 2 * l.length ≤ n) :
    (removeLoop bo ts nt total l rc).pays seen n
      (fun a s _ => ∀ st, a.1 = some st → st.tokenSet ∈ s) := by
  induction l generalizing rc seen n with
  | nil =>
    rw [removeLoop, pays_pure]
    intro st h
    exact absurd h (by simp)
  | cons x l ih =>
    simp only [List.length_cons] at hn
    obtain ⟨n, rfl⟩ : ∃ k, n = k + 1 + 1 := ⟨n - 2, by omega⟩
    rw [removeLoop, pays_bind, pays_lift]
    intro idx _
    rw [pays_bind, pays_lift]
    intro ts1 _
    rw [pays_bind, pays_lift]
    intro m _
    rw [pays_bind, pays_lift]
    intro _ _
    rw [pays_bind]
    refine pays_mono (addToken_pays bo ts1 seen (n + 1)) ?_
    rintro (_ | ts2) s m hs hm ⟨h1, rfl⟩
    · exact ih _ _ _ (by omega)
    · show ((getStats ts2 >>= _ : Prog _)).pays _ _ _
      rw [pays_bind]
      refine getStats_pays _ _ _ ?_
      intro st s' m' h1 h2 h3
      split
      · rw [pays_pure]
        intro st' h
        have := Option.some.inj h
        subst this
        exact h2
      · exact ih _ _ _ (by omega)

theorem tradeByte_pays (bo : BytesOptimizer) (ts : TokenSet) (nt : Nat) (st : TokenStats)
    (seen : List TokenSet) (n : Nat) :
    (tradeByte bo ts nt st).pays seen (n + 2)
      (fun a s m => n ≤ m ∧ ∀ st, a = some st → st.tokenSet ∈ s) := by
  unfold tradeByte
  rw [pays_bind, pays_lift]
  intro k _
  split
  · rw [pays_bind, pays_lift]
    intro k' _
    rw [pays_bind, pays_lift]
    intro ts1 _
    rw [pays_bind, pays_lift]
    intro m _
    rw [pays_bind, pays_lift]
    intro _ _
    rw [pays_bind]
    refine ⟨by omega, fun st1 => ?_⟩
    rw [pays_pure', show n + 2 - 1 = n + 1 from rfl, pays_bind, pays_lift]
    rintro (_ | ⟨ts2, i⟩) _
    · exact ⟨by omega, fun st h => absurd h (by simp)⟩
    · show ((getStats ts2 >>= _ : Prog _)).pays _ _ _
      rw [pays_bind]
      refine getStats_pays _ _ _ ?_
      intro st2 s m h1 h2 h3
      split
      · rw [pays_pure]
        refine ⟨h3, fun st' h => ?_⟩
        have := Option.some.inj h
        subst this
        exact h2
      · rw [pays_pure]
        exact ⟨h3, fun st h => absurd h (by simp)⟩
  · rw [pays_pure]
    exact ⟨by omega, fun st h => absurd h (by simp)⟩

theorem longStrings_le (l : List Token) : (longStrings l).length ≤ l.length := by
  unfold longStrings
  exact List.length_filterMap_le _ _

theorem longStrings_nLong (ts : TokenSet) : (longStrings ts.tokens).length = ts.nLongTokens := by
  unfold longStrings TokenSet.nLongTokens
  induction ts.tokens with
  | nil => rfl
  | cons t l ih =>
    cases t with
    | ext n => simpa using ih
    | str s =>
      by_cases h : s.length > 1
      · simp [h, ih]
      · simp [h, ih]

theorem removeAddToken_pays (bo : BytesOptimizer) (ts : TokenSet) (nt : Nat) (rc : Removals)
    (seen : List TokenSet) (hm : ts ∈ seen) (n : Nat)
    (hn : ts.ntokens = nt → 2 * (longStrings ts.tokens).length ≤ n) :
    (removeAddToken bo ts nt rc).pays seen (n + 2)
      (fun a s _ => ∀ st, a.1 = some st → st.tokenSet ∈ s) := by
  unfold removeAddToken
  split
  · rw [pays_bind]
    refine pays_mono (addToken_pays bo ts seen (n + 1)) ?_
    rintro (_ | ts2) s m hs hm ⟨h1, rfl⟩
    · rw [pays_pure]; exact fun st h => absurd h (by simp)
    · show ((getStats ts2 >>= _ : Prog _)).pays _ _ _
      rw [pays_bind]
      refine getStats_pays _ _ _ ?_
      intro st s' m' h1 h2 h3
      rw [pays_pure]
      intro st' h
      have := Option.some.inj h
      subst this
      exact h2
  · rw [pays_bind, pays_lift]
    intro _ has
    have hnt : ts.ntokens = nt := by
      unfold rassert at has
      split at has
      · next h => simpa using h
      · exact absurd has (by simp)
    have hn := hn hnt
    rw [pays_bind]
    refine ⟨fun _ st => ?_, fun h => absurd hm h⟩
    rw [pays_pure', pays_bind]
    refine pays_mono (tradeByte_pays bo ts nt st _ n) ?_
    rintro (_ | st') s m hs hmn ⟨h1, h2⟩
    · show ((sortUnstableBy rc (longStrings ts.tokens) >>= _ : Prog _)).pays _ _ _
      rw [pays_bind]
      intro l' hl'
      refine removeLoop_pays bo ts nt _ l' rc s m ?_
      rw [hl'.length_eq]
      omega
    · rw [pays_pure]
      intro st'' h
      have := Option.some.inj h
      subst this
      exact h2 _ rfl

/-- The number of passes for a round. -/
theorem step_pays (bo : BytesOptimizer) (ts : TokenSet) (nt : Nat) (rc : Removals)
    (seen : List TokenSet) (hm : ts ∈ seen) (n : Nat)
    (hn : ts.ntokens = nt → 2 * (longStrings ts.tokens).length ≤ n) :
    (optimizationStep bo ts nt rc).pays seen (n + 3) (fun a s _ => ∀ t, a.1 = some t → t ∈ s) := by
  unfold optimizationStep
  rw [pays_bind]
  refine ⟨fun _ st => ?_, fun h => absurd hm h⟩
  rw [pays_pure', pays_bind, pays_lift]
  intro k _
  rw [pays_bind, pays_lift]
  intro ts' _
  rw [pays_bind]
  refine getStats_pays _ _ (n + 2) ?_
  intro st' s m h1 h2 h3
  split
  · rw [pays_pure]
    intro t h
    have := Option.some.inj h
    subst this
    exact h2
  · rw [pays_bind]
    obtain ⟨d, rfl⟩ : ∃ d, m = (n + d) + 2 := ⟨m - (n + 2), by omega⟩
    refine pays_mono (removeAddToken_pays bo ts nt rc s (h1 (by simp [hm])) _
      (fun h => by have := hn h; omega)) ?_
    rintro ⟨_ | st2, rc'⟩ s' m' hs hmn hq
    · rw [pays_pure]
      intro t h
      exact absurd h (by simp)
    · show ((Prog.lift _ >>= _ : Prog _)).pays _ _ _
      rw [pays_bind, pays_lift]
      intro _ _
      rw [pays_pure]
      intro t h
      have := Option.some.inj h
      subst this
      exact hq _ rfl

theorem stepP {bo : BytesOptimizer} {ts : TokenSet} {nt : Nat} {rc : Removals} {w : World}
    {r : R (Option TokenSet × Removals)} {w' : World} {m : Nat}
    (h : RunP env (optimizationStep bo ts nt rc) w r w' m) (hok : KeyOk w.cache)
    (hk : Known w.cache ts) :
    KeyOk w'.cache ∧ m ≤ 2 * nt + 3 ∧ (∀ t rc', r = .ok (some t, rc') → Known w'.cache t) ∧
    (m ≤ 2 * (longStrings ts.tokens).length + 3) := by
  have hseen : ∀ t ∈ [ts], Known w.cache t := by
    intro t ht
    rw [List.mem_singleton.1 ht]
    exact hk
  obtain ⟨a1, a2, a3⟩ := pays_sound h hok hseen
    (step_pays bo ts nt rc [ts] (by simp) (2 * nt) (fun e => by
      have := longStrings_le ts.tokens
      have e' : ts.tokens.length = nt := e
      omega))
  obtain ⟨_, b2, _⟩ := pays_sound h hok hseen
    (step_pays bo ts nt rc [ts] (by simp) (2 * (longStrings ts.tokens).length) (fun e => Nat.le_refl _))
  refine ⟨a1, a2, ?_, b2⟩
  intro t rc' e
  obtain ⟨s', n', q1, q2, _⟩ := a3 _ e
  exact q2 t (q1 t rfl)

theorem save_cache {ts : TokenSet} {w w' : World} {r : R Unit} (h : Run env (maybeSave ts) w r w') :
    w'.cache = w.cache := by
  unfold maybeSave askClock at h
  change Run env (.clock _) w r w' at h
  cases h with
  | clock b hk =>
    change Run env (if b = true then saveTokens ts else pure ()) w r w' at hk
    cases b with
    | false =>
      change Run env (.pure ()) w r w' at hk
      cases hk; rfl
    | true =>
      change Run env (.save ts (.pure ())) w r w' at hk
      cases hk with
      | save hf hk => cases hk; rfl
      | saveFail hf => rfl

theorem loopP_passes {bo : BytesOptimizer} {nt : Nat} {ts : TokenSet} {rc : Removals} {w : World}
    {r : R TokenSet} {w' : World} {rounds n : Nat} (h : LoopP env bo nt ts rc w r w' rounds n)
    (hok : KeyOk w.cache) (hk : Known w.cache ts) :
    KeyOk w'.cache ∧ n ≤ rounds * (2 * nt + 3) ∧ ∀ t, r = .ok t → Known w'.cache t := by
  induction h with
  | @stop ts rc rc' w w' n hs =>
    obtain ⟨a1, a2, a3, _⟩ := stepP hs hok hk
    refine ⟨a1, by omega, fun t ht => ?_⟩
    have := Except.ok.inj ht
    subst this
    have hseen : ∀ t ∈ [ts], Known w.cache t := by
      intro t ht
      rw [List.mem_singleton.1 ht]
      exact hk
    obtain ⟨_, _, g⟩ := pays_sound hs hok hseen (pays_mono (step_pays bo ts nt rc [ts] (by simp) (2 * nt)
      (fun e => by
        have := longStrings_le ts.tokens
        have e' : ts.tokens.length = nt := e
        omega)) (Q' := fun _ s _ => ts ∈ s) (fun a s m hs _ _ => hs (by simp)))
    obtain ⟨s', n', q1, q2, _⟩ := g _ rfl
    exact q2 _ q1
  | fail hs =>
    obtain ⟨a1, a2, _⟩ := stepP hs hok hk
    exact ⟨a1, by omega, fun t ht => absurd ht (by simp)⟩
  | @again ts rc w ts' rc' w1 w2 r w' n m rounds hs hsave hl ih =>
    obtain ⟨a1, a2, a3, _⟩ := stepP hs hok hk
    have e := save_cache hsave
    obtain ⟨b1, b2, b3⟩ := ih (by rw [e]; exact a1) (by rw [e]; exact a3 _ _ rfl)
    refine ⟨b1, ?_, b3⟩
    rw [Nat.add_mul]
    omega
  | saveFail hs hsave =>
    obtain ⟨a1, a2, _⟩ := stepP hs hok hk
    have e := save_cache hsave
    exact ⟨by rw [e]; exact a1, by omega, fun t ht => absurd ht (by simp)⟩

theorem getStatsP {ts : TokenSet} {w w' : World} {r : R TokenStats} {n : Nat}
    (h : RunP env (getStats ts) w r w' n) (hok : KeyOk w.cache) :
    KeyOk w'.cache ∧ n ≤ 1 ∧ (∀ st, r = .ok st → Known w'.cache ts) := by
  obtain ⟨a1, a2, a3⟩ := pays_sound h hok (seen := []) (by simp)
    (getStats_pays ts [] 0 (Q := fun _ s _ => ts ∈ s) (fun st s m h1 h2 h3 => h1 (by simp)))
  refine ⟨a1, a2, fun st e => ?_⟩
  obtain ⟨s', n', q1, q2, _⟩ := a3 _ e
  exact q2 _ q1

theorem finishP {ts : TokenSet} {w w' : World} {r : R TokenStats} {n : Nat}
    (h : RunP env (finish ts) w r w' n) (hok : KeyOk w.cache) (hk : Known w.cache ts) : n = 0 := by
  obtain ⟨ts', key, st, h1, h2, h3⟩ := hk
  have hk' : Known w.cache ts' := ⟨ts', key, st, sort_idem h1, h2, h3⟩
  have hp : (finish ts).pays [ts'] 0 (fun _ _ _ => True) := by
    unfold finish
    rw [pays_bind, pays_lift]
    intro t ht
    have := Except.ok.inj (h1.symm.trans ht)
    subst this
    exact ⟨fun _ st => trivial, fun h => absurd (by simp) h⟩
  obtain ⟨_, a2, _⟩ := pays_sound h hok (by
    intro t ht
    rw [List.mem_singleton.1 ht]
    exact hk') hp
  omega

theorem implP_passes {bo : BytesOptimizer} {nt : Nat} {ts : TokenSet} {w : World}
    {r : R TokenStats} {w' : World} {rounds n : Nat} (h : ImplP env bo nt ts w r w' rounds n)
    (hok : KeyOk w.cache) : n ≤ rounds * (2 * nt + 3) + 1 := by
  cases h with
  | done h1 h2 h3 =>
    obtain ⟨a1, a2, a3⟩ := getStatsP h1 hok
    obtain ⟨b1, b2, b3⟩ := loopP_passes h2 a1 (a3 _ rfl)
    have := finishP h3 b1 (b3 _ rfl)
    omega
  | firstFail h1 =>
    obtain ⟨a1, a2, a3⟩ := getStatsP h1 hok
    omega
  | loopFail h1 h2 =>
    obtain ⟨a1, a2, a3⟩ := getStatsP h1 hok
    obtain ⟨b1, b2, b3⟩ := loopP_passes h2 a1 (a3 _ rfl)
    omega

theorem startP {nt : Nat} {p : Processing} {ty : TokenType} {pre : Option TokenSet} {w w' : World}
    {r : R TokenSet} {n : Nat} (h : RunP env (startSet nt p ty pre) w r w' n) (hok : KeyOk w.cache) :
    KeyOk w'.cache ∧ n ≤ if ty = .bytesHuff ∧ pre = none then 1 else 0 := by
  have hp : (startSet nt p ty pre).pays [] (if ty = .bytesHuff ∧ pre = none then 1 else 0)
      (fun _ _ _ => True) := by
    unfold startSet
    cases pre with
    | some t => trivial
    | none =>
      cases ty with
      | bits1 => exact (pays_lift (TokenSet.newBits1 p true) _ _ _).2 fun _ _ => trivial
      | bits2 => exact (pays_lift (TokenSet.newBits2 p true) _ _ _).2 fun _ _ => trivial
      | bits4 => exact (pays_lift (TokenSet.newBits4 p true) _ _ _).2 fun _ _ => trivial
      | bytes =>
        dsimp only
        rw [pays_lift]
        exact fun _ _ => True.intro
      | bytesHuff =>
        show (Prog.lift (TokenSet.newBytes p) >>= _ : Prog _).pays _ _ _
        rw [pays_bind, pays_lift]
        intro ts _
        rw [pays_bind]
        refine getStats_pays _ _ 0 ?_
        intro st s m _ _ _
        exact (pays_lift _ _ _ _).2 fun _ _ => trivial
  obtain ⟨a1, a2, _⟩ := pays_sound h hok (by simp) hp
  exact ⟨a1, a2⟩

/-! ### The cache on its own -/

theorem uses_history {sampler n nt l c k} (h : Uses sampler n nt l c k) :
    History sampler n nt (l.map Call.set).reverse c := by
  induction h with
  | new => exact .new
  | hit h hs hk hc ih => rw [List.map_cons, List.reverse_cons]; exact .stats ih (.hit hs hk hc)
  | miss h hs hk hc ht ih => rw [List.map_cons, List.reverse_cons]; exact .stats ih (.miss hs hk hc ht)
  | pairs h hs ht hk ih => rw [List.map_cons, List.reverse_cons]; exact .pairs ih (.mk hs ht hk)

theorem uses_keys {sampler n nt l c k} (h : Uses sampler n nt l c k) (key : Text) :
    (c key).isSome ↔ ∃ call ∈ l, ∃ t', call.set.sort = .ok t' ∧ getKey t' = .ok key := by
  have ins : ∀ {l : List Call} {c : Cache} {call : Call} {t' : TokenSet} {key' : Text} {st : TokenStats},
      ((c key).isSome ↔ ∃ call ∈ l, ∃ t', call.set.sort = .ok t' ∧ getKey t' = .ok key) →
      call.set.sort = .ok t' → getKey t' = .ok key' →
      ((c.insert key' st key).isSome ↔
        ∃ x ∈ call :: l, ∃ t', x.set.sort = .ok t' ∧ getKey t' = .ok key) := by
    intro l c call t' key' st ih hs hk
    unfold Cache.insert
    by_cases e : key = key'
    · subst e
      simp only [if_true, Option.isSome_some, true_iff]
      exact ⟨call, by simp, t', hs, hk⟩
    · rw [if_neg e]
      refine ih.trans ?_
      constructor
      · rintro ⟨x, hx, h⟩
        exact ⟨x, by simp [hx], h⟩
      · rintro ⟨x, hx, t1, h1, h2⟩
        rcases List.mem_cons.1 hx with rfl | hx
        · have := Except.ok.inj (hs.symm.trans h1); subst this
          exact absurd (Except.ok.inj (h2.symm.trans hk)) e
        · exact ⟨x, hx, t1, h1, h2⟩
  induction h with
  | new => simp
  | @hit l c k ts ts' key' st h hs hk hc ih =>
    refine ih.trans ?_
    constructor
    · rintro ⟨x, hx, h⟩
      exact ⟨x, by simp [hx], h⟩
    · rintro ⟨x, hx, t1, h1, h2⟩
      rcases List.mem_cons.1 hx with rfl | hx
      · have := Except.ok.inj (hs.symm.trans h1); subst this
        have := Except.ok.inj (h2.symm.trans hk); subst this
        exact ih.1 (by rw [hc]; rfl)
      · exact ⟨x, hx, t1, h1, h2⟩
  | @miss l c k ts ts' key' st h hs hk hc ht ih => exact ins (call := .stats ts) ih hs hk
  | @pairs l c k ts ts' key' st h hs ht hk ih => exact ins (call := .pairs ts) ih hs hk

theorem asked_iff {sampler n nt l c k} (h : Uses sampler n nt l c k) (hl : ∀ x ∈ l, Identified x.set)
    {ts ts' : TokenSet} {key : Text} (hts : Identified ts) (hs : ts.sort = .ok ts')
    (hk : getKey ts' = .ok key) : AskedBefore l ts ↔ (c key).isSome := by
  rw [uses_keys h]
  constructor
  · rintro ⟨x, hx, e⟩
    exact ⟨x, hx, ts', e.trans hs, hk⟩
  · rintro ⟨x, hx, t', h1, h2⟩
    refine ⟨x, hx, ?_⟩
    have := getKey_inj (identified_sort (hl x hx) h1) (identified_sort hts hs) (sort_inRange h1)
      (sort_inRange hs) h2 hk
    rw [h1, hs, this]

theorem uses_count {sampler n nt l c k} (h : Uses sampler n nt l c k)
    (hl : ∀ x ∈ l, Identified x.set) : k = passesFor l := by
  induction h with
  | new => rfl
  | @hit l c k ts ts' key st h hs hk hc ih =>
    have hl' := fun x hx => hl x (List.mem_cons_of_mem _ hx)
    have := (asked_iff (ts := ts) h hl' (hl (.stats ts) (by simp)) hs hk).2 (by rw [hc]; rfl)
    rw [passesFor, if_pos this, ih hl', Nat.add_zero]
  | @miss l c k ts ts' key st h hs hk hc ht ih =>
    have hl' := fun x hx => hl x (List.mem_cons_of_mem _ hx)
    have : ¬ AskedBefore l ts := by
      rw [asked_iff (ts := ts) h hl' (hl (.stats ts) (by simp)) hs hk, hc]
      simp
    rw [passesFor, if_neg this, ih hl']
  | @pairs l c k ts ts' key st h hs ht hk ih =>
    rw [passesFor, ih (fun x hx => hl x (List.mem_cons_of_mem _ hx))]

theorem history_known {sampler n nt l c} (h : History sampler n nt l c) :
    KeyOk c ∧ ∀ t ∈ l, Known c t := by
  induction h with
  | new => exact ⟨keyOk_new, by simp⟩
  | @stats l c ts c' st h hg ih =>
    obtain ⟨i1, i2⟩ := ih
    cases hg with
    | hit hs hk hc =>
      refine ⟨i1, fun t ht => ?_⟩
      rcases List.mem_append.1 ht with ht | ht
      · exact i2 t ht
      · rw [List.mem_singleton.1 ht]; exact ⟨_, _, _, hs, hk, hc⟩
    | miss hs hk hc ht' =>
      have hset := tokenizeFile_set (sort_inRange hs) ht'
      refine ⟨keyOk_insert i1 hs hk hset, fun t ht => ?_⟩
      rcases List.mem_append.1 ht with ht | ht
      · exact known_insert (i2 t ht)
      · rw [List.mem_singleton.1 ht]; exact known_here hs hk
  | @pairs l c ts c' st h hg ih =>
    obtain ⟨i1, i2⟩ := ih
    cases hg with
    | mk hs ht' hk =>
      have hset := tokenizeFile_set (sort_inRange hs) ht'
      refine ⟨keyOk_insert i1 hs hk hset, fun t ht => ?_⟩
      rcases List.mem_append.1 ht with ht | ht
      · exact known_insert (i2 t ht)
      · rw [List.mem_singleton.1 ht]; exact known_here hs hk

theorem known_congr {c : Cache} {t ts : TokenSet} (e : t.sort = ts.sort) (h : Known c t) : Known c ts := by
  obtain ⟨t', k, st, h1, h2, h3⟩ := h
  exact ⟨t', k, st, e ▸ h1, h2, h3⟩

/-! ### The rounds of the loop -/

theorem loopP_rounds {bo nt ts rc w r w' rounds n} (h : LoopP env bo nt ts rc w r w' rounds n) :
    ∃ f : Nat → TokenSet × Removals × World, f 0 = (ts, rc, w) ∧
      ∀ i < rounds - 1, Round env bo nt (f i) (f (i + 1)) := by
  induction h with
  | stop hs => exact ⟨fun _ => _, rfl, by simp⟩
  | fail hs => exact ⟨fun _ => _, rfl, by simp⟩
  | @again ts rc w ts' rc' w1 w2 r w' n m rounds hs hsave hl ih =>
    obtain ⟨f, h0, h1⟩ := ih
    refine ⟨fun i => if i = 0 then (ts, rc, w) else f (i - 1), rfl, ?_⟩
    intro i hi
    cases i with
    | zero =>
      simp only [if_true, Nat.zero_add, Nat.one_ne_zero, if_false, Nat.sub_self, h0]
      exact ⟨w1, runP_run hs, hsave⟩
    | succ i =>
      have e1 : ¬ (i + 1 = 0) := by omega
      have e2 : ¬ (i + 1 + 1 = 0) := by omega
      simp only [if_neg e1, if_neg e2, Nat.add_sub_cancel]
      exact h1 i (by omega)
  | saveFail hs hsave => exact ⟨fun _ => _, rfl, by simp⟩

end Optimize
end Tokens
