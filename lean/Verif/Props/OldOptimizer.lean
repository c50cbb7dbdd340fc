import Verif.Proofs.OldSmall
import Verif.Proofs.OldAll
import Verif.Proofs.OldQuiet

/-!
C92-C101: the first generation of the optimizer (`optimizer.rs`) and its files, which are in the repository but not
in the program.
-/

set_option linter.unusedVariables false

namespace Tokens.Props
open Tokens Old Spec.Old

/-! ### C92: the caches -/

theorem wp_ask {env : Env} {lit : LiteralEncoding} {calls : List Call}
    (hc : ∀ c ∈ calls, Allowed lit c.set) {sv : Saved} :
    (ask calls).wp env lit sv (fun r sv' => sv' = sv ∧ ∃ sts, r = .ok sts ∧ List.Forall₂ (Answer env) calls sts) := by
  induction calls with
  | nil => exact ⟨rfl, [], rfl, .nil⟩
  | cons c calls ih =>
    have ih' := ih (fun d hd => hc d (by simp [hd]))
    obtain ⟨h1, h2, h3, h4⟩ := hc c (by simp)
    have hnext : ∀ (st : OStats), Answer env c st →
        ((ask calls).bind (fun sts => .pure (st :: sts))).wp env lit sv
          (fun r sv' => sv' = sv ∧ ∃ sts, r = .ok sts ∧ List.Forall₂ (Answer env) (c :: calls) sts) := by
      intro st hst
      refine (wp_bind _ _).2 (wp_mono _ ?_ ih')
      rintro r sv' ⟨rfl, sts, rfl, h5⟩
      exact ⟨rfl, st :: sts, rfl, .cons hst h5⟩
    cases c with
    | stats c ts =>
      refine ⟨⟨h1, h2, h3⟩, fun st hst => hnext st ?_⟩
      obtain ⟨ts0, g1, g2, g3, g4⟩ := cached_right hst
      exact ⟨isCost_iff.2 (cached_cost h3 hst), ts0, g1, g2, g3.trans h3.symm, g4⟩
    | pairs c ts =>
      refine ⟨⟨h1, h2, h3⟩, h4, fun st hst => hnext st ?_⟩
      exact fresh_right hst (fun _ => h4)

/-- C92 (answers).  For all samples without the byte 0 (none empty), every number of threads, and every sequence of
calls of `get_stats` and `get_stats_with_pairs` of the two caches with sets that have the same kind of literals, at
most 65536 tokens and no token that contains the byte 0 beside others: no call panics; every call with
pairs returns the numbers of a cheapest way to write each sample; every call without pairs returns the cost of the samples
with this set, and numbers of a cheapest way with a set of the same tokens.

Not proved, because the code violates it: the same for sets whose tokens contain the byte 0 (`C92_key_collision`), and that the numbers
of a call without pairs are in the order of the tokens of this set (`C92_other_order`). -/
theorem C92_cache_partial {env : Env} (he : Usable env) {lit : LiteralEncoding} {calls : List Call}
    (hc : ∀ c ∈ calls, Allowed lit c.set) :
    (∃ r w, Run env (ask calls) World.start r w) ∧
    ∀ r w, Run env (ask calls) World.start r w → ∃ sts, r = .ok sts ∧ List.Forall₂ (Answer env) calls sts := by
  have hwp : (ask calls).wp env lit World.start.saved _ := wp_ask hc
  refine ⟨wp_total he _ hwp (worldOk_start env lit), ?_⟩
  intro r w hr
  exact (wp_sound he hr hwp (worldOk_start env lit)).1.2

/-- A set with the one token `a`, byte 0, `b`. -/
def zeroSet : OSet :=
  { tokens := [{ string := [97, 0, 98], isMandatory := false, suffix := .none }]
    byString := StrMap.insert (fun _ => none) [97, 0, 98] 0
    literal := .dist8 }

/-- A set with the tokens `a` and `b`. -/
def abSet : OSet :=
  { tokens := [{ string := [97], isMandatory := false, suffix := .none },
               { string := [98], isMandatory := false, suffix := .none }]
    byString := (StrMap.insert (fun _ => none) [97] 0).insert [98] 1
    literal := .dist8 }

/-- The same set, with the tokens in another order. -/
def baSet : OSet :=
  { tokens := [{ string := [98], isMandatory := false, suffix := .none },
               { string := [97], isMandatory := false, suffix := .none }]
    byString := (StrMap.insert (fun _ => none) [98] 0).insert [97] 1
    literal := .dist8 }

theorem zeroSet_made : Made zeroSet := .add (s := [97, 0, 98]) (.new (le := .dist8) rfl) (by decide) rfl
theorem abSet_made : Made abSet :=
  .add (s := [98]) (.add (s := [97]) (.new (le := .dist8) rfl) (by decide) rfl) (by decide) rfl
theorem baSet_made : Made baSet :=
  .add (s := [97]) (.add (s := [98]) (.new (le := .dist8) rfl) (by decide) rfl) (by decide) rfl

theorem sort_ab : List.mergeSort [([97] : Bytes), [98]] bytesLe = [[97], [98]] := by
  apply List.mergeSort_of_pairwise
  simp only [List.pairwise_cons, List.mem_singleton, forall_eq, List.not_mem_nil, false_imp_iff, implies_true,
    List.Pairwise.nil, and_true]
  decide

theorem key_zero : cacheKey zeroSet = [97, 0, 98, 0] := by
  unfold cacheKey
  show (List.mergeSort [([97, 0, 98] : Bytes)] bytesLe).flatMap _ = _
  rw [List.mergeSort_singleton]
  rfl

theorem key_ab : cacheKey abSet = [97, 0, 98, 0] := by
  unfold cacheKey
  show (List.mergeSort [([97] : Bytes), [98]] bytesLe).flatMap _ = _
  rw [sort_ab]
  rfl

theorem key_ba : cacheKey baSet = [97, 0, 98, 0] := by
  unfold cacheKey
  show (List.mergeSort [([98] : Bytes), [97]] bytesLe).flatMap _ = _
  have : List.mergeSort [([98] : Bytes), [97]] bytesLe = [[97], [98]] := by
    simp [List.mergeSort, List.MergeSort.Internal.splitInTwo, List.merge]
    decide
  rw [this]
  rfl

/-- Two calls with one key: the second gets what the first one computed. -/
theorem second_call {env : Env} {c : Which} {ts ts' : OSet} (hk : cacheKey ts = cacheKey ts') (hm : Made ts)
    (he : Usable env) {r : R (List OStats)} {w : World} (hr : Run env (ask [.stats c ts, .stats c ts']) World.start r w) :
    ∃ st, r = .ok [st, st] ∧ Fresh ts (env.samples c) false st := by
  cases hr with
  | hit hc => cases hc
  | miss hc ht hk1 =>
    obtain ⟨st', e, hf⟩ := fresh_of_file (made_ok hm) (by intro h; cases h) (env_ne he c) ht
    obtain rfl := Except.ok.inj e
    clear e
    rename_i st'
    rw [clear_fresh hf] at hk1
    refine ⟨st', ?_, hf⟩
    cases hk1 with
    | hit hc1 hk2 =>
      have h0 : (World.start.put c (cacheKey ts) st').cache c (cacheKey ts') = some st' := by
        unfold World.put
        rw [hk]
        exact if_pos ⟨rfl, rfl⟩
      rw [h0] at hc1
      cases hc1
      cases hk2
      rfl
    | miss hc1 =>
      have h0 : (World.start.put c (cacheKey ts) st').cache c (cacheKey ts') = some st' := by
        unfold World.put
        rw [hk]
        exact if_pos ⟨rfl, rfl⟩
      rw [h0] at hc1
      cases hc1
    | missPanic hc1 =>
      have h0 : (World.start.put c (cacheKey ts) st').cache c (cacheKey ts') = some st' := by
        unfold World.put
        rw [hk]
        exact if_pos ⟨rfl, rfl⟩
      rw [h0] at hc1
      cases hc1
  | missPanic hc ht =>
    obtain ⟨st', e, hf⟩ := fresh_of_file (made_ok hm) (by intro h; cases h) (env_ne he c) ht
    cases e

theorem second_call_exists {env : Env} {c : Which} {ts ts' : OSet} (hk : cacheKey ts = cacheKey ts') (hm : Made ts)
    (he : Usable env) : ∃ st w, Run env (ask [.stats c ts, .stats c ts']) World.start (.ok [st, st]) w := by
  obtain ⟨st, ht⟩ := file_exists (made_ok hm) (pairs := false) (by intro h; cases h) (env_ne he c) he.threads
  obtain ⟨st', e, hf⟩ := fresh_of_file (made_ok hm) (by intro h; cases h) (env_ne he c) ht
  obtain rfl := Except.ok.inj e
  refine ⟨st, World.start.put c (cacheKey ts) st.clear, .miss rfl ht ?_⟩
  rw [clear_fresh hf]
  refine .hit (st := st) ?_ .pure
  unfold World.put
  rw [hk]
  exact if_pos ⟨rfl, rfl⟩

def cacheEnv : Env := { slow := [[97, 97, 98]], mid := [[97, 97, 98]], fast := [[97, 97, 98]], nthreads := 2 }

theorem cacheEnv_usable : Usable cacheEnv :=
  ⟨by simp [cacheEnv], by simp [cacheEnv], by simp [cacheEnv], by decide⟩

theorem abSet_flat : Flat abSet := by
  intro s hs
  have : s = [97] ∨ s = [98] := by simpa [strings, abSet] using hs
  rcases this with rfl | rfl
  · exact ⟨_, rfl⟩
  · exact ⟨_, rfl⟩

theorem baSet_flat : Flat baSet := by
  intro s hs
  have : s = [98] ∨ s = [97] := by simpa [strings, baSet] using hs
  rcases this with rfl | rfl
  · exact ⟨_, rfl⟩
  · exact ⟨_, rfl⟩

/-- With the token of `zeroSet`, `aab` is written with three literals. -/
theorem zeroSet_cost : tot zeroSet [[97, 97, 98]] = 24 := by
  have key : ∀ {ps : List Piece} {x : Bytes}, Spells zeroSet ps x → (0 : UInt8) ∉ x →
      cost 8 ps = 8 * x.length := by
    intro ps x h
    induction h with
    | nil => intro _; rfl
    | @cons p ps s x hp _ ih =>
      intro h0
      rw [List.mem_append, not_or] at h0
      cases p with
      | lit b => cases hp; rw [cost, ih h0.2, List.length_append, List.length_singleton]; omega
      | tok i =>
        match i, hp with
        | 0, hp => cases hp; exact absurd (show (0 : UInt8) ∈ [97, 0, 98] by decide) h0.1
        | i + 1, hp => cases hp
  obtain ⟨ps, h1, h2⟩ := leastCost_exists zeroSet [97, 97, 98]
  have h3 := key h1.spells (by decide)
  have h4 : cost 8 ps = leastCost zeroSet [97, 97, 98] := h2
  show leastCost zeroSet [97, 97, 98] + 0 = 24
  rw [← h4, h3]
  rfl

/-- C92 (what is missing: the byte 0).  The key of the cache is the same for the set with the token `a`, byte 0, `b` and the
set with the tokens `a` and `b`: in every run that asks for both, the second call returns 24 as the cost of `aab`, which
is 3. -/
theorem C92_key_collision : ∃ (env : Env) (ts ts' : OSet), Usable env ∧ Made ts ∧ Made ts' ∧
    ts.literal = ts'.literal ∧ IsCost ts' env.mid 3 ∧
    (∃ r w, Run env (ask [.stats .mid ts, .stats .mid ts']) World.start r w) ∧
    ∀ r w, Run env (ask [.stats .mid ts, .stats .mid ts']) World.start r w →
      ∃ st st', r = .ok [st, st'] ∧ st'.cost = 24 ∧ ¬ Answer env (.stats .mid ts') st' := by
  have hk : cacheKey zeroSet = cacheKey abSet := by rw [key_zero, key_ab]
  have hc : tot abSet cacheEnv.mid = 3 := by rw [flat_tot abSet_flat]; rfl
  refine ⟨cacheEnv, zeroSet, abSet, cacheEnv_usable, zeroSet_made, abSet_made, rfl, isCost_iff.2 hc.symm, ?_, ?_⟩
  · obtain ⟨st, w, h⟩ := second_call_exists (c := .mid) hk zeroSet_made cacheEnv_usable
    exact ⟨_, w, h⟩
  · intro r w hr
    obtain ⟨st, rfl, hf⟩ := second_call hk zeroSet_made cacheEnv_usable hr
    have h24 : st.cost = 24 := (fresh_cost hf).trans zeroSet_cost
    refine ⟨st, st, rfl, h24, ?_⟩
    rintro ⟨h, -⟩
    have := isCost_iff.1 h
    change st.cost = tot abSet cacheEnv.mid at this
    omega

theorem ab_count {ts : OSet} (h : Flat ts) {b : UInt8} {k : Nat} (hk : text ts (.tok k) = some [b])
    (huniq : ∀ p, text ts p = some [b] → p = .tok k ∨ p = .lit b) {x : Bytes} {ps : List Piece} (hc : Cheapest ts x ps) :
    ps.count (.tok k) = x.count b := by
  rw [← flat_uses h hc.spells b, List.count_eq_countP]
  apply List.countP_congr
  intro p hp
  simp only [beq_iff_eq, decide_eq_true_eq]
  constructor
  · rintro rfl; exact hk
  · intro hp'
    rcases huniq p hp' with rfl | rfl
    · rfl
    · exact absurd (text_mem hk) (cheapest_lit hc hp).1

theorem abSet_noZero : NoZero abSet := by
  intro s hs
  obtain ⟨b, rfl⟩ := abSet_flat s hs
  have : b = 97 ∨ b = 98 := by simpa [strings, abSet] using hs
  rcases this with rfl | rfl <;> exact .inl (by decide)

theorem baSet_noZero : NoZero baSet := by
  intro s hs
  obtain ⟨b, rfl⟩ := baSet_flat s hs
  have : b = 98 ∨ b = 97 := by simpa [strings, baSet] using hs
  rcases this with rfl | rfl <;> exact .inl (by decide)

/-- C92 (what is missing: the order of the numbers).  The set with the tokens `a`, `b` and the one with `b`, `a` have the
same key: in every run that asks for both, the second call says that `b`, the first token, is used twice in `aab`. -/
theorem C92_other_order : ∃ (env : Env) (ts ts' : OSet), Usable env ∧ Made ts ∧ Made ts' ∧ NoZero ts ∧ NoZero ts' ∧
    ts.literal = ts'.literal ∧
    (∃ r w, Run env (ask [.stats .mid ts, .stats .mid ts']) World.start r w) ∧
    ∀ r w, Run env (ask [.stats .mid ts, .stats .mid ts']) World.start r w →
      ∃ st st', r = .ok [st, st'] ∧ ¬ Right ts' env.mid false st' := by
  have hk : cacheKey abSet = cacheKey baSet := by rw [key_ab, key_ba]
  refine ⟨cacheEnv, abSet, baSet, cacheEnv_usable, abSet_made, baSet_made, abSet_noZero, baSet_noZero, rfl, ?_, ?_⟩
  · obtain ⟨st, w, h⟩ := second_call_exists (c := .mid) hk abSet_made cacheEnv_usable
    exact ⟨_, w, h⟩
  · intro r w hr
    obtain ⟨st, rfl, hf⟩ := second_call hk abSet_made cacheEnv_usable hr
    refine ⟨st, st, rfl, ?_⟩
    have hone : ∀ {ts : OSet} (x : Bytes), Right ts [x] false st →
        ∃ ps, Cheapest ts x ps ∧ st.tokenCount.getD 0 0 = ps.count (.tok 0) := by
      rintro ts x ⟨⟨cut, g1, g2, -⟩, -⟩
      cases g1 with
      | cons h1 h2 =>
        cases h2
        refine ⟨_, h1, ?_⟩
        rw [g2.tokens]
        simp
    intro hr'
    obtain ⟨ps, h1, h2⟩ := hone [97, 97, 98] (fresh_right hf (by intro h; cases h))
    obtain ⟨qs, h3, h4⟩ := hone [97, 97, 98] hr'
    rw [ab_count abSet_flat (k := 0) (b := 97) rfl ?_ h1] at h2
    · rw [ab_count baSet_flat (k := 0) (b := 98) rfl ?_ h3] at h4
      · rw [h2] at h4
        exact absurd h4 (by decide)
      · intro p hp
        cases p with
        | lit c => cases hp; exact .inr rfl
        | tok i =>
          match i, hp with
          | 0, hp => exact .inl rfl
          | 1, hp => exact absurd (Option.some.inj hp) (by decide)
          | i + 2, hp => cases hp
    · intro p hp
      cases p with
      | lit c => cases hp; exact .inr rfl
      | tok i =>
        match i, hp with
        | 0, hp => exact .inl rfl
        | 1, hp => exact absurd (Option.some.inj hp) (by decide)
        | i + 2, hp => cases hp

/-- Three calls with two sets. -/
example : ∃ sts, ∃ w, Run cacheEnv (ask [.stats .mid abSet, .pairs .fast baSet, .stats .mid ySet]) World.start (.ok sts) w ∧
    List.Forall₂ (Answer cacheEnv) [.stats .mid abSet, .pairs .fast baSet, .stats .mid ySet] sts := by
  obtain ⟨⟨r, w, hr⟩, h⟩ := C92_cache_partial cacheEnv_usable (lit := .dist8)
    (calls := [.stats .mid abSet, .pairs .fast baSet, .stats .mid ySet]) (by
      intro c hc
      have : c = .stats .mid abSet ∨ c = .pairs .fast baSet ∨ c = .stats .mid ySet := by simpa using hc
      rcases this with rfl | rfl | rfl
      · exact ⟨abSet_made, abSet_noZero, rfl, by decide⟩
      · exact ⟨baSet_made, baSet_noZero, rfl, by decide⟩
      · exact ⟨ySet_made, ySet_good.noZero, rfl, by decide⟩)
  obtain ⟨sts, rfl, h2⟩ := h r w hr
  exact ⟨sts, w, hr, h2⟩


/-! ### C93: one exchange -/

theorem wp_after {env : Env} {lit : LiteralEncoding} {calls : List Call} (hc : ∀ c ∈ calls, Allowed lit c.set)
    {α : Type} {p : Prog α} {Q : R α → Saved → Prop} {sv : Saved} (h : p.wp env lit sv Q) :
    (ask calls >>= fun _ => p).wp env lit sv Q := by
  refine wp_bind' (wp_mono _ ?_ (wp_ask hc))
  rintro r sv' ⟨rfl, sts, rfl, -⟩
  exact h

theorem _root_.Tokens.Spec.Old.Allowed.good {lit : LiteralEncoding} {ts : OSet} (h : Allowed lit ts) : Good lit ts :=
  ⟨h.made, h.noZero, h.literal⟩

/-- C93 (one round).  For all samples, every number of threads, every order in which the map of pairs is traversed and equal keys
are sorted, after any calls of the caches, and whatever was tried before: `remove_and_add_token` ends, and

* either it returns a set in which one token is exchanged for another one, a most used text of the fast samples when the old
  token is taken out, with which the samples cost less; tokens that were tried less often come first, every trial is
  counted, the trials before the last one could not help, and after 512 of them only tokens are tried that were not tried
  before;
* or it returns no set: the trials of at least 512 tokens, or of all that are not mandatory, could not help, and every
  such token was tried at least once in this or an earlier round;
* or it panics, because without one token every fast sample is a token, and nothing can be added. -/
theorem C93_exchange {env : Env} (he : Usable env) (hsmall : env.mid.flatten.length < 2 ^ 32) {lit : LiteralEncoding}
    {calls : List Call} (hc : ∀ c ∈ calls, Allowed lit c.set) {ts : OSet} (hts : Allowed lit ts) (att : Attempts) :
    (∃ r w, Run env (ask calls >>= fun _ => removeAndAdd ts att) World.start r w) ∧
    ∀ r w, Run env (ask calls >>= fun _ => removeAndAdd ts att) World.start r w →
      (∃ ts' att' s s' tried, r = .ok (some ts', att') ∧ Allowed lit ts' ∧ Improved env ts ts' s s' ∧
        Found env ts att att' tried s) ∨
      (∃ att' tried, r = .ok (none, att') ∧ GaveUp env ts att att' tried) ∨
      (r = .error .unwrapNone ∧ ∃ s ts0, s ∈ strings ts ∧ s ∉ fixed ts ∧ Without ts s ts0 ∧ AllTokens ts0 env.fast) := by
  have hwp : (ask calls >>= fun _ => removeAndAdd ts att).wp env lit World.start.saved _ :=
    wp_after hc (wp_removeAndAdd he hsmall hts.good hts.few att)
  refine ⟨wp_total he _ hwp (worldOk_start env lit), ?_⟩
  intro r w hr
  rcases (wp_sound he hr hwp (worldOk_start env lit)).1.2 with ⟨ts', att', s, s', tried, h1, h2, h3, h4⟩ | h | h
  · have := exchanged_length h3.exchanged
    have := hts.few
    exact .inl ⟨ts', att', s, s', tried, h1, ⟨h2.made, h2.noZero, h2.literal, by omega⟩, h3, h4⟩
  · exact .inr (.inl h)
  · exact .inr (.inr h)

theorem ySet_allowed : Allowed .dist8 ySet := ⟨ySet_made, ySet_good.noZero, rfl, by decide⟩

/-- With the samples `xxy`, the token `y` is exchanged for `x`. -/
example : ∃ ts' att' w, Run endlessEnv (ask [.pairs .mid ySet] >>= fun _ => removeAndAdd ySet (fun _ => 0)) World.start
    (.ok (some ts', att')) w ∧ strings ts' = [[120]] := by
  have hc : ∀ c ∈ [Call.pairs .mid ySet], Allowed .dist8 c.set := by
    intro c hc
    rw [List.mem_singleton] at hc
    subst hc
    exact ySet_allowed
  obtain ⟨⟨r, w, hr⟩, -⟩ := C93_exchange endless_usable (by decide) hc ySet_allowed (fun _ => 0)
  have hwp : (ask [.pairs .mid ySet] >>= fun _ => removeAndAdd ySet (fun _ => 0)).wp endlessEnv .dist8 World.start.saved _ :=
    wp_after hc (endless_remove ySet_good ySet_strings ySet_fixed (fun _ => 0))
  obtain ⟨ts', att', rfl, -, h2, -⟩ := (wp_sound endless_usable hr hwp (worldOk_start _ _)).1.2
  exact ⟨ts', att', w, hr, h2⟩

/-! ### C94: adding tokens -/

/-- C94 (adding tokens).  For all samples, after any calls of the caches: `add_tokens` with a number `n` ends without a panic, and
the set it returns has at most `n` more tokens, all new, none empty, each a part of a sample; no literal and no pair of
neighbouring tokens of a cheapest way to write the samples is worth more than one of those that were chosen; there are
fewer than `n` only if there are no others, and none only if `n = 0` or every sample is a token. -/
theorem C94_add_tokens {env : Env} (he : Usable env) {lit : LiteralEncoding} {calls : List Call}
    (hc : ∀ c ∈ calls, Allowed lit c.set) {ts : OSet} (hts : Allowed lit ts) (c : Which) (n : Nat) :
    (∃ r w, Run env (ask calls >>= fun _ => addTokens c ts n) World.start r w) ∧
    ∀ r w, Run env (ask calls >>= fun _ => addTokens c ts n) World.start r w →
      ∃ ts' added, r = .ok (ts', added) ∧ Made ts' ∧ NoZero ts' ∧ ts'.literal = lit ∧ Added env c ts n ts' added := by
  have hwp : (ask calls >>= fun _ => addTokens c ts n).wp env lit World.start.saved _ :=
    wp_after hc (wp_addTokens he hts.good hts.few c n)
  refine ⟨wp_total he _ hwp (worldOk_start env lit), ?_⟩
  intro r w hr
  obtain ⟨-, ts', added, h1, h2, h3⟩ := (wp_sound he hr hwp (worldOk_start env lit)).1
  exact ⟨ts', added, h1, h2.made, h2.noZero, h2.literal, h3⟩

/-- The sample `xyx` with the token `y`: one token is added, and it is `x`. -/
def xyxEnv : Env := { slow := [[120]], mid := [[120, 121, 120]], fast := [[120]], nthreads := 3 }

theorem xyx_usable : Usable xyxEnv := ⟨by simp [xyxEnv], by simp [xyxEnv], by simp [xyxEnv], by decide⟩

example : ∃ ts' w, Run xyxEnv (ask [] >>= fun _ => addTokens .mid ySet 1) World.start (.ok (ts', [[120]])) w ∧
    strings ts' = [[121], [120]] := by
  obtain ⟨⟨r, w, hr⟩, h⟩ := C94_add_tokens xyx_usable (lit := .dist8) (calls := []) (by simp) ySet_allowed .mid 1
  obtain ⟨ts', added, rfl, -, -, -, ha⟩ := h r w hr
  obtain ⟨cut, h1, h2⟩ := ha.best
  have hne : added ≠ [] := by
    intro e
    rcases ha.some.1 e with h3 | h3
    · cases h3
    · have := h3 [120, 121, 120] (by simp [xyxEnv, Env.samples])
      rw [ySet_strings] at this
      simp at this
  obtain ⟨s, rfl⟩ : ∃ s, added = [s] := by
    have h3 := h2.length
    have h4 := List.length_pos_iff.2 hne
    exact List.length_eq_one_iff.1 (by omega)
  have hs : s = [120] := by
    have hflat : Flat ySet := flat_one ySet_strings
    obtain ⟨v, hv, -⟩ := h2.worth s (by simp)
    have hcut : ∃ ps, cut = [ps] ∧ Cheapest ySet [120, 121, 120] ps := by
      change List.Forall₂ _ [[120, 121, 120]] cut at h1
      cases h1 with
      | cons h1 h1' => cases h1'; exact ⟨_, rfl, h1⟩
    obtain ⟨ps, rfl, hps⟩ := hcut
    cases hv with
    | lit b hb =>
      have hin : Piece.lit b ∈ ps := by
        unfold litUses at hb
        simp only [List.map_cons, List.map_nil, List.sum_cons, List.sum_nil, Nat.add_zero] at hb
        exact List.count_pos_iff.1 hb
      obtain ⟨h5, h6⟩ := cheapest_lit hps hin
      rw [ySet_strings] at h5
      simp only [List.mem_singleton, List.cons.injEq, and_true] at h5
      have : b = 120 ∨ b = 121 ∨ b = 120 := by simpa using h6
      rcases this with rfl | rfl | rfl
      · rfl
      · exact absurd rfl h5
      · rfl
    | pair p hp =>
      exfalso
      have hin : p ∈ neighbours ps := by
        unfold pairCountIn at hp
        simp only [List.map_cons, List.map_nil, List.sum_cons, List.sum_nil, Nat.add_zero] at hp
        exact List.count_pos_iff.1 hp
      obtain ⟨i, j⟩ := p
      obtain ⟨s, t, g1, g2, g3, g4⟩ := cheapest_pair hps hin
      have k1 := text_mem g1
      have k2 := text_mem g2
      rw [ySet_strings, List.mem_singleton] at k1 k2
      subst k1 k2
      obtain ⟨u, v, e⟩ := g4
      have e1 := congrArg List.length e
      simp only [List.length_append, List.length_cons, List.length_nil] at e1
      match u, v, e, e1 with
      | [], [a], e, _ => simp at e
      | [a], [], e, _ => simp at e
      | [], [], e, e1 => simp at e1
      | a :: b :: u, v, _, e1 => simp at e1; omega
      | [], a :: b :: v, _, e1 => simp at e1; omega
      | [a], b :: v, _, e1 => simp at e1
  subst hs
  exact ⟨ts', w, hr, ha.strings⟩

/-! ### C95: `optimize_bpe` -/

/-- C95 (optimizing).  For all samples, every set and every block size that is not 0: every run of `optimize_bpe` ends, and if it returns, then
with a set that has the number of tokens that was asked for (or as many as before, if there were more) and the same mandatory tokens; it
is made by adding parts of samples and then by exchanges of which each makes the samples cheaper; it was given up
after trying every token that is not mandatory; the statistics have its cost, which is at most the cost of the set at the start.

Otherwise it panics, because without one token every fast sample is a token; or it does not end, because every sample is
a token before there are as many tokens as were asked for. -/
theorem C95_bpe {env : Env} (he : Usable env) (hsmall : env.mid.flatten.length < 2 ^ 32) {lit : LiteralEncoding}
    {ts : OSet} (hts : Allowed lit ts) {ntokens block fuel : Nat} (hN : ntokens ≤ 65536) (hb : 0 < block)
    (hf1 : ntokens - ts.ntokens ≤ fuel) (hf2 : ∀ c, IsCost ts env.mid c → c < fuel) :
    (∃ r w, Run env (optimizeBpe fuel ts ntokens block) World.start r w) ∧
    ∀ r w, Run env (optimizeBpe fuel ts ntokens block) World.start r w →
      (∃ ts1 ts' st before after tried, r = .ok (ts', st) ∧ Made ts' ∧ NoZero ts' ∧ ts'.ntokens = max ntokens ts.ntokens ∧
        fixed ts' = fixed ts ∧ Made ts1 ∧ Grown env .mid ts ts1 ∧ Steps env ts1 ts' ∧ GaveUp env ts' before after tried ∧
        IsCost ts' env.mid st.cost ∧ ∀ c, IsCost ts env.mid c → st.cost ≤ c) ∨
      (r = .error .unwrapNone ∧ Exhausted env (max ntokens ts.ntokens)) ∨
      (r = .error .fuel ∧ Stuck env ts ntokens) := by
  have hwp : (optimizeBpe fuel ts ntokens block).wp env lit World.start.saved _ :=
    wp_optimizeBpe he hsmall hN hb hts.good hts.few hf1 (hf2 _ (isCost_iff.2 rfl))
  refine ⟨wp_total he _ hwp (worldOk_start env lit), ?_⟩
  intro r w hr
  rcases (wp_sound he hr hwp (worldOk_start env lit)).1.2 with
    ⟨ts1, ts', st, a, a', tried, h1, h2, h3, h4, h5, h6, h7, h8⟩ | h | ⟨h1, ts', h2, h3⟩
  · obtain ⟨s1, s2, s3⟩ := steps_facts h5
    have hc := cached_cost h2.literal h8
    refine .inl ⟨ts1, ts', st, a, a', tried, h1, h2.made, h2.noZero, s1.trans h6, s2.trans h4.fixed, h3, h4, h5, h7,
      isCost_iff.2 hc, ?_⟩
    intro c hc'
    obtain ⟨added, e, -⟩ := h4.strings
    have := tot_added e h4.literal env.mid
    rw [isCost_iff.1 hc', hc]
    exact Nat.le_trans s3 this
  · exact .inr (.inl h)
  · exact .inr (.inr ⟨h1, ts', h2.made, h3⟩)

/-- C95 (no end).  If every sample is a token and there are fewer tokens than were asked for, `optimize_bpe` never ends: for every bound, every
run reaches it. -/
theorem C95_endless {env : Env} (he : Usable env) {lit : LiteralEncoding} {ts : OSet} (hts : Allowed lit ts)
    {ntokens block : Nat} (hN : ntokens ≤ 65536) (hlt : ts.ntokens < ntokens) (hall : AllTokens ts env.mid) (fuel : Nat) :
    (∃ w, Run env (optimizeBpe fuel ts ntokens block) World.start (.error .fuel) w) ∧
    ∀ r w, Run env (optimizeBpe fuel ts ntokens block) World.start r w → r = .error .fuel := by
  have hwp : (optimizeBpe fuel ts ntokens block).wp env lit World.start.saved (fun r _ => r = .error .fuel) := by
    refine wp_bind' (wp_mono _ ?_ (wp_stuck he .mid hN fuel hts.good hlt hall))
    rintro r sv' ⟨-, rfl⟩
    rfl
  have key : ∀ r w, Run env (optimizeBpe fuel ts ntokens block) World.start r w → r = .error .fuel :=
    fun r w hr => (wp_sound he hr hwp (worldOk_start env lit)).1
  obtain ⟨r, w, hr⟩ := wp_total he _ hwp (worldOk_start env lit)
  obtain rfl := key r w hr
  exact ⟨⟨w, hr⟩, key⟩

/-- With the samples `xxy`, `optimize_bpe` for two tokens (one is reserved for literals) ends with a set. -/
example : ∃ ts' st w, Run endlessEnv (optimizeBpe 100 ySet 2 1) World.start (.ok (ts', st)) w ∧ ts'.ntokens = 2 ∧ st.cost ≤ 17 := by
  have hcost : tot ySet endlessEnv.mid = 17 := by rw [one_cost ySet_strings rfl]; rfl
  obtain ⟨⟨r, w, hr⟩, h⟩ := C95_bpe endless_usable (by decide) ySet_allowed (ntokens := 2) (block := 1) (fuel := 100) (by omega)
    (by omega) (by omega) (by intro c hc; rw [isCost_iff.1 hc, hcost]; omega)
  rcases h r w hr with ⟨ts1, ts', st, b, a, tried, rfl, -, -, h1, -, -, -, -, -, -, h2⟩ | ⟨rfl, h1⟩ | ⟨rfl, ts', -, hgr, h1, -⟩
  · exact ⟨ts', st, w, hr, h1, h2 17 (isCost_iff.2 hcost.symm)⟩
  · exfalso
    obtain ⟨ts, s, ts0, g1, g2, g3, g4, g5, g6⟩ := h1
    have k1 := g6 [120, 120, 121] (by simp [endlessEnv])
    have k2 := List.length_pos_of_mem k1
    have k3 := g5.strings.length_eq
    rw [List.length_cons, length_strings ts] at k3
    have k4 : ts.tokens.length + ts.literal.reservedTokens = 2 := g2
    have k5 := congrArg List.length (made_fixed g1)
    have k6 : (fixed ts).length ≤ ts.tokens.length := by
      unfold fixed
      rw [List.length_map]
      exact List.length_filter_le _ _
    rw [k5] at k6
    have k7 : 1 ≤ ts.literal.reservedTokens ∨ 17 ≤ (OSet.mandatory ts.literal).length := by
      cases ts.literal
      case all => exact .inr (by unfold OSet.mandatory; rw [List.length_map, allBytes_length]; omega)
      case hex => exact .inr (Nat.le_refl _)
      all_goals exact .inl (by decide)
    omega
  · exfalso
    have e1 : ySet.ntokens = 2 := rfl
    obtain ⟨added, e, -⟩ := hgr.strings
    have e2 := congrArg List.length e
    rw [List.length_append, length_strings, ySet_strings, List.length_singleton] at e2
    have e3 : ts'.tokens.length + ts'.literal.reservedTokens < 2 := h1
    rw [hgr.literal] at e3
    have e4 : ySet.literal.reservedTokens = 1 := rfl
    omega

/-- A sample that is a token: three tokens are never found. -/
example (fuel : Nat) : ∃ w, Run tieEnv (optimizeBpe fuel ySet 3 1) World.start (.error .fuel) w :=
  (C95_endless tie_usable ySet_allowed (by omega) (by decide) (by
    intro x hx
    have : x = [121] := by simpa [tieEnv] using hx
    rw [this, ySet_strings]
    simp) fuel).1


/-! ### C93: the panic -/

/-- A set with the tokens `x` and `y`. -/
def xySet : OSet :=
  { tokens := [{ string := [120], isMandatory := false, suffix := .none },
               { string := [121], isMandatory := false, suffix := .none }]
    byString := (StrMap.insert (fun _ => none) [120] 0).insert [121] 1
    literal := .dist8 }

theorem xySet_allowed : Allowed .dist8 xySet := by
  refine ⟨.add (s := [121]) (.add (s := [120]) (.new (le := .dist8) rfl) (by decide) rfl) (by decide) rfl, ?_, rfl, by decide⟩
  intro s hs
  have : s = [120] ∨ s = [121] := by simpa [strings, xySet] using hs
  rcases this with rfl | rfl <;> exact .inl (by decide)

/-- C93 (the panic happens).  The fast samples and the samples are `y`, the tokens are `x` and `y`: every run of
`remove_and_add_token` panics, since without `x` nothing can be added. -/
theorem C93_panics : ∃ (env : Env) (ts : OSet), Usable env ∧ Allowed .dist8 ts ∧
    (∃ r w, Run env (removeAndAdd ts (fun _ => 0)) World.start r w) ∧
    ∀ r w, Run env (removeAndAdd ts (fun _ => 0)) World.start r w → r = .error .unwrapNone := by
  have hwp : (removeAndAdd xySet (fun _ => 0)).wp tieEnv .dist8 World.start.saved _ :=
    wp_removeAndAdd tie_usable (by decide) xySet_allowed.good xySet_allowed.few (fun _ => 0)
  refine ⟨tieEnv, xySet, tie_usable, xySet_allowed, wp_total tie_usable _ hwp (worldOk_start _ _), ?_⟩
  intro r w hr
  have hone : ∀ {ts : OSet}, 1 ≤ leastCost ts [121] := by
    intro ts
    obtain ⟨ps, h1, h2⟩ := leastCost_exists ts [121]
    rw [← h2]
    have := literalCost_two ts.literal
    generalize hx : ([121] : Bytes) = x at h1
    cases ps with
    | nil => cases h1.spells; cases hx
    | cons p ps => cases p <;> simp only [cost] <;> omega
  rcases (wp_sound tie_usable hr hwp (worldOk_start _ _)).1.2 with
    ⟨ts', att', s, s', tried, h1, h2, h3, h4⟩ | ⟨att', tried, h1, h2⟩ | h
  · exfalso
    have hc := h3.cheaper _ _ (isCost_iff.2 rfl) (isCost_iff.2 rfl)
    have h0 : tot xySet tieEnv.mid ≤ 1 := by
      have := leastCost_le (ts := xySet) (x := [121]) (ps := [.tok 1]) (Spells.cons (s := [121]) (x := []) rfl .nil)
      show leastCost xySet [121] + 0 ≤ 1
      exact this
    have h5 : 1 ≤ tot ts' tieEnv.mid := by
      show 1 ≤ leastCost ts' [121] + 0
      exact hone
    omega
  · exfalso
    have hin : [120] ∈ tried := by
      rcases h2.enough with h | h
      · have := List.Subperm.length_le (List.subperm_of_subset h2.trials.nodup (fun s hs' => (h2.trials.tokens s hs').1))
        rw [show (strings xySet).length = 2 from rfl] at this
        omega
      · exact h [120] (by simp [strings, xySet]) (by simp [Spec.Old.fixed, xySet])
    obtain ⟨s', ⟨ts0, cut, g1, g2, -⟩, -⟩ := h2.useless _ hin
    have hs0 : strings ts0 = [[121]] := by
      have h5 := g1.strings
      rw [show strings xySet = [[120], [121]] from rfl] at h5
      exact List.perm_singleton.1 ((List.perm_cons _).1 h5)
    obtain ⟨x, hx, u, v, e⟩ := g2.found
    have : x = [121] := by simpa [tieEnv] using hx
    subst this
    have e1 := congrArg List.length e
    have e2 := List.length_pos_iff.2 g2.ne
    simp only [List.length_append, List.length_singleton] at e1
    obtain rfl : u = [] := List.length_eq_zero_iff.1 (by omega)
    obtain rfl : v = [] := List.length_eq_zero_iff.1 (by omega)
    simp only [List.nil_append, List.append_nil] at e
    exact g2.new (by rw [hs0, e]; simp)
  · exact h.1

/-! ### C96: tokens of one byte -/

/-- C96 (bytes).  For all slow samples and every set without mandatory tokens of one byte (or with a token for every byte): computing the
statistics and `optimize_byte_tokens` end without a panic; in the set that is returned, tokens of one byte are exchanged for as many
others, and nothing else changes; then no byte without a token is used more often, in a cheapest way to write the samples with the
old set, than one with a token; the result says whether anything was exchanged; and the samples do not cost more. -/
theorem C96_bytes {env : Env} (he : Usable env) {lit : LiteralEncoding} {ts : OSet} (hts : Allowed lit ts)
    (hfx : (∀ b, [b] ∉ fixed ts) ∨ ∀ b, [b] ∈ strings ts) :
    (∃ r w, Run env (slowStats ts >>= optimizeByteTokens ts) World.start r w) ∧
    ∀ r w, Run env (slowStats ts >>= optimizeByteTokens ts) World.start r w →
      ∃ changed ts' cut removed added, r = .ok (changed, ts') ∧ Allowed lit ts' ∧
        List.Forall₂ (Cheapest ts) env.slow cut ∧ BestBytes ts ts' cut removed added ∧
        (changed = false → ts' = ts) ∧ (changed = true → added ≠ []) ∧
        ∀ c c', IsCost ts env.slow c → IsCost ts' env.slow c' → c' ≤ c := by
  have hwp : (slowStats ts >>= optimizeByteTokens ts).wp env lit World.start.saved (fun r _ =>
      ∃ changed ts' cut removed added, r = .ok (changed, ts') ∧ Allowed lit ts' ∧
        List.Forall₂ (Cheapest ts) env.slow cut ∧ BestBytes ts ts' cut removed added ∧
        (changed = false → ts' = ts) ∧ (changed = true → added ≠ []) ∧
        ∀ c c', IsCost ts env.slow c → IsCost ts' env.slow c' → c' ≤ c) := by
    refine ⟨hts.good, ?_⟩
    rintro st ⟨f, hf, ht, hlo⟩
    show (optimizeByteTokens ts st).wp env lit World.start.saved _
    refine wp_mono _ ?_ (wp_optimizeByteTokens hts.good hfx hf ht)
    rintro r sv' ⟨-, ch, ts', removed, added, rfl, h1, h2, h3, h4⟩
    have hg := best_good hts.good h1 h2
    have hn := best_ntokens h2
    have hfew := hts.few
    refine ⟨ch, ts', _, removed, added, rfl, ⟨hg.made, hg.noZero, hg.literal, by omega⟩, forall2_map hf _, h2, h3, h4, ?_⟩
    intro c c' hc hc'
    rw [isCost_iff.1 hc, isCost_iff.1 hc']
    exact best_le hts.good.ok hf h2
  refine ⟨wp_total he _ hwp (worldOk_start env lit), ?_⟩
  intro r w hr
  exact (wp_sound he hr hwp (worldOk_start env lit)).1

/-- C96 (mandatory bytes).  If every token of one byte is mandatory, and in every cheapest way to write the slow samples some byte
without a token is used more often than one with a token, then `optimize_byte_tokens` panics in every run. -/
theorem C96_fixed_panics {env : Env} (he : Usable env) {lit : LiteralEncoding} {ts : OSet} (hts : Allowed lit ts)
    (hfx : ∀ b, [b] ∈ strings ts → [b] ∈ fixed ts) {b b' : UInt8} (h1 : [b] ∈ strings ts) (h2 : [b'] ∉ strings ts)
    (h3 : ∀ cut, List.Forall₂ (Cheapest ts) env.slow cut → byteUsesIn ts cut b < byteUsesIn ts cut b') :
    (∃ r w, Run env (slowStats ts >>= optimizeByteTokens ts) World.start r w) ∧
    ∀ r w, Run env (slowStats ts >>= optimizeByteTokens ts) World.start r w → r = .error .assertFailed := by
  have hwp : (slowStats ts >>= optimizeByteTokens ts).wp env lit World.start.saved (fun r _ =>
      r = .error .assertFailed) := by
    refine ⟨hts.good, ?_⟩
    rintro st ⟨f, hf, ht, hlo⟩
    show (optimizeByteTokens ts st).wp env lit World.start.saved _
    refine wp_mono _ ?_ (wp_byteTokens_fixed hts.good hfx hf ht h1 h2 (h3 _ (forall2_map hf _)))
    rintro r sv' ⟨-, h⟩
    exact h
  refine ⟨wp_total he _ hwp (worldOk_start env lit), ?_⟩
  intro r w hr
  exact (wp_sound he hr hwp (worldOk_start env lit)).1

/-- With the slow samples `xxy`, the token `y` is exchanged for `x`. -/
example : ∃ ts' w, Run { endlessEnv with slow := [[120, 120, 121]] } (slowStats ySet >>= optimizeByteTokens ySet) World.start
    (.ok (true, ts')) w ∧ strings ts' = [[120]] := by
  have hu : Usable { endlessEnv with slow := [[120, 120, 121]] } :=
    ⟨by simp, endless_usable.mid, endless_usable.fast, endless_usable.threads⟩
  obtain ⟨⟨r, w, hr⟩, h⟩ := C96_bytes hu ySet_allowed (.inl (by intro b; rw [ySet_fixed]; simp))
  obtain ⟨ch, ts', cut, removed, added, rfl, h1, h2, h3, h4, h5, -⟩ := h r w hr
  obtain ⟨c, h6, h7⟩ := one_best ySet_strings h2 h3
  have hc : c = 120 := by
    refine byte_most ?_ h7
    exact endless_fast
  subst hc
  cases ch with
  | true => exact ⟨ts', w, hr, h6⟩
  | false =>
    rw [h4 rfl, ySet_strings] at h6
    exact absurd h6 (by decide)

/-- The set with the tokens for hexadecimal digits, and `x` as the slow sample: a panic. -/
example : ∃ ts, OSet.new .hex = .ok ts ∧ ∀ r w,
    Run { endlessEnv with slow := [[120]] } (slowStats ts >>= optimizeByteTokens ts) World.start r w → r = .error .assertFailed := by
  obtain ⟨ts, h1, h2, h3⟩ := new_ok .hex
  obtain ⟨n1, n2, n3⟩ := new_strings h1
  have hu : Usable { endlessEnv with slow := [[120]] } :=
    ⟨by simp, endless_usable.mid, endless_usable.fast, endless_usable.threads⟩
  have hflat : Flat ts := by
    intro s hs
    rw [n1] at hs
    simp only [OSet.mandatory, List.mem_cons, List.not_mem_nil, or_false] at hs
    rcases hs with rfl | rfl | rfl | rfl | rfl | rfl | rfl | rfl | rfl | rfl | rfl | rfl | rfl | rfl | rfl | rfl | rfl <;> exact ⟨_, rfl⟩
  have hlen : ts.tokens.length = 17 := by rw [← length_strings, n1]; rfl
  refine ⟨ts, h1, (C96_fixed_panics hu (lit := .hex) ⟨.new h1, ?_, n3, by omega⟩ (fun b hb => by rw [n2, ← n1]; exact hb) (b := 48)
    (b' := 120) (by rw [n1]; simp [OSet.mandatory]) (by rw [n1]; simp [OSet.mandatory]) ?_).2⟩
  · intro s hs
    obtain ⟨b, rfl⟩ := hflat s hs
    rw [n1] at hs
    left
    intro h0
    rw [List.mem_singleton] at h0
    rw [← h0] at hs
    exact absurd hs (by simp [OSet.mandatory])
  · intro cut hcut
    rw [flat_byteUses hflat hcut, flat_byteUses hflat hcut]
    decide

/-! ### C97: what is saved -/

/-- C97 (saved sets).  For all samples and every set without mandatory tokens: every run of `optimize_token_set`, also one that ends with a panic
and one that is stopped at any bound, has saved only sets that have the number of tokens that was asked for (or as many as before, if
there were more), with their statistics on the slow samples; no set costs more on the slow samples than one that was saved
before it, or than the set at the start.  A run that ends normally has saved at least one, and the last one costs no more than a set for
which exchanges were given up and in which the single bytes were then exchanged. -/
theorem C97_saved {env : Env} (he : Usable env) (hsmall : env.mid.flatten.length < 2 ^ 32) {lit : LiteralEncoding}
    {ts : OSet} (hts : Allowed lit ts) (hfx : fixed ts = []) {ntokens block fuel : Nat} (hN : ntokens ≤ 65536)
    (hb : ts.ntokens < ntokens → 0 < block) (hf : ntokens - ts.ntokens ≤ fuel) {top : Nat} (htop : IsCost ts env.slow top) :
    (∃ r w, Run env (optimizeTokenSet fuel ts ntokens block) World.start r w) ∧
    ∀ r w, Run env (optimizeTokenSet fuel ts ntokens block) World.start r w →
      SavedOk env lit (max ntokens ts.ntokens) top w.saved ∧
      (r = .ok () → w.saved ≠ [] ∧ Final env (max ntokens ts.ntokens) w.saved) := by
  have hwp : (optimizeTokenSet fuel ts ntokens block).wp env lit World.start.saved _ :=
    wp_optimizeTokenSet he hsmall hN hb hts.good hfx hts.few hf
  refine ⟨wp_total he _ hwp (worldOk_start env lit), ?_⟩
  intro r w hr
  obtain ⟨h1, h2, h3, -⟩ := (wp_sound he hr hwp (worldOk_start env lit)).1
  rw [isCost_iff.1 htop]
  refine ⟨h1, fun h => ⟨fun h0 => ?_, h3 h⟩⟩
  obtain ⟨e, he'⟩ := h2 h0
  rw [h] at he'
  cases he'

/-- For two tokens, with `xxy` as samples and `xyy` as slow samples. -/
example : ∃ r w, Run endlessEnv (optimizeTokenSet 5 ySet 2 1) World.start r w ∧ SavedOk endlessEnv .dist8 2 10 w.saved := by
  have hcost : tot ySet endlessEnv.slow = 10 := by rw [one_cost ySet_strings rfl]; rfl
  obtain ⟨⟨r, w, hr⟩, h⟩ := C97_saved endless_usable (by decide) ySet_allowed ySet_fixed (ntokens := 2) (block := 1) (fuel := 5)
    (by omega) (by omega) (by omega) (isCost_iff.2 hcost.symm)
  exact ⟨r, w, hr, (h r w hr).1⟩

/-! ### C98: how it ends -/

/-- C98 (the end).  For all samples and every set without mandatory tokens: when the 600 seconds after which `optimize_token_set` looks at the slow
samples never pass, it ends within a number of rounds that depends on the samples only, normally or

* with the failed assertion at the end, and then single bytes were exchanged and the slow samples cost the same (`Tie`);
* with a panic, because without one token every fast sample is a token (`Exhausted`);
* or it does not end, because every sample is a token before there are enough tokens (`Stuck`).

When the 600 seconds pass any number of times, no other panic is possible either.

Not proved, because the code violates it: that it always ends normally (`C98_tie`, `C93_panics`), and that it ends when the 600
seconds pass again and again (`C98_endless`). -/
theorem C98_ends_partial {env : Env} (he : Usable env) (hsmall : env.mid.flatten.length < 2 ^ 32) {lit : LiteralEncoding}
    {ts : OSet} (hts : Allowed lit ts) (hfx : fixed ts = []) {ntokens block fuel : Nat} (hN : ntokens ≤ 65536)
    (hb : ts.ntokens < ntokens → 0 < block) (hf : ntokens - ts.ntokens ≤ fuel) :
    (lit.literalCost * env.mid.flatten.length < fuel →
      (∃ r w, Run env (quiet (optimizeTokenSet fuel ts ntokens block)) World.start r w) ∧
      ∀ r w, Run env (quiet (optimizeTokenSet fuel ts ntokens block)) World.start r w → r = .ok () ∨
        (r = .error .assertFailed ∧ Tie env (max ntokens ts.ntokens)) ∨
        (r = .error .unwrapNone ∧ Exhausted env (max ntokens ts.ntokens)) ∨ (r = .error .fuel ∧ Stuck env ts ntokens)) ∧
    ∀ r w, Run env (optimizeTokenSet fuel ts ntokens block) World.start r w → Outcome env (max ntokens ts.ntokens) r := by
  constructor
  · intro hf2
    have hwp : (quiet (optimizeTokenSet fuel ts ntokens block)).wp env lit World.start.saved _ :=
      qwp_optimizeTokenSet he hsmall hN hb hts.good hfx hts.few hf hf2
    refine ⟨wp_total he _ hwp (worldOk_start env lit), ?_⟩
    intro r w hr
    exact (wp_sound he hr hwp (worldOk_start env lit)).1
  · have hwp : (optimizeTokenSet fuel ts ntokens block).wp env lit World.start.saved _ :=
      wp_optimizeTokenSet he hsmall hN hb hts.good hfx hts.few hf
    intro r w hr
    exact (wp_sound he hr hwp (worldOk_start env lit)).1.2.2.2

/-- C98 (what is missing: a tie).  With the slow samples `xy`, the samples `y` and the token `y`, for every bound on the rounds above 0 there is a
run that fails the assertion at the end: `x` and `y` are used equally often, sorting may put `x` first, the exchange does not make the
samples cheaper, and the assertion wants it to. -/
theorem C98_tie : ∃ (env : Env) (ts : OSet), Usable env ∧ Allowed .dist8 ts ∧ fixed ts = [] ∧ ts.ntokens = 2 ∧
    ∀ fuel, 0 < fuel → ∃ w, Run env (optimizeTokenSet fuel ts 2 1) World.start (.error .assertFailed) w :=
  ⟨tieEnv, ySet, tie_usable, ySet_allowed, ySet_fixed, rfl, fun fuel h => tie fuel h⟩

/-- C98 (what is missing: no end).  With `xxy` as samples and `xyy` as slow samples, for every bound there is a run that reaches it: when the 600
seconds pass in each round, the exchange of tokens turns `y` into `x`, and the exchange of single bytes turns it back. -/
theorem C98_endless : ∃ (env : Env) (ts : OSet), Usable env ∧ Allowed .dist8 ts ∧ fixed ts = [] ∧ ts.ntokens = 2 ∧
    ∀ fuel, ∃ w, Run env (optimizeTokenSet fuel ts 2 1) World.start (.error .fuel) w :=
  ⟨endlessEnv, ySet, endless_usable, ySet_allowed, ySet_fixed, rfl, fun fuel => endless fuel⟩

/-- The same samples as in `C98_endless`, when the 600 seconds never pass: 25 rounds are enough. -/
example : ∃ r w, Run endlessEnv (quiet (optimizeTokenSet 25 ySet 2 1)) World.start r w ∧ r ≠ .error .fuel := by
  obtain ⟨⟨r, w, hr⟩, h⟩ := (C98_ends_partial endless_usable (by decide) ySet_allowed ySet_fixed (ntokens := 2) (block := 1) (fuel := 25)
    (by omega) (by omega) (by omega)).1 (by decide)
  refine ⟨r, w, hr, ?_⟩
  rcases h r w hr with rfl | ⟨rfl, -⟩ | ⟨rfl, -⟩ | ⟨rfl, ts', -, h1, h2, -⟩
  · intro h; cases h
  · intro h; cases h
  · intro h; cases h
  · exfalso
    obtain ⟨added, e, -⟩ := h1.strings
    have e2 := congrArg List.length e
    rw [List.length_append, length_strings, ySet_strings, List.length_singleton] at e2
    have e3 : ts'.tokens.length + ts'.literal.reservedTokens < 2 := h2
    rw [h1.literal] at e3
    have e4 : ySet.literal.reservedTokens = 1 := rfl
    omega

/-! ### C99: the numbers of `optimize_all` -/

/-- C99 (blocks).  For every number of tokens from 2 on, the loop that computes the size of the blocks ends within as many rounds; its
result is the largest of the numbers `n / 2`, `n / 4`, … whose square is less than `n`, and it is not 0.  For one token it is
0.  For no tokens the loop never ends. -/
theorem C99_block :
    (∀ n fuel, 2 ≤ n → n ≤ fuel → ∃ b k, blockFor fuel n = .ok b ∧ b = n / 2 ^ (k + 1) ∧ 0 < b ∧ b * b < n ∧
      ∀ i < k, n ≤ n / 2 ^ (i + 1) * (n / 2 ^ (i + 1))) ∧
    (∀ fuel, blockFor fuel 1 = .ok 0) ∧ (∀ fuel, blockFor fuel 0 = .error .fuel) := by
  refine ⟨?_, blockFor_one, blockFor_zero⟩
  intro n fuel hn hf
  obtain ⟨b, k, h1, h2, h3, h4, h5⟩ := blockFor_ok hn hf
  have hd : ∀ i, n / 2 / 2 ^ i = n / 2 ^ (i + 1) := by
    intro i
    rw [Nat.div_div_eq_div_mul, ← Nat.pow_succ']
  refine ⟨b, k, h1, by rw [h4, hd], h2, h3, ?_⟩
  intro i hi
  have := h5 i hi
  rwa [hd] at this

example : blockFor 16 16 = .ok 2 := rfl
example : blockFor 1000 1000 = .ok 31 := by
  obtain ⟨b, k, h1, h2, h3, h4, h5⟩ := C99_block.1 1000 1000 (by norm_num) (by norm_num)
  have hk : k = 4 := by
    rcases Nat.lt_trichotomy k 4 with hk | hk | hk
    · have : k = 0 ∨ k = 1 ∨ k = 2 ∨ k = 3 := by omega
      rcases this with rfl | rfl | rfl | rfl <;> norm_num at h2 <;> subst h2 <;> omega
    · exact hk
    · have := h5 4 hk
      norm_num at this
  subst hk
  norm_num at h2
  rw [h1, h2]

/-- C99 (the set to start with).  `load_prev_token_set` loads the file for the first of the numbers `n`, `n / 2`, `n / 4`, … that
has one, where no number after one that is at most 2 is looked at; it loads none only if none of these has a file. -/
theorem C99_load (has : Nat → Bool) (n : Nat) :
    (∀ m, loadPrev has n = some m ↔ ∃ k, m = n / 2 ^ k ∧ has m = true ∧ ∀ i < k, has (n / 2 ^ i) = false ∧ 2 < n / 2 ^ i) ∧
    (loadPrev has n = none ↔ ∀ k, (∀ i < k, 2 < n / 2 ^ i) → has (n / 2 ^ k) = false) := by
  refine ⟨fun m => ⟨loadPrev_some, ?_⟩, ⟨loadPrev_none, ?_⟩⟩
  · rintro ⟨k, rfl, h1, h2⟩
    cases e : loadPrev has n with
    | none =>
      have := loadPrev_none e k (fun i hi => (h2 i hi).2)
      rw [h1] at this
      cases this
    | some m' =>
      obtain ⟨k', rfl, g1, g2⟩ := loadPrev_some e
      rcases Nat.lt_trichotomy k k' with hk | hk | hk
      · have := (g2 k hk).1
        rw [h1] at this
        cases this
      · rw [hk]
      · have := (h2 k' hk).1
        rw [g1] at this
        cases this
  · intro h
    cases e : loadPrev has n with
    | none => rfl
    | some m =>
      obtain ⟨k, rfl, h1, h2⟩ := loadPrev_some e
      have := h k (fun i hi => (h2 i hi).2)
      rw [h1] at this
      cases this

example : loadPrev (fun m => decide (m = 2 ∨ m = 4)) 20 = some 2 :=
  ((C99_load _ 20).1 2).2 ⟨3, rfl, rfl, by
    intro i hi
    have : i = 0 ∨ i = 1 ∨ i = 2 := by omega
    rcases this with rfl | rfl | rfl <;> exact ⟨rfl, by norm_num⟩⟩

/-! ### C100: saving and loading a set -/

/-- C100 (round trip).  For every set made with the methods of `TokenSet`, and all statistics: `from_json` of what `to_json`
wrote succeeds and gives a set with the same tokens, the same mandatory ones and, unless the literals are `Dist2` or `Dist4`, the
same literals, so that all texts cost the same.

Not proved, because the code violates it: the same for `Dist2` and `Dist4`, which become `Dist8` (`C100_distribution`). -/
theorem C100_roundtrip_partial {ts : OSet} (h : Made ts) (fl : OFloats) (size : Nat) (p : Text) (st : OStats) :
    ∃ ts', OSet.fromJson (fileJson fl size p ts st) = .ok ts' ∧ Made ts' ∧ (strings ts').Perm (strings ts) ∧
      fixed ts' = fixed ts ∧ (ts.literal ≠ .dist2 → ts.literal ≠ .dist4 → ts'.literal = ts.literal ∧
        ∀ xs c, IsCost ts' xs c ↔ IsCost ts xs c) := by
  obtain ⟨ts', h1, h2, h3, h4, h5⟩ := roundtrip h fl size p st
  refine ⟨ts', h1, h2, h3, h4, ?_⟩
  intro n2 n4
  have hl : ts'.literal = ts.literal := by
    rw [h5]
    revert n2 n4
    cases ts.literal <;> intro n2 n4 <;> first | rfl | exact absurd rfl n2 | exact absurd rfl n4
  refine ⟨hl, fun xs c => ?_⟩
  rw [isCost_iff, isCost_iff, tot_perm h3.symm hl]

example (fl : OFloats) (st : OStats) : ∃ ts', OSet.fromJson (fileJson fl 3 [] baSet st) = .ok ts' ∧
    (strings ts').Perm [[97], [98]] ∧ IsCost ts' [[97, 97, 98]] 3 := by
  obtain ⟨ts', h1, h2, h3, h4, h5⟩ := C100_roundtrip_partial baSet_made fl 3 [] st
  refine ⟨ts', h1, h3.trans (List.Perm.swap _ _ _), ((h5 (by intro h; cases h) (by intro h; cases h)).2 _ _).2 ?_⟩
  rw [isCost_iff, flat_tot baSet_flat]
  rfl

/-- C100 (what is missing: the distributions).  A set with `Dist2` comes back as one with `Dist8`: what cost 2 then costs
8. -/
theorem C100_distribution : ∃ ts, Made ts ∧ ts.literal = .dist2 ∧ IsCost ts [[120]] 2 ∧ ∀ fl size p st,
    ∃ ts', OSet.fromJson (fileJson fl size p ts st) = .ok ts' ∧ ts'.literal = .dist8 ∧ IsCost ts' [[120]] 8 := by
  obtain ⟨ts, h1⟩ : ∃ ts, OSet.new .dist2 = .ok ts := ⟨_, rfl⟩
  obtain ⟨n1, n2, n3⟩ := new_strings h1
  have hflat : ∀ {ts : OSet}, strings ts = [] → Flat ts := by
    intro ts h s hs
    rw [h] at hs
    cases hs
  have hm : OSet.mandatory .dist2 = [] := rfl
  rw [hm] at n1
  have hm1 : Made ts := .new h1
  refine ⟨ts, hm1, n3, ?_, ?_⟩
  · rw [isCost_iff, flat_tot (hflat n1)]
    simp only [List.map_cons, List.map_nil, byteCost1, n1, n3, List.not_mem_nil, if_false]
    rfl
  · intro fl size p st
    obtain ⟨ts', g1, g2, g3, g4, g5⟩ := roundtrip hm1 fl size p st
    rw [n1] at g3
    have g3' := g3.eq_nil
    rw [n3] at g5
    refine ⟨ts', g1, g5, ?_⟩
    rw [isCost_iff, flat_tot (hflat g3')]
    simp only [List.map_cons, List.map_nil, byteCost1, g3', g5, List.not_mem_nil, if_false]
    rfl

/-! ### C101: the whole -/

/-- C101 (files).  For all samples, every number of threads, all choices of the environment, and all files that were there
before and were written for sets of the right size: `optimize_all` from `n` to `maxTokens` tokens can only do the following.
Only the files for `n`, `2 n`, `4 n`, … up to `maxTokens` (below 1024 if the processing is `raw`) change; a changed file
has a set with exactly this number of tokens and its right statistics on the slow samples, and this set does not cost more than the one that
was there before or, if there was none, than the one with half as many tokens.  If it ends normally, all these
files were written, each with a set that costs no more than one where exchanges of tokens were given up (`Settled`).  It ends in another way only if an exchange
of bytes was in vain, or there is nothing that can be added (or it goes on for more rounds than the model's bound). -/
theorem C101_files {j : Job} (he : Usable j.env) (hsmall : j.env.mid.flatten.length < 2 ^ 32) (hmax : j.maxTokens ≤ 65536)
    (hfuel : j.maxTokens ≤ j.fuel) {n : Nat} (h0 : 0 < n) {files : OFiles} (hf : GoodFiles files) :
    (∃ r files', OptimizeAll j n files r files') ∧
    ∀ r files', OptimizeAll j n files r files' →
      (∀ m, files' m ≠ files m → Size j n m ∧ Written j files files' m) ∧ GoodFiles files' ∧
      (r = .ok () → ∀ m, Size j n m → Written j files files' m ∧ Settled j files' m) ∧ AllOutcome j n r := by
  refine ⟨all_exists he hsmall hmax hfuel (j.maxTokens + 1 - n) (Nat.le_refl _) h0 hf, ?_⟩
  intro r files' h
  obtain ⟨h1, h2, h3, h4⟩ := all_ok he hsmall hmax hfuel h h0 hf
  refine ⟨?_, all_good hf h2, h3, h4⟩
  intro m hm
  rcases h2 m with h | h
  · exact absurd h hm
  · exact h

/-- C101 (zero tokens).  With `min_tokens` 0 the first loop never ends, and no file is written. -/
theorem C101_zero {j : Job} {files : OFiles} {r : R Unit} {files' : OFiles} (h : OptimizeAll j 0 files r files') :
    r = .error .fuel ∧ files' = files := by
  have hz := blockFor_zero j.fuel
  cases h with
  | done h => exact absurd h (by omega)
  | block h hb => rw [hz] at hb; cases hb; exact ⟨rfl, rfl⟩
  | skip h hb hs hr => rw [hz] at hb; cases hb
  | load h hb hs hl => rw [hz] at hb; cases hb
  | fail h hb hs hl ho => rw [hz] at hb; cases hb
  | next h hb hs hl ho hr => rw [hz] at hb; cases hb

/-- Some way to write numbers with a fraction. -/
def oldFloats : OFloats := ⟨fun _ _ => .null, fun _ _ => .null, fun _ _ => .null⟩

/-- A run for two tokens. -/
def oldJob : Job :=
  { env := endlessEnv, fl := oldFloats, size := 3, processing := [], raw := false, maxTokens := 3, fuel := 30 }

/-- Before the run, the file for two tokens has the set with the token `y`. -/
def oldFiles : OFiles := fun m =>
  if m = 2 then some (fileJson oldFloats 3 [] ySet (OStats.new 1 8))
  else none

theorem oldFiles_good : GoodFiles oldFiles := by
  intro m v hv
  unfold oldFiles at hv
  split at hv
  · rename_i h
    subst h
    exact ⟨ySet, ⟨_, _, _, _, (Option.some.inj hv).symm⟩, ySet_made, ySet_good.noZero, rfl, rfl⟩
  · cases hv

/-- From 2 to 3 tokens, with a file for the token `y`: whatever the run does, only this file may change, and then its
set does not cost more than the 10 of `y`. -/
example : ∃ r files', OptimizeAll oldJob 2 oldFiles r files' ∧ (∀ m, m ≠ 2 → files' m = oldFiles m) ∧
    (files' 2 = oldFiles 2 ∨ ∃ ts st, files' 2 = some (fileJson oldFloats 3 [] ts st) ∧ FileSet 2 ts ∧
      Right ts endlessEnv.slow false st ∧ st.cost ≤ 10) := by
  obtain ⟨⟨r, files', h⟩, hall⟩ := C101_files (j := oldJob) endless_usable (by simp [oldJob, endlessEnv])
    (by simp [oldJob]) (by simp [oldJob]) (n := 2) (by omega) oldFiles_good
  obtain ⟨h1, h2, h3, h4⟩ := hall r files' h
  refine ⟨r, files', h, ?_, ?_⟩
  · intro m hm
    by_contra hc
    obtain ⟨⟨⟨k, hk⟩, hmx, -⟩, -⟩ := h1 m hc
    have : m ≤ 3 := hmx
    cases k with
    | zero => omega
    | succ k =>
      have : 1 ≤ 2 ^ k := Nat.one_le_two_pow
      rw [Nat.pow_succ] at hk
      omega
  · by_cases hc : files' 2 = oldFiles 2
    · exact .inl hc
    · obtain ⟨-, ⟨ts, st, g1, g2, g3, g4, -⟩⟩ := h1 2 hc
      refine .inr ⟨ts, st, g1, g2, g3, ?_⟩
      refine g4 _ rfl ySet 10 ⟨_, _, _, _, rfl⟩ ySet_made rfl ?_
      rw [isCost_iff, one_cost ySet_strings rfl]
      rfl

/-- With no files at all, too. -/
example : ∃ r files', OptimizeAll oldJob 1 (fun _ => none) r files' ∧ GoodFiles files' := by
  obtain ⟨⟨r, files', h⟩, hall⟩ := C101_files (j := oldJob) endless_usable (by simp [oldJob, endlessEnv])
    (by simp [oldJob]) (by simp [oldJob]) (n := 1) (by omega) (files := fun _ => none) (by intro m v hv; cases hv)
  exact ⟨r, files', h, (hall r files' h).2.1⟩

end Tokens.Props
