import Verif.Proofs.OldSets

/-! What a program of the first generation's optimizer guarantees, whatever its surroundings do. -/

set_option linter.unusedVariables false

namespace Tokens.Old
open Tokens Spec.Old

/-- Sets that a run with these literals may use. -/
structure Good (lit : LiteralEncoding) (ts : OSet) : Prop where
  made : Made ts
  noZero : NoZero ts
  literal : ts.literal = lit

theorem Good.ok {lit : LiteralEncoding} {ts : OSet} (h : Good lit ts) : SetOK ts := made_ok h.made

/-- What a cache may return for a set. -/
def Cached (env : Env) (lit : LiteralEncoding) (c : Which) (ts : OSet) (st : OStats) : Prop :=
  ∃ ts0 st0 pairs, Good lit ts0 ∧ (strings ts0).Perm (strings ts) ∧ Fresh ts0 (env.samples c) pairs st0 ∧ st = st0.clear

theorem cached_cost {env : Env} {lit : LiteralEncoding} {c : Which} {ts : OSet} {st : OStats} (hl : ts.literal = lit)
    (h : Cached env lit c ts st) : st.cost = tot ts (env.samples c) := by
  obtain ⟨ts0, st0, pairs, h1, h2, h3, rfl⟩ := h
  rw [clear_cost, fresh_cost h3]
  exact (tot_perm h2 (hl.trans h1.literal.symm) _).symm

theorem cached_length {env : Env} {lit : LiteralEncoding} {c : Which} {ts : OSet} {st : OStats}
    (h : Cached env lit c ts st) : st.tokenCount.length = ts.tokens.length := by
  obtain ⟨ts0, st0, pairs, h1, h2, ⟨f, _, h3, -⟩, rfl⟩ := h
  have := h2.length_eq
  rw [length_strings, length_strings] at this
  exact h3.tlen.trans this

/-- What is in the caches. -/
def WorldOk (env : Env) (lit : LiteralEncoding) (w : World) : Prop :=
  ∀ c key st, w.cache c key = some st → ∃ ts0 st0 pairs, Good lit ts0 ∧ cacheKey ts0 = key ∧
    Fresh ts0 (env.samples c) pairs st0 ∧ st = st0.clear

theorem worldOk_start (env : Env) (lit : LiteralEncoding) : WorldOk env lit World.start := by
  intro c key st h
  cases h

theorem WorldOk.put {env : Env} {lit : LiteralEncoding} {w : World} (h : WorldOk env lit w) {c : Which} {ts : OSet}
    {st : OStats} {pairs : Bool} (hg : Good lit ts) (hf : Fresh ts (env.samples c) pairs st) :
    WorldOk env lit (w.put c (cacheKey ts) st.clear) := by
  intro c' key st' h'
  simp only [World.put] at h'
  by_cases hk : c' = c ∧ key = cacheKey ts
  · rw [if_pos hk] at h'
    obtain ⟨rfl, rfl⟩ := hk
    exact ⟨ts, st, pairs, hg, rfl, hf, (Option.some.inj h').symm⟩
  · rw [if_neg hk] at h'
    exact h c' key st' h'

theorem WorldOk.hit {env : Env} {lit : LiteralEncoding} {w : World} (h : WorldOk env lit w) {c : Which} {ts : OSet}
    {st : OStats} (hg : Good lit ts) (hc : w.cache c (cacheKey ts) = some st) : Cached env lit c ts st := by
  obtain ⟨ts0, st0, pairs, h1, h2, h3, h4⟩ := h _ _ _ hc
  exact ⟨ts0, st0, pairs, h1, cacheKey_perm h1.ok hg.ok h1.noZero hg.noZero h2, h3, h4⟩

theorem clear_fresh {ts : OSet} {xs : List Bytes} {st : OStats} (h : Fresh ts xs false st) : st.clear = st := by
  obtain ⟨f, _, h2, -⟩ := h
  have : st.pairCount = fun _ => 0 := funext fun k => by rw [h2.pair]; rfl
  cases st
  simp only at this
  subst this
  rfl

abbrev Saved := List (OSet × OStats)

/-- What holds of every result. -/
def Prog.wp (env : Env) (lit : LiteralEncoding) {α : Type} : Prog α → Saved → (R α → Saved → Prop) → Prop
  | .pure a, sv, Q => Q (.ok a) sv
  | .fail e, sv, Q => Q (.error e) sv
  | .stats c ts k, sv, Q => Good lit ts ∧ ∀ st, Cached env lit c ts st → (k st).wp env lit sv Q
  | .pairs c ts k, sv, Q => Good lit ts ∧ ts.tokens.length ≤ 65536 ∧
      ∀ st, Fresh ts (env.samples c) true st → (k st).wp env lit sv Q
  | .slow ts k, sv, Q => Good lit ts ∧ ∀ st, Fresh ts env.slow false st → (k st).wp env lit sv Q
  | .entries st k, sv, Q => (∃ l, Entries st l) ∧ ∀ l, Entries st l → (k l).wp env lit sv Q
  | .sort key n k, sv, Q => ∀ l, l.Perm (List.range n) → l.Pairwise (fun a b => key a ≤ key b) → (k l).wp env lit sv Q
  | .clock k, sv, Q => ∀ b, (k b).wp env lit sv Q
  | .save ts st k, sv, Q => k.wp env lit (sv ++ [(ts, st)]) Q

variable {env : Env} {lit : LiteralEncoding}

/-- What comes after a result. -/
def andThen {α β : Type} (env : Env) (lit : LiteralEncoding) (f : α → Prog β) (Q : R β → Saved → Prop) : R α → Saved → Prop
  | .ok a, sv => (f a).wp env lit sv Q
  | .error e, sv => Q (.error e) sv

theorem wp_bind {α β : Type} (p : Prog α) (f : α → Prog β) {Q : R β → Saved → Prop} {sv : Saved} :
    (p.bind f).wp env lit sv Q ↔ p.wp env lit sv (andThen env lit f Q) := by
  induction p generalizing sv with
  | pure a => exact Iff.rfl
  | fail e => exact Iff.rfl
  | stats c ts k ih => exact and_congr Iff.rfl (forall_congr' fun st => imp_congr Iff.rfl (ih _))
  | pairs c ts k ih =>
    exact and_congr Iff.rfl (and_congr Iff.rfl (forall_congr' fun st => imp_congr Iff.rfl (ih _)))
  | slow ts k ih => exact and_congr Iff.rfl (forall_congr' fun st => imp_congr Iff.rfl (ih _))
  | entries st k ih => exact and_congr Iff.rfl (forall_congr' fun l => imp_congr Iff.rfl (ih _))
  | sort key n k ih => exact forall_congr' fun l => imp_congr Iff.rfl (imp_congr Iff.rfl (ih _))
  | clock k ih => exact forall_congr' fun b => ih _
  | save ts st k ih => exact ih

theorem wp_bind' {α β : Type} {p : Prog α} {f : α → Prog β} {Q : R β → Saved → Prop} {sv : Saved}
    (h : p.wp env lit sv (andThen env lit f Q)) : (p >>= f).wp env lit sv Q := (wp_bind p f).2 h

theorem wp_mono {α : Type} (p : Prog α) {Q Q' : R α → Saved → Prop} {sv : Saved} (h : ∀ r sv', Q r sv' → Q' r sv') :
    p.wp env lit sv Q → p.wp env lit sv Q' := by
  induction p generalizing sv with
  | pure a => exact h _ _
  | fail e => exact h _ _
  | stats c ts k ih => exact fun hp => ⟨hp.1, fun st hs => ih _ (hp.2 st hs)⟩
  | pairs c ts k ih => exact fun hp => ⟨hp.1, hp.2.1, fun st hs => ih _ (hp.2.2 st hs)⟩
  | slow ts k ih => exact fun hp => ⟨hp.1, fun st hs => ih _ (hp.2 st hs)⟩
  | entries st k ih => exact fun hp => ⟨hp.1, fun l hl => ih _ (hp.2 l hl)⟩
  | sort key n k ih => exact fun hp l h1 h2 => ih _ (hp l h1 h2)
  | clock k ih => exact fun hp b => ih _ (hp b)
  | save ts st k ih => exact fun hp => ih hp

theorem wp_lift {α β : Type} {x : R α} {a : α} {f : α → Prog β} {Q : R β → Saved → Prop} {sv : Saved} (hx : x = .ok a)
    (h : (f a).wp env lit sv Q) : (Prog.lift x >>= f).wp env lit sv Q := by
  subst hx
  exact h

theorem wp_lift_error {α β : Type} {x : R α} {e : Err} {f : α → Prog β} {Q : R β → Saved → Prop} {sv : Saved}
    (hx : x = .error e) (h : Q (.error e) sv) : (Prog.lift x >>= f).wp env lit sv Q := by
  subst hx
  exact h

theorem env_ne (he : Usable env) (c : Which) : ∀ x ∈ env.samples c, x ≠ [] := by
  intro x hx
  cases c with
  | mid => exact (he.mid x hx).1
  | fast => exact (he.fast x hx).1

theorem env_zero (he : Usable env) (c : Which) : ∀ x ∈ env.samples c, (0 : UInt8) ∉ x := by
  intro x hx
  cases c with
  | mid => exact (he.mid x hx).2
  | fast => exact (he.fast x hx).2

theorem wp_sound (he : Usable env) {α : Type} {p : Prog α} {w w' : World} {r : R α} (hr : Run env p w r w') :
    ∀ {Q : R α → Saved → Prop}, p.wp env lit w.saved Q → WorldOk env lit w → Q r w'.saved ∧ WorldOk env lit w' := by
  induction hr with
  | pure => exact fun h hw => ⟨h, hw⟩
  | fail => exact fun h hw => ⟨h, hw⟩
  | hit hc _ ih => exact fun h hw => ih (h.2 _ (hw.hit h.1 hc)) hw
  | @miss c ts k w w' st r hc ht _ ih =>
    intro Q h hw
    obtain ⟨st', e, hf⟩ := fresh_of_file h.1.ok (by intro h; cases h) (env_ne he c) ht
    cases e
    refine ih (h.2 _ ⟨ts, st, false, h.1, List.Perm.refl _, hf, (clear_fresh hf).symm⟩) (hw.put h.1 hf)
  | @missPanic c ts k w e hc ht =>
    intro Q h hw
    obtain ⟨st', e, hf⟩ := fresh_of_file h.1.ok (by intro h; cases h) (env_ne he c) ht
    cases e
  | @pairs c ts k w w' st r ht _ ih =>
    intro Q h hw
    obtain ⟨st', e, hf⟩ := fresh_of_file h.1.ok (fun _ => h.2.1) (env_ne he c) ht
    cases e
    exact ih (h.2.2 _ hf) (hw.put h.1 hf)
  | @pairsPanic c ts k w e ht =>
    intro Q h hw
    obtain ⟨st', e, hf⟩ := fresh_of_file h.1.ok (fun _ => h.2.1) (env_ne he c) ht
    cases e
  | @slow ts k w w' st r ht _ ih =>
    intro Q h hw
    obtain ⟨st', e, hf⟩ := fresh_of_file h.1.ok (by intro h; cases h) (fun x hx => (he.slow x hx).1) ht
    cases e
    exact ih (h.2 _ hf) hw
  | @slowPanic ts k w e ht =>
    intro Q h hw
    obtain ⟨st', e, hf⟩ := fresh_of_file h.1.ok (by intro h; cases h) (fun x hx => (he.slow x hx).1) ht
    cases e
  | entries hl _ ih => exact fun h hw => ih (h.2 _ hl) hw
  | sort hp hs _ ih => exact fun h hw => ih (h _ hp hs) hw
  | clock b _ ih => exact fun h hw => ih (h b) hw
  | save _ ih => exact fun h hw => ih h hw

theorem sorted_exists (key : Nat → Int) (n : Nat) :
    ∃ l : List Nat, l.Perm (List.range n) ∧ l.Pairwise (fun a b => key a ≤ key b) := by
  refine ⟨(List.range n).mergeSort (fun a b => decide (key a ≤ key b)), List.mergeSort_perm _ _, ?_⟩
  have := List.pairwise_mergeSort (le := fun a b => decide (key a ≤ key b)) (by
    intro a b c h1 h2
    simp only [decide_eq_true_eq] at *
    omega) (by
    intro a b
    simp only [Bool.or_eq_true, decide_eq_true_eq]
    omega) (List.range n)
  exact this.imp (fun h => by simpa using h)

theorem wp_total (he : Usable env) {α : Type} (p : Prog α) : ∀ {Q : R α → Saved → Prop} {w : World},
    p.wp env lit w.saved Q → WorldOk env lit w → ∃ r w', Run env p w r w' := by
  induction p with
  | pure a => exact fun _ _ => ⟨_, _, .pure⟩
  | fail e => exact fun _ _ => ⟨_, _, .fail⟩
  | stats c ts k ih =>
    intro Q w h hw
    cases hc : w.cache c (cacheKey ts) with
    | some st =>
      obtain ⟨r, w', hr⟩ := ih _ (h.2 st (hw.hit h.1 hc)) hw
      exact ⟨r, w', .hit hc hr⟩
    | none =>
      obtain ⟨st, ht⟩ := file_exists h.1.ok (pairs := false) (by intro h; cases h) (env_ne he c) he.threads
      obtain ⟨st', e, hf⟩ := fresh_of_file h.1.ok (by intro h; cases h) (env_ne he c) ht
      cases e
      obtain ⟨r, w', hr⟩ := ih _ (w := w.put c (cacheKey ts) st.clear)
        (h.2 _ ⟨ts, st, false, h.1, List.Perm.refl _, hf, (clear_fresh hf).symm⟩) (hw.put h.1 hf)
      exact ⟨r, w', .miss hc ht hr⟩
  | pairs c ts k ih =>
    intro Q w h hw
    obtain ⟨st, ht⟩ := file_exists h.1.ok (pairs := true) (fun _ => h.2.1) (env_ne he c) he.threads
    obtain ⟨st', e, hf⟩ := fresh_of_file h.1.ok (fun _ => h.2.1) (env_ne he c) ht
    cases e
    obtain ⟨r, w', hr⟩ := ih _ (w := w.put c (cacheKey ts) st.clear) (h.2.2 _ hf) (hw.put h.1 hf)
    exact ⟨r, w', .pairs ht hr⟩
  | slow ts k ih =>
    intro Q w h hw
    obtain ⟨st, ht⟩ := file_exists h.1.ok (pairs := false) (by intro h; cases h) (fun x hx => (he.slow x hx).1) he.threads
    obtain ⟨st', e, hf⟩ := fresh_of_file h.1.ok (by intro h; cases h) (fun x hx => (he.slow x hx).1) ht
    cases e
    obtain ⟨r, w', hr⟩ := ih _ (h.2 _ hf) hw
    exact ⟨r, w', .slow ht hr⟩
  | entries st k ih =>
    intro Q w h hw
    obtain ⟨l, hl⟩ := h.1
    obtain ⟨r, w', hr⟩ := ih _ (h.2 l hl) hw
    exact ⟨r, w', .entries hl hr⟩
  | sort key n k ih =>
    intro Q w h hw
    obtain ⟨l, h1, h2⟩ := sorted_exists key n
    obtain ⟨r, w', hr⟩ := ih _ (h l h1 h2) hw
    exact ⟨r, w', .sort h1 h2 hr⟩
  | clock k ih =>
    intro Q w h hw
    obtain ⟨r, w', hr⟩ := ih true (h true) hw
    exact ⟨r, w', .clock true hr⟩
  | save ts st k ih =>
    intro Q w h hw
    obtain ⟨r, w', hr⟩ := ih (w := { w with saved := w.saved ++ [(ts, st)] }) h hw
    exact ⟨r, w', .save hr⟩

end Tokens.Old
