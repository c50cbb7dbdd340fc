import Verif.Proofs.OldWhole

/-! Runs of the first generation's optimizer that exist: the orders of equal keys and the clock are chosen, the rest
is as it comes. -/

set_option linter.unusedVariables false

namespace Tokens.Old
open Tokens Spec.Old

/-- Some run ends with `Q`, whatever the threads and the caches do. -/
def Prog.may (env : Env) (lit : LiteralEncoding) {α : Type} : Prog α → Saved → (R α → Saved → Prop) → Prop
  | .pure a, sv, Q => Q (.ok a) sv
  | .fail e, sv, Q => Q (.error e) sv
  | .stats c ts k, sv, Q => Good lit ts ∧ ∀ st, Cached env lit c ts st → (k st).may env lit sv Q
  | .pairs c ts k, sv, Q => Good lit ts ∧ ts.tokens.length ≤ 65536 ∧
      ∀ st, Fresh ts (env.samples c) true st → (k st).may env lit sv Q
  | .slow ts k, sv, Q => Good lit ts ∧ ∀ st, Fresh ts env.slow false st → (k st).may env lit sv Q
  | .entries st k, sv, Q => ∃ l, Entries st l ∧ (k l).may env lit sv Q
  | .sort key n k, sv, Q => ∃ l, l.Perm (List.range n) ∧ l.Pairwise (fun a b => key a ≤ key b) ∧ (k l).may env lit sv Q
  | .clock k, sv, Q => ∃ b, (k b).may env lit sv Q
  | .save ts st k, sv, Q => k.may env lit (sv ++ [(ts, st)]) Q

variable {env : Env} {lit : LiteralEncoding}

/-- What comes after a result. -/
def andMay {α β : Type} (env : Env) (lit : LiteralEncoding) (f : α → Prog β) (Q : R β → Saved → Prop) : R α → Saved → Prop
  | .ok a, sv => (f a).may env lit sv Q
  | .error e, sv => Q (.error e) sv

theorem may_bind {α β : Type} (p : Prog α) (f : α → Prog β) {Q : R β → Saved → Prop} {sv : Saved} :
    (p.bind f).may env lit sv Q ↔ p.may env lit sv (andMay env lit f Q) := by
  induction p generalizing sv with
  | pure a => exact Iff.rfl
  | fail e => exact Iff.rfl
  | stats c ts k ih => exact and_congr Iff.rfl (forall_congr' fun st => imp_congr Iff.rfl (ih _))
  | pairs c ts k ih =>
    exact and_congr Iff.rfl (and_congr Iff.rfl (forall_congr' fun st => imp_congr Iff.rfl (ih _)))
  | slow ts k ih => exact and_congr Iff.rfl (forall_congr' fun st => imp_congr Iff.rfl (ih _))
  | entries st k ih => exact exists_congr fun l => and_congr Iff.rfl (ih _)
  | sort key n k ih => exact exists_congr fun l => and_congr Iff.rfl (and_congr Iff.rfl (ih _))
  | clock k ih => exact exists_congr fun b => ih _
  | save ts st k ih => exact ih

theorem may_bind' {α β : Type} {p : Prog α} {f : α → Prog β} {Q : R β → Saved → Prop} {sv : Saved}
    (h : p.may env lit sv (andMay env lit f Q)) : (p >>= f).may env lit sv Q := (may_bind p f).2 h

theorem may_mono {α : Type} (p : Prog α) {Q Q' : R α → Saved → Prop} {sv : Saved} (h : ∀ r sv', Q r sv' → Q' r sv') :
    p.may env lit sv Q → p.may env lit sv Q' := by
  induction p generalizing sv with
  | pure a => exact h _ _
  | fail e => exact h _ _
  | stats c ts k ih => exact fun hp => ⟨hp.1, fun st hs => ih _ (hp.2 st hs)⟩
  | pairs c ts k ih => exact fun hp => ⟨hp.1, hp.2.1, fun st hs => ih _ (hp.2.2 st hs)⟩
  | slow ts k ih => exact fun hp => ⟨hp.1, fun st hs => ih _ (hp.2 st hs)⟩
  | entries st k ih => exact fun ⟨l, h1, h2⟩ => ⟨l, h1, ih _ h2⟩
  | sort key n k ih => exact fun ⟨l, h1, h2, h3⟩ => ⟨l, h1, h2, ih _ h3⟩
  | clock k ih => exact fun ⟨b, h⟩ => ⟨b, ih _ h⟩
  | save ts st k ih => exact fun hp => ih hp

/-- What always happens may happen. -/
theorem may_of_wp {α : Type} (p : Prog α) {Q : R α → Saved → Prop} {sv : Saved} :
    p.wp env lit sv Q → p.may env lit sv Q := by
  induction p generalizing sv with
  | pure a => exact id
  | fail e => exact id
  | stats c ts k ih => exact fun hp => ⟨hp.1, fun st hs => ih _ (hp.2 st hs)⟩
  | pairs c ts k ih => exact fun hp => ⟨hp.1, hp.2.1, fun st hs => ih _ (hp.2.2 st hs)⟩
  | slow ts k ih => exact fun hp => ⟨hp.1, fun st hs => ih _ (hp.2 st hs)⟩
  | entries st k ih =>
    rintro ⟨⟨l, hl⟩, h⟩
    exact ⟨l, hl, ih _ (h l hl)⟩
  | sort key n k ih =>
    intro h
    obtain ⟨l, h1, h2⟩ := sorted_exists key n
    exact ⟨l, h1, h2, ih _ (h l h1 h2)⟩
  | clock k ih => exact fun h => ⟨true, ih _ (h true)⟩
  | save ts st k ih => exact fun hp => ih hp

theorem may_run (he : Usable env) {α : Type} (p : Prog α) : ∀ {Q : R α → Saved → Prop} {w : World},
    p.may env lit w.saved Q → WorldOk env lit w → ∃ r w', Run env p w r w' ∧ Q r w'.saved := by
  induction p with
  | pure a => exact fun h _ => ⟨_, _, .pure, h⟩
  | fail e => exact fun h _ => ⟨_, _, .fail, h⟩
  | stats c ts k ih =>
    intro Q w h hw
    cases hc : w.cache c (cacheKey ts) with
    | some st =>
      obtain ⟨r, w', hr, hq⟩ := ih _ (h.2 st (hw.hit h.1 hc)) hw
      exact ⟨r, w', .hit hc hr, hq⟩
    | none =>
      obtain ⟨st, ht⟩ := file_exists h.1.ok (pairs := false) (by intro h; cases h) (env_ne he c) he.threads
      obtain ⟨st', e, hf⟩ := fresh_of_file h.1.ok (by intro h; cases h) (env_ne he c) ht
      cases e
      obtain ⟨r, w', hr, hq⟩ := ih _ (w := w.put c (cacheKey ts) st.clear)
        (h.2 _ ⟨ts, st, false, h.1, List.Perm.refl _, hf, (clear_fresh hf).symm⟩) (hw.put h.1 hf)
      exact ⟨r, w', .miss hc ht hr, hq⟩
  | pairs c ts k ih =>
    intro Q w h hw
    obtain ⟨st, ht⟩ := file_exists h.1.ok (pairs := true) (fun _ => h.2.1) (env_ne he c) he.threads
    obtain ⟨st', e, hf⟩ := fresh_of_file h.1.ok (fun _ => h.2.1) (env_ne he c) ht
    cases e
    obtain ⟨r, w', hr, hq⟩ := ih _ (w := w.put c (cacheKey ts) st.clear) (h.2.2 _ hf) (hw.put h.1 hf)
    exact ⟨r, w', .pairs ht hr, hq⟩
  | slow ts k ih =>
    intro Q w h hw
    obtain ⟨st, ht⟩ := file_exists h.1.ok (pairs := false) (by intro h; cases h) (fun x hx => (he.slow x hx).1) he.threads
    obtain ⟨st', e, hf⟩ := fresh_of_file h.1.ok (by intro h; cases h) (fun x hx => (he.slow x hx).1) ht
    cases e
    obtain ⟨r, w', hr, hq⟩ := ih _ (h.2 _ hf) hw
    exact ⟨r, w', .slow ht hr, hq⟩
  | entries st k ih =>
    rintro Q w ⟨l, hl, h⟩ hw
    obtain ⟨r, w', hr, hq⟩ := ih _ h hw
    exact ⟨r, w', .entries hl hr, hq⟩
  | sort key n k ih =>
    rintro Q w ⟨l, h1, h2, h⟩ hw
    obtain ⟨r, w', hr, hq⟩ := ih _ h hw
    exact ⟨r, w', .sort h1 h2 hr, hq⟩
  | clock k ih =>
    rintro Q w ⟨b, h⟩ hw
    obtain ⟨r, w', hr, hq⟩ := ih b h hw
    exact ⟨r, w', .clock b hr, hq⟩
  | save ts st k ih =>
    intro Q w h hw
    obtain ⟨r, w', hr, hq⟩ := ih (w := { w with saved := w.saved ++ [(ts, st)] }) h hw
    exact ⟨r, w', .save hr, hq⟩

theorem may_lift {α β : Type} {x : R α} {a : α} {f : α → Prog β} {Q : R β → Saved → Prop} {sv : Saved} (hx : x = .ok a)
    (h : (f a).may env lit sv Q) : (Prog.lift x >>= f).may env lit sv Q := by
  subst hx
  exact h

end Tokens.Old
