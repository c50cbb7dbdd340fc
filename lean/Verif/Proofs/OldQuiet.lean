import Verif.Proofs.OldWhole

/-! `optimize_token_set` of the first generation, when the 600 seconds never pass. -/

set_option linter.unusedVariables false

namespace Tokens.Old
open Tokens Spec.Old

variable {env : Env} {lit : LiteralEncoding}

/-- What holds of every result when the 600 seconds never pass. -/
def Prog.qwp (env : Env) (lit : LiteralEncoding) {α : Type} (p : Prog α) (sv : Saved) (Q : R α → Saved → Prop) : Prop :=
  (quiet p).wp env lit sv Q

theorem quiet_bind {α β : Type} (p : Prog α) (f : α → Prog β) :
    quiet (p.bind f) = (quiet p).bind (fun a => quiet (f a)) := by
  induction p with
  | pure a => rfl
  | fail e => rfl
  | stats c ts k ih => simp only [Prog.bind, quiet, ih]
  | pairs c ts k ih => simp only [Prog.bind, quiet, ih]
  | slow ts k ih => simp only [Prog.bind, quiet, ih]
  | entries st k ih => simp only [Prog.bind, quiet, ih]
  | sort key n k ih => simp only [Prog.bind, quiet, ih]
  | clock k ih => simp only [Prog.bind, quiet, ih]
  | save ts st k ih => simp only [Prog.bind, quiet, ih]

theorem qwp_of_wp {α : Type} (p : Prog α) {Q : R α → Saved → Prop} {sv : Saved} (h : p.wp env lit sv Q) :
    p.qwp env lit sv Q := by
  unfold Prog.qwp
  induction p generalizing sv with
  | pure a => exact h
  | fail e => exact h
  | stats c ts k ih => exact ⟨h.1, fun st hs => ih _ (h.2 st hs)⟩
  | pairs c ts k ih => exact ⟨h.1, h.2.1, fun st hs => ih _ (h.2.2 st hs)⟩
  | slow ts k ih => exact ⟨h.1, fun st hs => ih _ (h.2 st hs)⟩
  | entries st k ih => exact ⟨h.1, fun l hl => ih _ (h.2 l hl)⟩
  | sort key n k ih => exact fun l h1 h2 => ih _ (h l h1 h2)
  | clock k ih => exact ih _ (h false)
  | save ts st k ih => exact ih h

/-- What comes after a result. -/
def andQuiet {α β : Type} (env : Env) (lit : LiteralEncoding) (f : α → Prog β) (Q : R β → Saved → Prop) : R α → Saved → Prop
  | .ok a, sv => (f a).qwp env lit sv Q
  | .error e, sv => Q (.error e) sv

theorem qwp_bind {α β : Type} {p : Prog α} {f : α → Prog β} {Q : R β → Saved → Prop} {sv : Saved}
    (h : p.qwp env lit sv (andQuiet env lit f Q)) : (p >>= f).qwp env lit sv Q := by
  unfold Prog.qwp
  show (quiet (p.bind f)).wp env lit sv Q
  rw [quiet_bind]
  refine (wp_bind _ _).2 (wp_mono _ ?_ h)
  intro r sv' h'
  cases r <;> exact h'

theorem qwp_mono {α : Type} (p : Prog α) {Q Q' : R α → Saved → Prop} {sv : Saved} (h : ∀ r sv', Q r sv' → Q' r sv')
    (hp : p.qwp env lit sv Q) : p.qwp env lit sv Q' := wp_mono _ h hp

/-- What texts cost at most. -/
theorem tot_le (ts : OSet) (xs : List Bytes) : tot ts xs ≤ ts.literal.literalCost * xs.flatten.length := by
  have hl : ∀ x : Bytes, cost ts.literal.literalCost (x.map Piece.lit) = ts.literal.literalCost * x.length := by
    intro x
    induction x with
    | nil => rfl
    | cons b x ih => rw [List.map_cons, cost, ih, List.length_cons, Nat.mul_add]; omega
  unfold tot
  induction xs with
  | nil => simp
  | cons x xs ih =>
    have h1 := leastCost_le (spells_literals ts x)
    rw [hl] at h1
    rw [List.map_cons, List.sum_cons, List.flatten_cons, List.length_append, Nat.mul_add]
    omega

theorem qwp_setLoop (he : Usable env) (hsmall : env.mid.flatten.length < 2 ^ 32) {n top : Nat} : ∀ (fuel : Nat) {ts : OSet}
    {best : Nat} (att : Attempts) {sv : Saved}, Good lit ts → fixed ts = [] → ts.tokens.length ≤ 65536 → ts.ntokens = n →
    Inv env lit n top best sv → tot ts env.mid < fuel → (setLoop fuel ts best att).qwp env lit sv (fun r sv' =>
      (∃ ts' best', r = .ok (ts', best') ∧ Good lit ts' ∧ fixed ts' = [] ∧ ts'.ntokens = n ∧ Inv env lit n top best' sv' ∧
        Steps env ts ts' ∧ ∃ b a tried, GaveUp env ts' b a tried) ∨
      (r = .error .unwrapNone ∧ Exhausted env n)) := by
  intro fuel
  induction fuel with
  | zero => intro ts best att sv _ _ _ _ _ h; omega
  | succ fuel ih =>
    intro ts best att sv hg hfx hbig hn hi hf
    rw [setLoop]
    refine qwp_bind (qwp_mono _ ?_ (qwp_of_wp _ (wp_removeAndAdd he hsmall hg hbig att)))
    rintro r sv' ⟨rfl, h⟩
    rcases h with ⟨ts', att', s, s', tried, rfl, hg', himp, -⟩ | ⟨att', tried, rfl, hgu⟩ | ⟨rfl, s, ts0, h1, h2, h3, h4⟩
    · have hlen := exchanged_length himp.exchanged
      have hc := himp.cheaper _ _ (isCost_iff.2 rfl) (isCost_iff.2 rfl)
      refine qwp_mono _ ?_ (ih att' hg' (himp.exchanged.fixed.trans hfx) (by omega)
        ((exchanged_ntokens himp.exchanged).trans hn) hi (by omega))
      rintro r sv'' (⟨ts2, best2, rfl, k1, k2, k3, k4, k5, k6⟩ | h)
      · exact .inl ⟨ts2, best2, rfl, k1, k2, k3, k4, .step himp k5, k6⟩
      · exact .inr h
    · exact .inl ⟨ts, best, rfl, hg, hfx, hn, hi, .refl, _, _, _, hgu⟩
    · exact .inr ⟨rfl, ts, s, ts0, hg.made, hn, h1, h2, h3, h4⟩

theorem qwp_optimizeTokenSet (he : Usable env) (hsmall : env.mid.flatten.length < 2 ^ 32) {ntokens block : Nat}
    (hN : ntokens ≤ 65536) {ts : OSet} (hb : ts.ntokens < ntokens → 0 < block) (hg : Good lit ts) (hfx : fixed ts = [])
    (hbig : ts.tokens.length ≤ 65536) {fuel : Nat} (hf : ntokens - ts.ntokens ≤ fuel)
    (hf2 : lit.literalCost * env.mid.flatten.length < fuel) :
    (optimizeTokenSet fuel ts ntokens block).qwp env lit [] (fun r _ => r = .ok () ∨
      (r = .error .assertFailed ∧ Tie env (max ntokens ts.ntokens)) ∨
      (r = .error .unwrapNone ∧ Exhausted env (max ntokens ts.ntokens)) ∨ (r = .error .fuel ∧ Stuck env ts ntokens)) := by
  refine qwp_bind (qwp_mono _ ?_ (qwp_of_wp _ (wp_startSet he hN hb hg hfx hf)))
  intro r sv' h
  rcases h with ⟨ts1, best, rfl, hg1, hfx1, hn1, hi⟩ | ⟨rfl, rfl, h⟩
  · have hb1 : ts1.tokens.length ≤ 65536 := by
      by_cases hm : ntokens ≤ ts.ntokens
      · have h1 := hn1
        rw [Nat.max_eq_right hm] at h1
        unfold OSet.ntokens at h1
        rw [hg1.literal, hg.literal] at h1
        omega
      · have := length_le_ntokens ts1
        omega
    have htot := tot_le ts1 env.mid
    rw [hg1.literal] at htot
    refine qwp_bind (qwp_mono _ ?_ (qwp_setLoop he hsmall fuel (fun _ => 0) hg1 hfx1 hb1 hn1 hi (by omega)))
    intro r sv'' h
    rcases h with ⟨ts2, best2, rfl, hg2, hfx2, hn2, hi2, -, ab, aa, tried, hgu⟩ | ⟨rfl, h3⟩
    · refine qwp_mono _ ?_ (qwp_of_wp _ (wp_finishSet hg2 hfx2 hn2 hgu hi2))
      rintro r sv3 ⟨-, -, -, k3, k5⟩
      cases r with
      | ok u => exact .inl rfl
      | error e =>
        cases e with
        | assertFailed => exact .inr (.inl ⟨rfl, k3⟩)
        | unwrapNone => exact .inr (.inr (.inl ⟨rfl, k3⟩))
        | fuel => exact absurd rfl k5
        | _ => exact k3.elim
    · exact .inr (.inr (.inl ⟨rfl, h3⟩))
  · exact .inr (.inr (.inr ⟨rfl, h⟩))

end Tokens.Old
