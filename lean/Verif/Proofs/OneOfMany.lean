import Verif.Proofs.SameFile

/-!
One run among others.
-/

namespace Tokens
open Spec TokenSet Optimize Batch Main Input Disk Props

set_option linter.unusedVariables false

/-- Run `i` is as if it were alone, whatever the others do. -/
structure Alone (prog : Nat → Option (Machine × Command)) (i : Nat) (m : Machine) (cmd : Command) (W : Text → Prop)
    (d : Files) (s : Together) : Prop where
  creatable : s.files.creatable = d.creatable
  mine : ∀ j, s.job i = some j → Begins m d cmd j.result j.writes ∧ CallsFor j.writes (j.done ++ j.todo) ∧
    ∀ w ∈ j.writes, W w.1
  others : ∀ k j, k ≠ i → s.job k = some j → ∀ c ∈ j.todo, ¬ W c.path ∧ ¬ Reads cmd c.path
  files : ∀ path, W path → s.files.read path = (match s.job i with
    | some j => (applyCalls d j.done).read path
    | none => d.read path)
  reads : s.job i = none → ∀ path, Reads cmd path → s.files.read path = d.read path

variable {prog : Nat → Option (Machine × Command)} {i : Nat} {m : Machine} {cmd : Command} {W : Text → Prop} {d : Files}

theorem alone_fresh : Alone prog i m cmd W d (Together.fresh d) :=
  ⟨rfl, fun j h => (nomatch h), fun k j _ h => (nomatch h), fun path _ => rfl, fun _ path _ => rfl⟩

theorem alone_step (hp : prog i = some (m, cmd)) (hW : ∀ ws, Running m d cmd ws → ∀ w ∈ ws, W w.1)
    (ho : ∀ k m' cmd' path, k ≠ i → prog k = some (m', cmd') → MayWrite cmd' path → ¬ W path ∧ ¬ Reads cmd path)
    {s t : Together} (h : Alone prog i m cmd W d s) (hs : Together.Step prog s t) : Alone prog i m cmd W d t := by
  cases hs with
  | @start k m' cmd' result ws calls hp' hn hb hc =>
    by_cases e : k = i
    · subst e
      have := Option.some.inj (hp.symm.trans hp')
      rw [Prod.mk.injEq] at this
      obtain ⟨rfl, rfl⟩ := this
      have hb' : Begins m d cmd result ws :=
        begins_reads (fun q hq => (h.reads hn q hq).symm) h.creatable.symm hb
      refine ⟨h.creatable, ?_, ?_, ?_, ?_⟩
      · intro j hj
        simp only [if_true] at hj
        have := Option.some.inj hj
        subst this
        exact ⟨hb', hc, hW ws (begins_running hb')⟩
      · intro k' j hk hj
        simp only [if_neg hk] at hj
        exact h.others k' j hk hj
      · intro path hw
        have := h.files path hw
        rw [hn] at this
        simp only [if_true]
        exact this
      · intro hn'
        simp at hn'
    · have e' : i ≠ k := fun h => e h.symm
      refine ⟨h.creatable, ?_, ?_, ?_, ?_⟩
      · intro j hj
        simp only [if_neg e'] at hj
        exact h.mine j hj
      · intro k' j hk hj
        by_cases e2 : k' = k
        · subst e2
          simp only [if_true] at hj
          have := Option.some.inj hj
          subst this
          intro c hc'
          obtain ⟨w, w1, w2⟩ := callsFor_paths hc c hc'
          rw [← w2]
          exact ho k' m' cmd' _ hk hp' (running_where (begins_running hb) w w1)
        · simp only [if_neg e2] at hj
          exact h.others k' j hk hj
      · intro path hw
        simp only [if_neg e']
        exact h.files path hw
      · intro hn'
        simp only [if_neg e'] at hn'
        exact h.reads hn'
  | @call k j c rest hj ht =>
    by_cases e : k = i
    · subst e
      obtain ⟨b1, b2, b3⟩ := h.mine j hj
      refine ⟨(apply_creatable _ _).trans h.creatable, ?_, ?_, ?_, ?_⟩
      · intro j' hj'
        simp only [if_true] at hj'
        have := Option.some.inj hj'
        subst this
        refine ⟨b1, ?_, b3⟩
        show CallsFor j.writes ((j.done ++ [c]) ++ rest)
        rw [List.append_assoc, List.singleton_append, ← ht]
        exact b2
      · intro k' j' hk hj'
        simp only [if_neg hk] at hj'
        exact h.others k' j' hk hj'
      · intro path hw
        simp only [if_true]
        rw [applyCalls_append]
        have := h.files path hw
        rw [hj] at this
        exact apply_same c this
      · intro hn'
        simp at hn'
    · have e' : i ≠ k := fun h => e h.symm
      have hc := h.others k j e hj c (by rw [ht]; simp)
      refine ⟨(apply_creatable _ _).trans h.creatable, ?_, ?_, ?_, ?_⟩
      · intro j' hj'
        simp only [if_neg e'] at hj'
        exact h.mine j' hj'
      · intro k' j' hk hj'
        by_cases e2 : k' = k
        · subst e2
          simp only [if_true] at hj'
          have := Option.some.inj hj'
          subst this
          intro c' hc'
          exact h.others k' j e hj c' (by rw [ht]; simp [hc'])
        · simp only [if_neg e2] at hj'
          exact h.others k' j' hk hj'
      · intro path hw
        simp only [if_neg e']
        rw [apply_other _ _ (by rintro rfl; exact hc.1 hw)]
        exact h.files path hw
      · intro hn' path hr
        simp only [if_neg e'] at hn'
        rw [apply_other _ _ (by rintro rfl; exact hc.2 hr)]
        exact h.reads hn' path hr

theorem alone_steps (hp : prog i = some (m, cmd)) (hW : ∀ ws, Running m d cmd ws → ∀ w ∈ ws, W w.1)
    (ho : ∀ k m' cmd' path, k ≠ i → prog k = some (m', cmd') → MayWrite cmd' path → ¬ W path ∧ ¬ Reads cmd path)
    {s t : Together} (h : Alone prog i m cmd W d s) (hs : Together.Steps prog s t) : Alone prog i m cmd W d t := by
  induction hs with
  | refl => exact h
  | tail _ hs ih => exact alone_step hp hW ho ih hs

end Tokens
