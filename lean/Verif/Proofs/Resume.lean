import Verif.Proofs.Running
import Verif.Props.Running

/-!
Every set that the optimizer writes to a file is one that it can be started with again.
-/

namespace Tokens
namespace Disk
open Spec TokenSet Batch Input Main Optimize Props

/-- A valid set that the optimizer can work on. -/
structure Again (ty : TokenType) (p : Processing) (ntokens : Nat) (ts : TokenSet) : Prop where
  valid : ValidSet ty p ntokens ts
  work : Workable ty p ntokens ts

/-- The saved files are files of such sets. -/
def AllAgain (ty : TokenType) (p : Processing) (ntokens : Nat) (saved : List (Text × Text)) : Prop :=
  ∀ f ∈ saved, ∃ ts, Again ty p ntokens ts ∧ savedFile ts = .ok f

variable {m : Machine} {ty : TokenType} {p : Processing} {ntokens : Nat}

theorem allAgain_append {a b : List (Text × Text)} (h1 : AllAgain ty p ntokens a)
    (h2 : AllAgain ty p ntokens b) : AllAgain ty p ntokens (a ++ b) := by
  intro f hf
  rcases List.mem_append.1 hf with h | h
  · exact h1 f h
  · exact h2 f h

theorem impl_again {env : Env} (he : EnvOk env) {ts : TokenSet} (h : Workable ty p ntokens ts)
    {w w' : World} (hw : Reached env w) (hs : w.saved = []) {r : R TokenStats}
    (hr : Impl env (optimizerFor ty) ntokens ts w r w') : AllAgain ty p ntokens w'.saved := by
  obtain ⟨Fam, lo, hi, B, hl, hback, _⟩ := workable_behaves h
  obtain ⟨full, e, k1, k2, k3, k4, k5, k6, k7, _⟩ := impl_ok B he hl (reached_ok hw) hr
  obtain ⟨l, e1, hf⟩ := k7
  intro f hfm
  rw [e1, hs, List.nil_append] at hfm
  obtain ⟨x, ⟨hx1, hx2⟩, hx3⟩ := hf f hfm
  have hx := hback x hx1
  exact ⟨x, ⟨⟨workable_accepted hx, sorted_of_sort hx2, C16_lossless _ hx.family, hx.type, hx.processing,
    hx.size, regular_of_sorted hx.family (sorted_of_sort hx2)⟩, hx⟩, hx3⟩

theorem tokenset_again {env : Env} (he : EnvOk env) {input : Option TokenSet}
    (hi : GoodInput ty p ntokens input) {r : R TokenStats} {w : World}
    (h : OptimizeTokenset env ntokens p ty input r w) : AllAgain ty p ntokens w.saved := by
  cases h with
  | run h1 h2 =>
    cases input with
    | none =>
      obtain ⟨ts, e, hg, hw, hs⟩ := start_run he hi h1
      cases e
      exact impl_again he hg.work hw hs h2
    | some ts =>
      cases h1
      exact impl_again he hi (reached_new env []) rfl h2
  | startFail h1 =>
    cases input with
    | none => obtain ⟨ts, e, _⟩ := start_run he hi h1; cases e
    | some ts => cases h1

theorem partTokenset_again {env : Env} (he : EnvOk env) {input : Option TokenSet}
    (hi : GoodInput ty p ntokens input) {w : World} (h : PartTokenset env ntokens p ty input w) :
    AllAgain ty p ntokens w.saved := by
  obtain ⟨r, w', h1, h2⟩ := partTokenset_complete he hi h
  exact fun f hf => tokenset_again he hi h1 f (h2.subset hf)

theorem sampled_ok (hm : MachineOk m) {file : Bytes} {size : Nat} {n : Option Nat} {env : Env}
    (hs : sampleEnv m file size n = .ok env) : EnvOk env := by
  obtain ⟨env', h1, h2, _⟩ := sampleEnv_ok hm file size n
  have := Except.ok.inj (h1.symm.trans hs)
  subst this
  exact h2

theorem increasing_again (hm : MachineOk m) {file : Bytes} {n : Option Nat} {size : Nat}
    {ts : Option TokenSet} {r : R TokenStats} {saved : List (Text × Text)}
    (h : Increasing m file ntokens p ty n size ts r saved) :
    GoodInput ty p ntokens ts → AllAgain ty p ntokens saved := by
  induction h with
  | exhausted => exact fun _ f hf => by simp at hf
  | sample => exact fun _ f hf => by simp at hf
  | before => exact fun _ f hf => by simp at hf
  | optimize h hs hb ho => exact fun hi => tokenset_again (sampled_ok hm hs) hi ho
  | full h hs hb ho hf => exact fun hi => tokenset_again (sampled_ok hm hs) hi ho
  | stop h hs hb ho hf => exact fun hi => tokenset_again (sampled_ok hm hs) hi ho
  | again h hs hb ho hf hstop hr ih =>
    intro hi
    obtain ⟨st1, e1, hres, hw⟩ := optimize_good (sampled_ok hm hs) hi ho
    have := Except.ok.inj e1
    subst this
    exact allAgain_append (tokenset_again (sampled_ok hm hs) hi ho) (ih hw)

theorem partIncreasing_again (hm : MachineOk m) {file : Bytes} {n : Option Nat} {size : Nat}
    {ts : Option TokenSet} {saved : List (Text × Text)}
    (h : PartIncreasing m file ntokens p ty n size ts saved) :
    GoodInput ty p ntokens ts → AllAgain ty p ntokens saved := by
  induction h with
  | head => exact fun _ f hf => by simp at hf
  | optimize h hs hb ho => exact fun hi => partTokenset_again (sampled_ok hm hs) hi ho
  | after h hs hb ho => exact fun hi => tokenset_again (sampled_ok hm hs) hi ho
  | again h hs hb ho hf hstop hr ih =>
    intro hi
    obtain ⟨st1, e1, hres, hw⟩ := optimize_good (sampled_ok hm hs) hi ho
    have := Except.ok.inj e1
    subst this
    exact allAgain_append (tokenset_again (sampled_ok hm hs) hi ho) (ih hw)

theorem memory_ok (hm : MachineOk m) {data : Bytes} {n : Option Nat} {env : Env}
    (hs : memoryEnv m data n = .ok env) : EnvOk env := by
  obtain ⟨env', h1, h2, _⟩ := memoryEnv_ok hm data n
  have := Except.ok.inj (h1.symm.trans hs)
  subst this
  exact h2

theorem optimized_again (hm : MachineOk m) {data : Bytes} {rawSize : Nat} {input : Option TokenSet}
    (hi : GoodInput ty p ntokens input) {minSize : Option Nat} {r : R TokenStats}
    {saved : List (Text × Text)} (h : Optimized m data ntokens p ty rawSize input minSize r saved) :
    AllAgain ty p ntokens saved := by
  cases h with
  | increasing h => exact increasing_again hm h hi
  | memory _ he h => exact tokenset_again (memory_ok hm he) hi h
  | memoryFail => exact fun f hf => by simp at hf
  | file _ he h => exact tokenset_again ⟨hm.threads, .inr (fileSampler_facts he).2.1⟩ hi h
  | fileFail => exact fun f hf => by simp at hf

theorem partOptimized_again (hm : MachineOk m) {data : Bytes} {rawSize : Nat} {input : Option TokenSet}
    (hi : GoodInput ty p ntokens input) {minSize : Option Nat} {saved : List (Text × Text)}
    (h : PartOptimized m data ntokens p ty rawSize input minSize saved) : AllAgain ty p ntokens saved := by
  cases h with
  | increasing h => exact partIncreasing_again hm h hi
  | memory _ he h => exact partTokenset_again (memory_ok hm he) hi h
  | file _ he h => exact partTokenset_again ⟨hm.threads, .inr (fileSampler_facts he).2.1⟩ hi h

theorem again_written {saved : List (Text × Text)} (h : AllAgain ty p ntokens saved) (dir : Text) :
    ∀ w ∈ inDir dir saved, ∃ ts, Again ty p ntokens ts ∧ Written ts w.2 := by
  intro w hw
  obtain ⟨f, hf, rfl⟩ := List.mem_map.1 hw
  obtain ⟨ts, h1, h2⟩ := h f hf
  exact ⟨ts, h1, (written_saved h1.valid.regular.inRange h2).2⟩

/-- What a killed optimize command leaves can be used again, or cannot be read, or was there before. -/
theorem killed_again (hm : MachineOk m) (hr : RatioText m.ratio) {d : Files}
    {data : Text} {processed : Option Text} {dir : Text} {inputTokens : Option Text} {minSize : Option Nat}
    (hg : StartsGood d p ty ntokens inputTokens)
    (hsmall : SmallEnough m d (.optimize data processed dir p ty ntokens inputTokens minSize))
    {ws : List (Text × Bytes)}
    (h : Running m d (.optimize data processed dir p ty ntokens inputTokens minSize) ws)
    {d' : Files} (hs : Stopped ws d d') (path : Text) : AfterCrash d d' path (Again ty p ntokens) := by
  cases h with
  | nothing => cases hs; exact .same rfl
  | optimize hr' hp hi hd ht ho =>
    refine crash_of_written hs ?_ path
    intro w hw
    exact again_written (partOptimized_again hm (starts_input hg hi ht) ho) dir w (attempt_sub rfl w hw)
  | @ended _ r _ h =>
    have hfit := saves_fit_optimize hm hg hsmall
    refine crash_of_written hs ?_ path
    generalize ho : (r, ws) = o at h
    have sub : ∀ {ws' : List (Text × Bytes)} {r' : R Unit}, (r, ws) = attempt d ws' r' → ∀ w ∈ ws, w ∈ ws' :=
      fun e w hw => attempt_sub e.symm w hw
    cases h with
    | optimizeOpen h => rw [Prod.mk.injEq] at ho; rw [ho.2]; simp
    | optimizePrepare hr hp hi h => rw [Prod.mk.injEq] at ho; rw [ho.2]; simp
    | optimizeFail hr' hp hi hd ht hopt h =>
      intro w hw
      exact again_written (optimized_again hm (starts_input hg hi ht) hopt) dir w (sub ho w hw)
    | optimize hr' hp hi hd ht hopt h =>
      intro w hw
      have hout := optimized_good hm (starts_input hg hi ht) hopt
      have := sub ho w hw
      unfold inDir at this
      rw [List.map_append, List.mem_append] at this
      rcases this with h1 | h1
      · exact again_written (optimized_again hm (starts_input hg hi ht) hopt) dir w h1
      · rw [List.map_singleton, List.mem_singleton] at h1
        subst h1
        obtain ⟨k1, k2⟩ := hout.result _ rfl
        exact ⟨_, ⟨k1, k2⟩, (written_stats hr (hfit _ (.optimize hr' hp hi hd ht hopt)) k1.regular.inRange h).2⟩

end Disk
end Tokens
