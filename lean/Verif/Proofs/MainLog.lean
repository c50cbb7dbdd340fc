import Verif.Spec.MainLog
import Verif.Proofs.Log5
import Verif.Proofs.Commands
import Verif.Proofs.Passes

/-! The console output of the commands. -/

set_option linter.unusedSimpArgs false
set_option linter.unusedVariables false

namespace Tokens
open Spec TokenSet Batch OptimizeBytes

namespace Optimize

variable {env : Env} {bo : BytesOptimizer} {ntokens : Nat}

/-! ### Programs that write nothing -/

/-- The program writes no file. -/
def Prog.NoSave {α : Type} : Prog α → Prop
  | .pure _ => True
  | .fail _ => True
  | .stats _ k => ∀ st, (k st).NoSave
  | .pairs _ k => ∀ st, (k st).NoSave
  | .sortUnstable _ _ k => ∀ l, (k l).NoSave
  | .clock k => ∀ b, (k b).NoSave
  | .save _ _ => False

theorem noSave_bind {α β : Type} {p : Prog α} {f : α → Prog β} (h : p.NoSave) (hf : ∀ a, (f a).NoSave) :
    (p >>= f).NoSave := by
  show (p.bind f).NoSave
  induction p with
  | pure a => exact hf a
  | fail e => trivial
  | stats ts k ih => exact fun st => ih st (h st)
  | pairs ts k ih => exact fun st => ih st (h st)
  | sortUnstable key l k ih => exact fun st => ih st (h st)
  | clock k ih => exact fun st => ih st (h st)
  | save ts k ih => exact h.elim

theorem noSave_lift {α : Type} (x : R α) : (Prog.lift x).NoSave := by cases x <;> trivial

theorem noSave_stats (ts : TokenSet) : (getStats ts).NoSave := fun _ => trivial
theorem noSave_pairs (ts : TokenSet) : (getStatsWithPairs ts).NoSave := fun _ => trivial
theorem noSave_sort (key : Bytes → Nat) (l : List Bytes) : (sortUnstableBy key l).NoSave := fun _ => trivial
theorem noSave_clock : askClock.NoSave := fun _ => trivial

theorem noSave_run {α : Type} {p : Prog α} {w w' : World} {r : R α} (h : Run env p w r w') (hp : p.NoSave) :
    w'.saved = w.saved := by
  induction h with
  | pure => rfl
  | fail => rfl
  | stats hg _ ih => exact ih (hp _)
  | statsFail hf => rfl
  | pairs hg _ ih => exact ih (hp _)
  | pairsFail hf => rfl
  | sortUnstable h1 h2 _ ih => exact ih (hp _)
  | clock b _ ih => exact ih (hp _)
  | save hf _ ih => exact hp.elim
  | saveFail hf => exact hp.elim

theorem noSave_add (ts : TokenSet) : (addToken bo ts).NoSave := by
  unfold addToken
  exact noSave_bind (noSave_pairs _) fun _ => noSave_bind (noSave_lift _) fun _ =>
    noSave_bind (noSave_lift _) fun _ => trivial

theorem noSave_start (n : Nat) (p : Processing) (ty : TokenType) (pre : Option TokenSet) :
    (startSet n p ty pre).NoSave := by
  have lift : ∀ (x : R TokenSet), (Prog.lift x).NoSave := noSave_lift
  unfold startSet
  generalize TokenSet.newBytes p = nb
  generalize TokenSet.newBits1 p true = n1
  generalize TokenSet.newBits2 p true = n2
  generalize TokenSet.newBits4 p true = n4
  split
  · trivial
  · exact lift _
  · exact lift _
  · exact lift _
  · exact lift _
  · exact noSave_bind (noSave_lift _) fun _ => noSave_bind (noSave_stats _) fun _ => noSave_lift _

theorem noSave_finish (ts : TokenSet) : (finish ts).NoSave :=
  noSave_bind (noSave_lift _) fun _ => noSave_stats _

/-- The program writes and announces no file. -/
def Talk.Still {α : Type} : Talk α → Prop
  | .pure _ => True
  | .say e k => announces e = none ∧ k.Still
  | .call p k => p.NoSave ∧ ∀ b, (k b).Still

theorem still_bind {α β : Type} {t : Talk α} {f : α → Talk β} (h : t.Still) (hf : ∀ a, (f a).Still) :
    (t >>= f).Still := by
  show (t.bind f).Still
  induction t with
  | pure a => exact hf a
  | say e k ih => exact ⟨h.1, ih h.2⟩
  | call p k ih => exact ⟨h.1, fun b => ih b (h.2 b)⟩

theorem still_call {α β : Type} {p : Prog α} {f : α → Talk β} (h : p.NoSave) (hf : ∀ a, (f a).Still) :
    (silent p >>= f).Still := ⟨h, hf⟩

theorem still_say {β : Type} {e : Printed} {f : Unit → Talk β} (h : announces e = none) (hf : (f ()).Still) :
    (say e >>= f).Still := ⟨h, hf⟩

theorem still_run {α : Type} {t : Talk α} {w w' : World} {r : R α} {o : List Printed}
    (h : RunT env t w r w' o) (ht : t.Still) : w'.saved = w.saved ∧ announced o = [] := by
  induction h with
  | pure => exact ⟨rfl, rfl⟩
  | say _ ih =>
    obtain ⟨h1, h2⟩ := ih ht.2
    refine ⟨h1, ?_⟩
    show List.filterMap announces (_ :: _) = []
    rw [List.filterMap_cons_none ht.1]
    exact h2
  | call h _ ih =>
    obtain ⟨h1, h2⟩ := ih (ht.2 _)
    exact ⟨h1.trans (noSave_run h ht.1), h2⟩
  | callFail h => exact ⟨noSave_run h ht.1, rfl⟩

theorem still_removeLoop (ts : TokenSet) (total : Nat) (l : List Bytes) :
    ∀ rc, (removeLoopT bo ts ntokens total l rc).Still := by
  induction l with
  | nil => intro rc; exact ⟨rfl, trivial⟩
  | cons s rest ih =>
    intro rc
    unfold removeLoopT
    refine still_say rfl (still_call (noSave_lift _) fun idx => still_call (noSave_lift _) fun ts1 =>
      still_call (noSave_lift _) fun m => still_call (noSave_lift _) fun _ =>
      still_call (noSave_add _) fun o => ?_)
    cases o with
    | none => exact ih _
    | some ts2 =>
      refine still_call (noSave_stats _) fun st2 => ?_
      split
      · exact still_say rfl (still_say rfl (still_say rfl trivial))
      · exact ih _

theorem still_tradeByte (ts : TokenSet) (st : TokenStats) : (tradeByteT bo ts ntokens st).Still := by
  unfold tradeByteT
  refine still_call (noSave_lift _) fun n => ?_
  split
  · refine still_call (noSave_lift _) fun _ => still_call (noSave_lift _) fun _ =>
      still_call (noSave_lift _) fun _ => still_call (noSave_lift _) fun _ =>
      still_call (noSave_pairs _) fun _ => still_call (noSave_lift _) fun o => ?_
    cases o with
    | none => trivial
    | some x =>
      refine still_call (noSave_stats _) fun st2 => ?_
      split
      · exact still_say rfl (still_say rfl trivial)
      · trivial
  · trivial

theorem still_removeAdd (ts : TokenSet) (rc : Removals) : (removeAddTokenT bo ts ntokens rc).Still := by
  unfold removeAddTokenT
  split
  · refine still_call (noSave_add _) fun o => ?_
    cases o with
    | none => trivial
    | some x => exact still_call (noSave_stats _) fun _ => still_say rfl (still_say rfl trivial)
  · refine still_call (noSave_lift _) fun _ => still_call (noSave_stats _) fun st => ?_
    refine still_bind (still_tradeByte _ _) fun o => ?_
    cases o with
    | some x => trivial
    | none => exact still_call (noSave_sort _ _) fun _ => still_say rfl (still_removeLoop _ _ _ _)

theorem still_step (ts : TokenSet) (rc : Removals) : (optimizationStepT bo ts ntokens rc).Still := by
  unfold optimizationStepT
  refine still_call (noSave_stats _) fun _ => still_call (noSave_lift _) fun _ =>
    still_call (noSave_lift _) fun _ => still_call (noSave_stats _) fun _ => ?_
  split
  · exact still_say rfl (still_say rfl trivial)
  · refine still_bind (still_removeAdd _ _) fun x => ?_
    obtain ⟨o, rc'⟩ := x
    cases o with
    | none => trivial
    | some st2 => exact still_call (noSave_lift _) fun _ => trivial

/-! ### Announced and written files -/

/-- The files named `a` were announced; the files of `after` that are not in `before` were written. -/
def Kept (ok : Bool) (before after : List (Text × Text)) (a : List Text) : Prop :=
  ∃ l, after = before ++ l ∧ (l.map Prod.fst = a ∨ ok = false ∧ ∃ x, l.map Prod.fst ++ [x] = a)

/-- Whether the outcome is a success. -/
def succeeds {α : Type} : R α → Bool
  | .ok _ => true
  | .error _ => false

theorem announced_append (l m : List Printed) : announced (l ++ m) = announced l ++ announced m :=
  List.filterMap_append

theorem saveT_kept {ts : TokenSet} {w w' : World} {r : R Unit} {o : List Printed}
    (h : RunT env (maybeSaveT ts) w r w' o) : Kept (succeeds r) w.saved w'.saved (announced o) := by
  unfold maybeSaveT at h
  cases h with
  | callFail h => cases h; rename_i h; cases h
  | call h hk =>
    cases h with
    | clock b0 h =>
    cases h
    rename_i b
    cases b with
    | false =>
      cases hk
      exact ⟨[], by simp, .inl rfl⟩
    | true =>
      cases hk with
      | say hk =>
      cases hk with
      | call h hk =>
        cases hk
        cases h with
        | save hf h =>
          cases h
          rename_i f _
          refine ⟨[f], rfl, .inl ?_⟩
          unfold savedFile at hf
          cases hj : ts.toJson with
          | error e => rw [hj] at hf; cases hf
          | ok v =>
            rw [hj, R.ok_bind] at hf
            rw [← Except.ok.inj hf]
            rfl
      | callFail h =>
        cases h with
        | saveFail hf => exact ⟨[], by simp, .inr ⟨rfl, _, rfl⟩⟩
        | save hf h => cases h

theorem kept_trans {ok : Bool} {a b c : List (Text × Text)} {u v : List Text} (h1 : Kept true a b u)
    (h2 : Kept ok b c v) : Kept ok a c (u ++ v) := by
  obtain ⟨l, rfl, h | ⟨h, _⟩⟩ := h1
  · obtain ⟨m, rfl, h'⟩ := h2
    refine ⟨l ++ m, by rw [List.append_assoc], ?_⟩
    rcases h' with h' | ⟨h', x, hx⟩
    · exact .inl (by rw [List.map_append, h, h'])
    · exact .inr ⟨h', x, by rw [List.map_append, h, ← hx, List.append_assoc]⟩
  · cases h

theorem kept_same {ok : Bool} {a b : List (Text × Text)} (h : b = a) : Kept ok a b [] :=
  ⟨[], by rw [h, List.append_nil], .inl rfl⟩

theorem loopT_kept {ts rc w r w' o} (h : LoopT env bo ntokens ts rc w r w' o) :
    Kept (succeeds r) w.saved w'.saved (announced o) := by
  induction h with
  | stop hs =>
    obtain ⟨h1, h2⟩ := still_run hs (still_step _ _)
    rw [h2]; exact kept_same h1
  | fail hs =>
    obtain ⟨h1, h2⟩ := still_run hs (still_step _ _)
    rw [h2]; exact kept_same h1
  | again hs hsave _ ih =>
    obtain ⟨h1, h2⟩ := still_run hs (still_step _ _)
    rw [announced_append, announced_append, h2, List.nil_append]
    have := saveT_kept hsave
    rw [h1] at this
    exact kept_trans this ih
  | saveFail hs hsave =>
    obtain ⟨h1, h2⟩ := still_run hs (still_step _ _)
    rw [announced_append, h2, List.nil_append, ← h1]
    exact saveT_kept hsave

theorem implT_kept {ts w r w' o} (h : ImplT env bo ntokens ts w r w' o) :
    Kept (succeeds r) w.saved w'.saved (announced o) := by
  cases h with
  | done h1 h2 h3 =>
    have := loopT_kept h2
    rw [noSave_run h1 (noSave_stats _), ← noSave_run h3 (noSave_finish _)] at this
    have e : announced (Printed.initial ts.ntokens ‹_› :: ‹_›) = announced ‹_› := rfl
    rw [e]
    obtain ⟨l, h1, h | ⟨h, _⟩⟩ := this
    · exact ⟨l, h1, .inl h⟩
    · cases h
  | firstFail h1 => exact kept_same (noSave_run h1 (noSave_stats _))
  | loopFail h1 h2 =>
    have := loopT_kept h2
    rw [noSave_run h1 (noSave_stats _)] at this
    exact this

theorem optimizeT_kept {p ty pre r w o} (h : OptimizeTokensetT env ntokens p ty pre r w o) :
    Kept (succeeds r) [] w.saved (announced o) := by
  cases h with
  | run h1 h2 =>
    have := implT_kept h2
    rw [noSave_run h1 (noSave_start _ _ _ _)] at this
    exact this
  | startFail h1 => exact kept_same (noSave_run h1 (noSave_start _ _ _ _))

end Optimize

namespace Main
open Optimize Input

theorem announcedBy_append (l m : List Note) : announcedBy (l ++ m) = announcedBy l ++ announcedBy m :=
  List.filterMap_append

theorem announcedBy_opt (l : List Printed) : announcedBy (l.map .opt) = announced l := by
  show List.filterMap noteAnnounces (List.map _ l) = List.filterMap announces l
  rw [List.filterMap_map]
  rfl

theorem announcedBy_before {m : Machine} {env : Env} {n : Option Nat} {ts : Option TokenSet} {o : List Note}
    (h : Before m env n ts o) : announcedBy o = [] := by cases h <;> rfl

theorem announcedBy_process (m : Machine) (raw : Bytes) (processed : Option Bytes) (p : Processing) :
    announcedBy (processNotes m raw processed p) = [] := by
  unfold processNotes
  split
  · rfl
  · rfl
  · split <;> rfl

theorem announcedBy_read (input : Option Json) : announcedBy (readNotes input) = [] := by
  cases input <;> rfl

theorem before_iff {m : Machine} {env : Env} {n : Option Nat} {ts : Option TokenSet} :
    (∃ o, Before m env n ts o) ↔ ∀ t, ts = some t → ∃ st, TokenizeFile t env.sampler n m.nthreads st := by
  constructor
  · rintro ⟨o, h⟩ t rfl
    cases h with
    | some h => exact ⟨_, h⟩
  · intro h
    cases ts with
    | none => exact ⟨_, .none⟩
    | some t =>
      obtain ⟨st, h⟩ := h t rfl
      exact ⟨_, .some h⟩

theorem increasingT_iff {m file ntokens p ty n size ts r saved} :
    (∃ o, IncreasingT m file ntokens p ty n size ts r saved o) ↔
      Increasing m file ntokens p ty n size ts r saved := by
  constructor
  · rintro ⟨o, h⟩
    induction h with
    | exhausted h => exact .exhausted h
    | sample h hs => exact .sample h hs
    | before h hs hf => exact .before h hs hf
    | optimize h hs hb ho => exact .optimize h hs (before_iff.1 ⟨_, hb⟩) (optimizeT_iff.1 ⟨_, ho⟩)
    | full h hs hb ho hf => exact .full h hs (before_iff.1 ⟨_, hb⟩) (optimizeT_iff.1 ⟨_, ho⟩) hf
    | stop h hs hb ho hf hst => exact .stop h hs (before_iff.1 ⟨_, hb⟩) (optimizeT_iff.1 ⟨_, ho⟩) hf hst
    | again h hs hb ho hf hst _ ih =>
      exact .again h hs (before_iff.1 ⟨_, hb⟩) (optimizeT_iff.1 ⟨_, ho⟩) hf hst ih
  · intro h
    induction h with
    | exhausted h => exact ⟨_, .exhausted h⟩
    | sample h hs => exact ⟨_, .sample h hs⟩
    | before h hs hf => exact ⟨_, .before h hs hf⟩
    | optimize h hs hb ho =>
      obtain ⟨o, hb⟩ := before_iff.2 hb
      obtain ⟨o', ho⟩ := optimizeT_iff.2 ho
      exact ⟨_, .optimize h hs hb ho⟩
    | full h hs hb ho hf =>
      obtain ⟨o, hb⟩ := before_iff.2 hb
      obtain ⟨o', ho⟩ := optimizeT_iff.2 ho
      exact ⟨_, .full h hs hb ho hf⟩
    | stop h hs hb ho hf hst =>
      obtain ⟨o, hb⟩ := before_iff.2 hb
      obtain ⟨o', ho⟩ := optimizeT_iff.2 ho
      exact ⟨_, .stop h hs hb ho hf hst⟩
    | again h hs hb ho hf hst _ ih =>
      obtain ⟨o, hb⟩ := before_iff.2 hb
      obtain ⟨o', ho⟩ := optimizeT_iff.2 ho
      obtain ⟨o'', ih⟩ := ih
      exact ⟨_, .again h hs hb ho hf hst ih⟩

theorem optimizedT_iff {m data ntokens p ty rawSize input size r saved} :
    (∃ o, OptimizedT m data ntokens p ty rawSize input size r saved o) ↔
      Optimized m data ntokens p ty rawSize input size r saved := by
  constructor
  · rintro ⟨o, h⟩
    cases h with
    | increasing h => exact .increasing (increasingT_iff.1 ⟨_, h⟩)
    | memory h1 h2 h => exact .memory h1 h2 (optimizeT_iff.1 ⟨_, h⟩)
    | memoryFail h1 h2 => exact .memoryFail h1 h2
    | file h1 h2 h => exact .file h1 h2 (optimizeT_iff.1 ⟨_, h⟩)
    | fileFail h1 h2 => exact .fileFail h1 h2
  · intro h
    cases h with
    | increasing h => obtain ⟨o, h⟩ := increasingT_iff.2 h; exact ⟨_, .increasing h⟩
    | memory h1 h2 h => obtain ⟨o, h⟩ := optimizeT_iff.2 h; exact ⟨_, .memory h1 h2 h⟩
    | memoryFail h1 h2 => exact ⟨_, .memoryFail h1 h2⟩
    | file h1 h2 h => obtain ⟨o, h⟩ := optimizeT_iff.2 h; exact ⟨_, .file h1 h2 h⟩
    | fileFail h1 h2 => exact ⟨_, .fileFail h1 h2⟩

theorem optimizeCommandT_iff {m ntokens raw processed p ty input minSize r} :
    (∃ o, OptimizeCommandT m ntokens raw processed p ty input minSize r o) ↔
      OptimizeCommand m ntokens raw processed p ty input minSize r := by
  constructor
  · rintro ⟨o, h⟩
    cases h with
    | process h => exact .process h
    | load h1 h2 => exact .load h1 h2
    | optimize h1 h2 h3 => exact .optimize h1 h2 (optimizedT_iff.1 ⟨_, h3⟩)
    | saveFail h1 h2 h3 h4 => exact .saveFail h1 h2 (optimizedT_iff.1 ⟨_, h3⟩) h4
    | write h1 h2 h3 h4 => exact .write h1 h2 (optimizedT_iff.1 ⟨_, h3⟩) h4
  · intro h
    cases h with
    | process h => exact ⟨_, .process h⟩
    | load h1 h2 => exact ⟨_, .load h1 h2⟩
    | optimize h1 h2 h3 => obtain ⟨o, h3⟩ := optimizedT_iff.2 h3; exact ⟨_, .optimize h1 h2 h3⟩
    | saveFail h1 h2 h3 h4 => obtain ⟨o, h3⟩ := optimizedT_iff.2 h3; exact ⟨_, .saveFail h1 h2 h3 h4⟩
    | write h1 h2 h3 h4 => obtain ⟨o, h3⟩ := optimizedT_iff.2 h3; exact ⟨_, .write h1 h2 h3 h4⟩

theorem convertCommandT_iff {m raw processed input r} :
    (∃ o, ConvertCommandT m raw processed input r o) ↔ ConvertCommand m raw processed input r := by
  constructor
  · rintro ⟨o, h⟩
    cases h with
    | load h => exact .load h
    | process h1 h2 => exact .process h1 h2
    | tokenize h1 h2 h3 => exact .tokenize h1 h2 h3
    | write h1 h2 h3 => exact .write h1 h2 h3
  · intro h
    cases h with
    | load h => exact ⟨_, .load h⟩
    | process h1 h2 => exact ⟨_, .process h1 h2⟩
    | tokenize h1 h2 h3 => exact ⟨_, .tokenize h1 h2 h3⟩
    | write h1 h2 h3 => exact ⟨_, .write h1 h2 h3⟩

/-! ### Announced and written files -/

theorem increasingT_kept {m file ntokens p ty n size ts r saved o}
    (h : IncreasingT m file ntokens p ty n size ts r saved o) : Kept (succeeds r) [] saved (announcedBy o) := by
  induction h with
  | exhausted h => exact kept_same rfl
  | sample h hs => exact kept_same rfl
  | before h hs hf => exact kept_same rfl
  | optimize h hs hb ho =>
    show Kept _ _ _ (announcedBy (_ ++ _))
    rw [announcedBy_append, announcedBy_before hb, announcedBy_opt]
    exact optimizeT_kept ho
  | full h hs hb ho hf =>
    show Kept _ _ _ (announcedBy (_ ++ _ ++ _))
    rw [announcedBy_append, announcedBy_append, announcedBy_before hb, announcedBy_opt]
    have := kept_trans (optimizeT_kept ho) (kept_same (ok := false) rfl)
    exact this
  | stop h hs hb ho hf hst =>
    show Kept _ _ _ (announcedBy (_ ++ _ ++ _))
    rw [announcedBy_append, announcedBy_append, announcedBy_before hb, announcedBy_opt]
    exact kept_trans (optimizeT_kept ho) (kept_same (ok := true) rfl)
  | again h hs hb ho hf hst _ ih =>
    show Kept _ _ _ (announcedBy (_ ++ _ ++ _ ++ _))
    rw [announcedBy_append, announcedBy_append, announcedBy_append, announcedBy_before hb, announcedBy_opt]
    have h1 := kept_trans (optimizeT_kept ho) (kept_same (ok := true) rfl)
    refine kept_trans h1 ?_
    obtain ⟨l, e, h2⟩ := ih
    exact ⟨l, by rw [e]; rfl, h2⟩

theorem optimizedT_kept {m data ntokens p ty rawSize input size r saved o}
    (h : OptimizedT m data ntokens p ty rawSize input size r saved o) :
    Kept (succeeds r) [] saved (announcedBy o) := by
  cases h with
  | increasing h => exact increasingT_kept h
  | memory h1 h2 h => rw [announcedBy_opt]; exact optimizeT_kept h
  | memoryFail h1 h2 => exact kept_same rfl
  | file h1 h2 h => rw [announcedBy_opt]; exact optimizeT_kept h
  | fileFail h1 h2 => exact kept_same rfl

theorem statsFile_name {m : Machine} {st : TokenStats} {f : Text × Text} (h : statsFile m st = .ok f) :
    f.1 = st.tokenSet.name ++ ".json".toList := by
  unfold statsFile at h
  cases hj : st.toJson m.ratio with
  | error e => rw [hj] at h; cases h
  | ok v =>
    rw [hj, R.ok_bind] at h
    rw [← Except.ok.inj h]

/-! ### Rounds with more and more data -/

theorem lt_irrefl (x : F64) : x.lt x = false := by
  cases x with
  | nan => rfl
  | inf s => cases s <;> rfl
  | fin q => simp [F64.lt]

theorem rate_not_lower' {st st' : TokenStats} (hs : st'.scannedBytes = st.scannedBytes)
    (ht : st'.totalTokens ≤ st.totalTokens) : (bytesPerToken st').lt (bytesPerToken st) = false := by
  rcases Nat.lt_or_ge st'.totalTokens st.totalTokens with h | h
  · exact rate_not_lower hs h
  · have e : st'.totalTokens = st.totalTokens := by omega
    unfold bytesPerToken
    rw [hs, e]
    exact lt_irrefl _

/-- What is known of the rates before and after an optimization. -/
def Improved (ntokens : Nat) (a b : TokenStats) : Prop :=
  a.scannedBytes = b.scannedBytes ∧ (a.tokenSet.tokens.length = ntokens →
    b.totalTokens ≤ a.totalTokens ∧ (bytesPerToken b).lt (bytesPerToken a) = false)

/-- Every rate before an optimization is followed by the output of the optimizer and the rate after it. -/
def Improves (ntokens : Nat) : List Note → Prop
  | [] => True
  | .bigger a :: l => (∃ (out : List Printed) (b : TokenStats) (v : List Note),
      l = out.map .opt ++ .optimized b :: v ∧ Improved ntokens a b) ∧ Improves ntokens l
  | .preprocessing :: l => Improves ntokens l
  | .done :: l => Improves ntokens l
  | .reading :: l => Improves ntokens l
  | .start _ :: l => Improves ntokens l
  | .sample _ :: l => Improves ntokens l
  | .optimized _ :: l => Improves ntokens l
  | .full _ :: l => Improves ntokens l
  | .stopping :: l => Improves ntokens l
  | .opening :: l => Improves ntokens l
  | .tokenizing _ :: l => Improves ntokens l
  | .writing _ :: l => Improves ntokens l
  | .opt _ :: l => Improves ntokens l

theorem improves_opt {ntokens : Nat} (l : List Printed) {m : List Note} (h : Improves ntokens m) :
    Improves ntokens (l.map .opt ++ m) := by
  induction l with
  | nil => exact h
  | cons e l ih => exact ih

theorem improves_at {ntokens : Nat} {u v : List Note} {a : TokenStats} (h : Improves ntokens (u ++ .bigger a :: v)) :
    ∃ (out : List Printed) (b : TokenStats) (v' : List Note),
      v = out.map .opt ++ .optimized b :: v' ∧ Improved ntokens a b := by
  induction u with
  | nil => exact h.1
  | cons e u ih =>
    cases e with
    | bigger x => exact ih h.2
    | _ => exact ih h

theorem optimized_improved {env : Env} (he : EnvOk env) {ty : TokenType} {p : Processing} {ntokens : Nat}
    {t : TokenSet} (hw : Workable ty p ntokens t) {a st : TokenStats} {w : World} {out : List Printed}
    (ha : tokenizeFileSync t env.sampler.samples env.initialSize = .ok a)
    (h : OptimizeTokensetT env ntokens p ty (some t) (.ok st) w out) : Improved ntokens a st := by
  have hp : Props.CanStart ty p ntokens (some t) := hw
  obtain ⟨start, full, Fam, lo, hi, ts', o, ⟨w1, h1⟩, h2, B, h3, h4, rfl, h5, h6, h7⟩ := told he hp h
  cases h1
  obtain ⟨_, _, full', hf', _, hst⟩ := Props.workable_sorted_stuck he hp (optimizeT_iff.1 ⟨_, h⟩)
  have hr := (Tokens.Family.usable hw.family).inRange
  have e1 := (Props.C05_accounting t hr _ _ _ ha).2.1
  have e2 : st.scannedBytes = (env.sampler.samples.map (·.length)).sum := by
    rw [hst]
    have hfs : full'.scannedBytes = (env.sampler.samples.map (·.length)).sum := fresh_scanned hf'
    exact hfs
  have ht := tot_sync hw.family ha
  have e3 : a.tokenSet = t := by
    obtain ⟨_, _, _, _, _, hsh, _, _⟩ := sync_inv hr ha
    exact hsh.tokenSet
  refine ⟨e1.trans e2.symm, fun hn => ?_⟩
  have hle : st.totalTokens ≤ a.totalTokens := by
    rw [← h7, ← ht]
    obtain ⟨g1, _, g3⟩ := story_rates B h5
    rw [e3] at hn
    by_cases h0 : rates o = []
    · cases h5 with
      | stop _ => omega
      | again hh _ _ _ => rw [rates_append, rates_append, roundOut_rates hh] at h0; simp at h0
    · rw [if_neg h0] at g3
      cases hg : (rates o).getLast? with
      | none => rw [hg] at g3; cases g3
      | some x =>
        rw [hg] at g3
        simp at g3
        have := g1 hn x (List.mem_of_getLast? hg)
        omega
  exact ⟨hle, rate_not_lower' (e2.trans e1.symm) hle⟩

end Main
end Tokens
