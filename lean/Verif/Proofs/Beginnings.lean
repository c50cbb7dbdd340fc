import Verif.Props.Running

/-! What a run has done so far, and complete runs: each is a beginning of the other. -/

namespace Tokens
open Spec TokenSet Optimize Batch Main Input Disk

section Parts
variable {env : Env}

theorem run_grows {α : Type} {p : Prog α} {w w' : World} {r : R α} (h : Run env p w r w') :
    w.saved <+: w'.saved := by
  induction h with
  | pure => exact List.prefix_refl _
  | fail => exact List.prefix_refl _
  | stats _ _ ih => exact ih
  | statsFail => exact List.prefix_refl _
  | pairs _ _ ih => exact ih
  | pairsFail => exact List.prefix_refl _
  | sortUnstable _ _ _ ih => exact ih
  | clock _ _ ih => exact ih
  | save _ _ ih => exact (List.prefix_append _ _).trans ih
  | saveFail => exact List.prefix_refl _

theorem between_eq {β : Type} {a l : List β} (h1 : a <+: l) (h2 : l <+: a) : l = a :=
  h2.eq_of_length (Nat.le_antisymm h2.length_le h1.length_le)

theorem run_part {α : Type} {p : Prog α} {w w' : World} {r : R α} (h : Run env p w r w') :
    ∀ l, w.saved <+: l → l <+: w'.saved → ∃ w'', Part env p w w'' ∧ w''.saved = l := by
  induction h with
  | @pure a w => exact fun l h1 h2 => ⟨w, .here, (between_eq h1 h2).symm⟩
  | @fail e w => exact fun l h1 h2 => ⟨w, .here, (between_eq h1 h2).symm⟩
  | stats hg _ ih =>
    intro l h1 h2
    obtain ⟨w'', k1, k2⟩ := ih l h1 h2
    exact ⟨w'', .stats hg k1, k2⟩
  | @statsFail ts k w hf => exact fun l h1 h2 => ⟨w, .here, (between_eq h1 h2).symm⟩
  | pairs hg _ ih =>
    intro l h1 h2
    obtain ⟨w'', k1, k2⟩ := ih l h1 h2
    exact ⟨w'', .pairs hg k1, k2⟩
  | @pairsFail ts k w hf => exact fun l h1 h2 => ⟨w, .here, (between_eq h1 h2).symm⟩
  | sortUnstable hp hs _ ih =>
    intro l h1 h2
    obtain ⟨w'', k1, k2⟩ := ih l h1 h2
    exact ⟨w'', .sortUnstable hp hs k1, k2⟩
  | clock b _ ih =>
    intro l h1 h2
    obtain ⟨w'', k1, k2⟩ := ih l h1 h2
    exact ⟨w'', .clock b k1, k2⟩
  | @save ts k w f r w' hf hk ih =>
    intro l h1 h2
    rcases List.prefix_or_prefix_of_prefix h2 (run_grows hk) with h3 | h3
    · rcases List.prefix_concat_iff.1 h3 with h4 | h4
      · subst h4
        exact ⟨_, .save hf .here, rfl⟩
      · exact ⟨w, .here, (between_eq h1 h4).symm⟩
    · obtain ⟨w'', k1, k2⟩ := ih l h3 h2
      exact ⟨w'', .save hf k1, k2⟩
  | @saveFail ts k w e hf => exact fun l h1 h2 => ⟨w, .here, (between_eq h1 h2).symm⟩

theorem loop_grows {bo : OptimizeBytes.BytesOptimizer} {n : Nat} {ts : TokenSet} {rc : Removals}
    {w w' : World} {r : R TokenSet} (h : Loop env bo n ts rc w r w') : w.saved <+: w'.saved := by
  induction h with
  | stop hs => exact run_grows hs
  | fail hs => exact run_grows hs
  | again hs hsave _ ih => exact ((run_grows hs).trans (run_grows hsave)).trans ih
  | saveFail hs hsave => exact (run_grows hs).trans (run_grows hsave)

theorem loop_part {bo : OptimizeBytes.BytesOptimizer} {n : Nat} {ts : TokenSet} {rc : Removals}
    {w w' : World} {r : R TokenSet} (h : Loop env bo n ts rc w r w') :
    ∀ l, w.saved <+: l → l <+: w'.saved → ∃ w'', PartLoop env bo n ts rc w w'' ∧ w''.saved = l := by
  induction h with
  | stop hs =>
    intro l h1 h2
    obtain ⟨w'', k1, k2⟩ := run_part hs l h1 h2
    exact ⟨w'', .step k1, k2⟩
  | fail hs =>
    intro l h1 h2
    obtain ⟨w'', k1, k2⟩ := run_part hs l h1 h2
    exact ⟨w'', .step k1, k2⟩
  | @again ts rc w ts' rc' w1 w2 r w' hs hsave hl ih =>
    intro l h1 h2
    have g2 := loop_grows hl
    have g1 := run_grows hsave
    rcases List.prefix_or_prefix_of_prefix h2 g2 with h3 | h3
    · rcases List.prefix_or_prefix_of_prefix h3 g1 with h4 | h4
      · obtain ⟨w'', k1, k2⟩ := run_part hs l h1 h4
        exact ⟨w'', .step k1, k2⟩
      · obtain ⟨w'', k1, k2⟩ := run_part hsave l h4 h3
        exact ⟨w'', .save hs k1, k2⟩
    · obtain ⟨w'', k1, k2⟩ := ih l h3 h2
      exact ⟨w'', .again hs hsave k1, k2⟩
  | @saveFail ts rc w ts' rc' w1 e w2 hs hsave =>
    intro l h1 h2
    rcases List.prefix_or_prefix_of_prefix h2 (run_grows hsave) with h4 | h4
    · obtain ⟨w'', k1, k2⟩ := run_part hs l h1 h4
      exact ⟨w'', .step k1, k2⟩
    · obtain ⟨w'', k1, k2⟩ := run_part hsave l h4 h2
      exact ⟨w'', .save hs k1, k2⟩

theorem impl_part {bo : OptimizeBytes.BytesOptimizer} {n : Nat} {ts : TokenSet}
    {w w' : World} {r : R TokenStats} (h : Impl env bo n ts w r w') (l : List (Text × Text))
    (h1 : w.saved <+: l) (h2 : l <+: w'.saved) : ∃ w'', PartImpl env bo n ts w w'' ∧ w''.saved = l := by
  have first : ∀ {w1 : World} {r : R TokenStats}, Run env (getStats ts) w r w1 → l <+: w1.saved →
      ∃ w'', PartImpl env bo n ts w w'' ∧ w''.saved = l := by
    intro w1 r hr h3
    obtain ⟨w'', k1, k2⟩ := run_part hr l h1 h3
    exact ⟨w'', .first k1, k2⟩
  have second : ∀ {w1 w2 : World} {st : TokenStats} {r : R TokenSet}, Run env (getStats ts) w (.ok st) w1 →
      Loop env bo n ts (fun _ => 0) w1 r w2 → l <+: w2.saved →
      ∃ w'', PartImpl env bo n ts w w'' ∧ w''.saved = l := by
    intro w1 w2 st r hr hl h3
    rcases List.prefix_or_prefix_of_prefix h3 (loop_grows hl) with h4 | h4
    · exact first hr h4
    · obtain ⟨w'', k1, k2⟩ := loop_part hl l h4 h3
      exact ⟨w'', .loop hr k1, k2⟩
  cases h with
  | done g1 g2 g3 =>
    rcases List.prefix_or_prefix_of_prefix h2 (run_grows g3) with h3 | h3
    · exact second g1 g2 h3
    · obtain ⟨w'', k1, k2⟩ := run_part g3 l h3 h2
      exact ⟨w'', .finish g1 g2 k1, k2⟩
  | firstFail g1 => exact first g1 h2
  | loopFail g1 g2 => exact second g1 g2 h2

theorem impl_grows {bo : OptimizeBytes.BytesOptimizer} {n : Nat} {ts : TokenSet}
    {w w' : World} {r : R TokenStats} (h : Impl env bo n ts w r w') : w.saved <+: w'.saved := by
  cases h with
  | done g1 g2 g3 => exact ((run_grows g1).trans (loop_grows g2)).trans (run_grows g3)
  | firstFail g1 => exact run_grows g1
  | loopFail g1 g2 => exact (run_grows g1).trans (loop_grows g2)

theorem tokenset_part {n : Nat} {p : Processing} {ty : TokenType} {i : Option TokenSet} {r : R TokenStats}
    {w : World} (h : OptimizeTokenset env n p ty i r w) (l : List (Text × Text)) (hl : l <+: w.saved) :
    ∃ w'', PartTokenset env n p ty i w'' ∧ w''.saved = l := by
  cases h with
  | run g1 g2 =>
    rcases List.prefix_or_prefix_of_prefix hl (impl_grows g2) with h3 | h3
    · obtain ⟨w'', k1, k2⟩ := run_part g1 l List.nil_prefix h3
      exact ⟨w'', .start k1, k2⟩
    · obtain ⟨w'', k1, k2⟩ := impl_part g2 l h3 hl
      exact ⟨w'', .impl g1 k1, k2⟩
  | startFail g1 =>
    obtain ⟨w'', k1, k2⟩ := run_part g1 l List.nil_prefix hl
    exact ⟨w'', .start k1, k2⟩

end Parts

section Rounds
variable {m : Machine} {file : Bytes} {ntokens : Nat} {p : Processing} {ty : TokenType}

theorem increasing_part {n : Option Nat} {size : Nat} {ts : Option TokenSet} {r : R TokenStats}
    {saved : List (Text × Text)} (h : Increasing m file ntokens p ty n size ts r saved) :
    ∀ l, l <+: saved → PartIncreasing m file ntokens p ty n size ts l := by
  have nil : ∀ {size ts} (l : List (Text × Text)), l <+: [] → PartIncreasing m file ntokens p ty n size ts l := by
    intro size ts l hl
    obtain rfl := List.prefix_nil.1 hl
    exact .head
  have opt : ∀ {size ts env r w} (h : size < file.length) (hs : sampleEnv m file size n = .ok env)
      (hb : ∀ t, ts = some t → ∃ st, TokenizeFile t env.sampler n m.nthreads st)
      (ho : OptimizeTokenset env ntokens p ty ts r w) (l : List (Text × Text)), l <+: w.saved →
      PartIncreasing m file ntokens p ty n size ts l := by
    intro size ts env r w h hs hb ho l hl
    obtain ⟨w'', k1, rfl⟩ := tokenset_part ho l hl
    exact .optimize h hs hb k1
  induction h with
  | exhausted h => exact nil
  | sample h hs => exact nil
  | before h hs hf => exact nil
  | optimize h hs hb ho => exact opt h hs hb ho
  | full h hs hb ho hf => exact opt h hs hb ho
  | stop h hs hb ho hf hstop => exact opt h hs hb ho
  | again h hs hb ho hf hstop hr ih =>
    intro l hl
    rcases List.prefix_or_prefix_of_prefix hl (List.prefix_append _ _) with h3 | h3
    · exact opt h hs hb ho l h3
    · obtain ⟨l', rfl⟩ := h3
      exact .again h hs hb ho hf hstop (ih l' ((List.prefix_append_right_inj _).1 hl))

theorem optimized_part {rawSize : Nat} {input : Option TokenSet} {minSize : Option Nat} {r : R TokenStats}
    {saved : List (Text × Text)} (h : Optimized m file ntokens p ty rawSize input minSize r saved)
    (l : List (Text × Text)) (hl : l <+: saved) :
    l = [] ∨ PartOptimized m file ntokens p ty rawSize input minSize l := by
  cases h with
  | increasing h => exact .inr (.increasing (increasing_part h l hl))
  | memory hsize he h =>
    obtain ⟨w'', k1, rfl⟩ := tokenset_part h l hl
    exact .inr (.memory hsize he k1)
  | memoryFail => exact .inl (List.prefix_nil.1 hl)
  | file hsize he h =>
    obtain ⟨w'', k1, rfl⟩ := tokenset_part h l hl
    exact .inr (.file hsize he k1)
  | fileFail => exact .inl (List.prefix_nil.1 hl)

theorem increasing_after (hm : MachineOk m) {n : Option Nat} {size : Nat} (hsize : 0 < size)
    {ts : Option TokenSet} {env : Env} {st : TokenStats} {w : World} (h : size < file.length)
    (hs : sampleEnv m file size n = .ok env)
    (hb : ∀ t, ts = some t → ∃ st, TokenizeFile t env.sampler n m.nthreads st)
    (hi : GoodInput ty p ntokens ts) (ho : OptimizeTokenset env ntokens p ty ts (.ok st) w) :
    ∃ r saved', Increasing m file ntokens p ty n size ts r saved' ∧ w.saved <+: saved' := by
  obtain ⟨env', h1, h2, _⟩ := sampleEnv_ok hm file size n
  have := Except.ok.inj (h1.symm.trans hs)
  subst this
  obtain ⟨st', e, _, hw⟩ := optimize_good h2 hi ho
  obtain rfl := Except.ok.inj e
  have hu := Tokens.Family.usable hw.family
  obtain ⟨r, hr⟩ := tokenized_exists hm file hu.accepted hu.inRange n
  cases r with
  | error e => exact ⟨_, _, .full h hs hb ho hr, List.prefix_refl _⟩
  | ok full =>
    by_cases hstop : size > 1 <<< 24 ∧ closeEnough st full = true
    · exact ⟨_, _, .stop h hs hb ho hr hstop, List.prefix_refl _⟩
    · obtain ⟨r, saved, hr'⟩ := Props.C40_terminates m hm file ntokens p ty n (size * 2) (by omega)
        (some st.tokenSet) hw
      exact ⟨_, _, .again h hs hb ho hr hstop hr', List.prefix_append _ _⟩

theorem partIncreasing_complete (hm : MachineOk m) {n : Option Nat} {size : Nat} {ts : Option TokenSet}
    {saved : List (Text × Text)} (h : PartIncreasing m file ntokens p ty n size ts saved) :
    0 < size → GoodInput ty p ntokens ts →
      ∃ r saved', Increasing m file ntokens p ty n size ts r saved' ∧ saved <+: saved' := by
  induction h with
  | @head size ts =>
    intro hsize hi
    obtain ⟨r, saved, h⟩ := Props.C40_terminates m hm file ntokens p ty n size hsize ts hi
    exact ⟨r, saved, h, List.nil_prefix⟩
  | @optimize size ts env w h hs hb ho =>
    intro hsize hi
    obtain ⟨env', h1, h2, _⟩ := sampleEnv_ok hm file size n
    have := Except.ok.inj (h1.symm.trans hs)
    subst this
    obtain ⟨st, w', k1, k2⟩ := Props.C37_no_dead_end _ h2 ty p ntokens ts hi w ho
    obtain ⟨r, saved', k3, k4⟩ := increasing_after hm hsize h hs hb hi k1
    exact ⟨r, saved', k3, k2.trans k4⟩
  | @after size ts env st w h hs hb ho =>
    intro hsize hi
    exact increasing_after hm hsize h hs hb hi ho
  | @again size ts env st w st' saved h hs hb ho hf hstop hr ih =>
    intro hsize hi
    obtain ⟨env', h1, h2, _⟩ := sampleEnv_ok hm file size n
    have := Except.ok.inj (h1.symm.trans hs)
    subst this
    obtain ⟨st1, e, _, hw⟩ := optimize_good h2 hi ho
    obtain rfl := Except.ok.inj e
    obtain ⟨r, saved', k1, k2⟩ := ih (by omega) hw
    exact ⟨r, _, .again h hs hb ho hf hstop k1, (List.prefix_append_right_inj _).2 k2⟩

theorem optimized_total (hm : MachineOk m) (rawSize : Nat) {input : Option TokenSet}
    (hi : GoodInput ty p ntokens input) (minSize : Option Nat) (h0 : minSize ≠ some 0) :
    ∃ r saved, Optimized m file ntokens p ty rawSize input minSize r saved := by
  cases minSize with
  | some size =>
    have : 0 < size := Nat.pos_of_ne_zero fun h => h0 (by rw [h])
    obtain ⟨r, saved, h⟩ := Props.C40_terminates m hm file ntokens p ty (some rawSize) size this input hi
    exact ⟨r, saved, .increasing h⟩
  | none =>
    by_cases hsize : rawSize < 1 <<< 34
    · obtain ⟨env, h1, h2, _⟩ := memoryEnv_ok hm file (some rawSize)
      obtain ⟨st, w, ho⟩ := optimize_exists h2 hi
      exact ⟨_, _, .memory hsize h1 ho⟩
    · cases he : fileSampler file (1 <<< 24) (fun _ => 1 <<< 24) with
      | error e => exact ⟨_, _, .fileFail hsize he⟩
      | ok sd =>
        obtain ⟨st, w, ho⟩ := optimize_exists (env := ⟨sd, some rawSize, m.nthreads⟩)
          ⟨hm.threads, .inr (fileSampler_facts he).2.1⟩ hi
        exact ⟨_, _, .file hsize he ho⟩

theorem partOptimized_complete (hm : MachineOk m) {rawSize : Nat} {input : Option TokenSet}
    (hi : GoodInput ty p ntokens input) {minSize : Option Nat} (h0 : minSize ≠ some 0)
    {saved : List (Text × Text)} (h : PartOptimized m file ntokens p ty rawSize input minSize saved) :
    ∃ r saved', Optimized m file ntokens p ty rawSize input minSize r saved' ∧ saved <+: saved' := by
  cases h with
  | @increasing size _ h =>
    have : 0 < size := Nat.pos_of_ne_zero fun h => h0 (by rw [h])
    obtain ⟨r, saved', k1, k2⟩ := partIncreasing_complete hm h this hi
    exact ⟨r, saved', .increasing k1, k2⟩
  | memory hsize he h =>
    obtain ⟨env, h1, h2, _⟩ := memoryEnv_ok hm file (some rawSize)
    have := Except.ok.inj (h1.symm.trans he)
    subst this
    obtain ⟨st, w', k1, k2⟩ := Props.C37_no_dead_end _ h2 ty p ntokens input hi _ h
    exact ⟨_, _, .memory hsize he k1, k2⟩
  | file hsize he h =>
    obtain ⟨st, w', k1, k2⟩ := Props.C37_no_dead_end _
      ⟨hm.threads, .inr (fileSampler_facts he).2.1⟩ ty p ntokens input hi _ h
    exact ⟨_, _, .file hsize he k1, k2⟩

end Rounds

namespace Disk

theorem takeWhile_all {β : Type} {q : β → Bool} : ∀ {l : List β}, (∀ x ∈ l, q x = true) → l.takeWhile q = l
  | [], _ => rfl
  | x :: l, h => by
    rw [List.takeWhile_cons, if_pos (h x (.head _)), takeWhile_all fun y hy => h y (.tail _ hy)]

theorem attempt_snd (d : Files) (ws : List (Text × Bytes)) (r : R Unit) :
    (attempt d ws r).2 = ws.takeWhile (fun w => d.creatable w.1) := by
  unfold attempt
  split
  · rename_i h
    exact (takeWhile_all (fun w hw => List.all_eq_true.1 h w hw)).symm
  · rfl

theorem takeWhile_mono {β : Type} {q : β → Bool} {a b : List β} (h : a <+: b) : a.takeWhile q <+: b.takeWhile q := by
  obtain ⟨c, rfl⟩ := h
  induction a with
  | nil => exact List.nil_prefix
  | cons x a ih =>
    rw [List.cons_append, List.takeWhile_cons, List.takeWhile_cons]
    split
    · exact List.prefix_cons_inj _ |>.2 ih
    · exact List.nil_prefix

theorem takeWhile_holds {β : Type} {q : β → Bool} : ∀ {l : List β} {x : β}, x ∈ l.takeWhile q → q x = true
  | y :: l, x, h => by
    rw [List.takeWhile_cons] at h
    split at h
    · rename_i hy
      rcases List.mem_cons.1 h with rfl | h
      · exact hy
      · exact takeWhile_holds h
    · cases h

theorem takeWhile_prefix_self {β : Type} {q : β → Bool} {a b : List β} (h : a <+: b.takeWhile q) : a.takeWhile q = a := by
  refine takeWhile_all fun x hx => ?_
  have := h.subset hx
  exact takeWhile_holds this

theorem inDir_prefix {dir : Text} {a b : List (Text × Text)} (h : a <+: b) : inDir dir a <+: inDir dir b :=
  h.map _

end Disk
end Tokens
