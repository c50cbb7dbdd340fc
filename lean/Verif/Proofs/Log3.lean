import Verif.Proofs.Log2
import Verif.Spec.Log

/-! The console output of the whole loop. -/

set_option linter.unusedSimpArgs false
set_option linter.unusedVariables false

namespace Tokens
open Spec TokenSet Batch OptimizeBytes

namespace Optimize

variable {env : Env} {S : TokenSet → Prop} {bo : BytesOptimizer} {Fam : TokenSet → Prop}
  {lo hi ntokens : Nat}

/-- The output of the loop. -/
inductive Story (env : Env) (bo : BytesOptimizer) (Fam : TokenSet → Prop) (hi ntokens : Nat) :
    TokenSet → Removals → TokenSet → List Printed → Prop where
  | stop {ts rc rc' out} (h : RoundOut env bo Fam hi ntokens ts rc none rc' out) :
      Story env bo Fam hi ntokens ts rc ts out
  | again {ts rc st rc' o1 o2 ts' o3} (h : RoundOut env bo Fam hi ntokens ts rc (some st) rc' o1)
      (h2 : o2 = [] ∨ o2 = [.writing st.tokenSet]) (hset : Fam st.tokenSet ∧ st.tokenSet.tokens.length ≤ ntokens)
      (hl : Story env bo Fam hi ntokens st.tokenSet rc' ts' o3) :
      Story env bo Fam hi ntokens ts rc ts' (o1 ++ o2 ++ o3)

theorem roundOut_changed {ts rc st rc' out} (h : RoundOut env bo Fam hi ntokens ts rc (some st) rc' out) :
    ∃ a, Changed env bo Fam hi ntokens ts a st := by
  cases h with
  | change h _ => exact ⟨_, h⟩
  | exchange _ _ h _ => exact ⟨_, h⟩

theorem changed_next (B : Behaves bo Fam lo hi ntokens) {ts a st} (h : Changed env bo Fam hi ntokens ts a st) :
    Better env bo Fam hi ntokens ts st.tokenSet ∧ st.tokenSet.sort = .ok st.tokenSet ∧
      SameSet st.tokenSet a ∧ tot env st.tokenSet = st.totalTokens ∧ tot env a = st.totalTokens := by
  obtain ⟨full, hfr, rfl⟩ := h.fresh
  have h1 := fresh_sorted B h.better.fam hfr
  have h2 := fresh_facts B h.better.fam hfr
  exact ⟨(better_sorted B h.better hfr : Better env bo Fam hi ntokens ts full.tokenSet), h1.1, h2.2.1,
    (h1.2.1.trans (fresh_tot hfr) : tot env full.tokenSet = full.totalTokens),
    (fresh_tot hfr : tot env a = full.totalTokens)⟩

theorem loopT_story (B : Behaves bo Fam lo hi ntokens) (he : EnvOk env) {ts rc w r w' out}
    (h : LoopT env bo ntokens ts rc w r w' out) : LoopSet Fam ntokens ts → WorldOk env w →
    ∃ ts', r = .ok ts' ∧ Story env bo Fam hi ntokens ts rc ts' out := by
  induction h with
  | stop hs =>
    intro hl hw
    obtain ⟨⟨o, rc', e, st, h1, h2⟩, _, _⟩ :=
      talk_sound (S := fun _ => False) he hs (talk_step B hl.fam hl.size _) hw
    have e := Except.ok.inj e
    simp only [Prod.mk.injEq] at e
    obtain ⟨e1, e2⟩ := e
    subst e1 e2
    cases st with
    | none => exact ⟨_, rfl, .stop h1⟩
    | some st => simp at h2
  | fail hs =>
    intro hl hw
    obtain ⟨⟨o, rc', e, _⟩, _, _⟩ :=
      talk_sound (S := fun _ => False) he hs (talk_step B hl.fam hl.size _) hw
    cases e
  | again hs hsave _ ih =>
    intro hl hw
    obtain ⟨⟨o, rc', e, st, h1, h2⟩, hw1, _⟩ :=
      talk_sound (S := fun _ => False) he hs (talk_step B hl.fam hl.size _) hw
    have e := Except.ok.inj e
    simp only [Prod.mk.injEq] at e
    obtain ⟨e1, e2⟩ := e
    subst e1 e2
    cases st with
    | none => simp at h2
    | some st =>
      simp only [Option.map_some, Option.some.injEq] at h2
      subst h2
      obtain ⟨a, hc⟩ := roundOut_changed h1
      have hn := (changed_next B hc).1
      have hl' : LoopSet Fam ntokens st.tokenSet := ⟨hn.fam, hn.size⟩
      obtain ⟨⟨_, h3⟩, hw2, _⟩ := talk_sound (S := fun _ => True) he hsave
        (talk_maybeSave trivial (Tokens.Family.usable (B.family hl'.fam)).inRange) hw1
      obtain ⟨ts', e, h4⟩ := ih hl' hw2
      exact ⟨ts', e, .again h1 h3 ⟨hl'.fam, hl'.size⟩ h4⟩
  | saveFail hs hsave =>
    intro hl hw
    obtain ⟨⟨o, rc', e, st, h1, h2⟩, hw1, _⟩ :=
      talk_sound (S := fun _ => False) he hs (talk_step B hl.fam hl.size _) hw
    have e := Except.ok.inj e
    simp only [Prod.mk.injEq] at e
    obtain ⟨e1, e2⟩ := e
    subst e1 e2
    cases st with
    | none => simp at h2
    | some st =>
      simp only [Option.map_some, Option.some.injEq] at h2
      subst h2
      obtain ⟨a, hc⟩ := roundOut_changed h1
      have hn := (changed_next B hc).1
      obtain ⟨⟨h3, _⟩, _⟩ := talk_sound (S := fun _ => True) he hsave
        (talk_maybeSave trivial (Tokens.Family.usable (B.family hn.fam)).inRange) hw1
      cases h3

/-! ### Following the exchanges -/

theorem follow_append (S : Token → Prop) (l m : List Printed) :
    follow S (l ++ m) = follow (follow S l) m := by
  induction l generalizing S with
  | nil => rfl
  | cons e l ih => cases e <;> exact ih _

theorem follow_tried (S : Token → Prop) (l : List Bytes) : follow S (l.map .tried) = S := by
  induction l with
  | nil => rfl
  | cons s l ih => exact ih

theorem follow_congr {S T : Token → Prop} (h : ∀ t, S t ↔ T t) (l : List Printed) (t : Token) :
    follow S l t ↔ follow T l t := by
  have : S = T := funext fun t => propext (h t)
  rw [this]

theorem follow_change {S : Token → Prop} {a b : TokenSet} (h : ∀ t, S t ↔ t ∈ a.tokens) (t : Token) :
    ((S t ∧ ¬ (t ∈ a.tokens ∧ t ∉ b.tokens)) ∨ (t ∈ b.tokens ∧ t ∉ a.tokens)) ↔ t ∈ b.tokens := by
  rw [h t]; tauto

theorem roundOut_follow (B : Behaves bo Fam lo hi ntokens) {ts rc st rc' out} {S : Token → Prop}
    (h : RoundOut env bo Fam hi ntokens ts rc st rc' out) (hS : ∀ t, S t ↔ t ∈ ts.tokens) (t : Token) :
    follow S out t ↔ t ∈ ((st.map TokenStats.tokenSet).getD ts).tokens := by
  cases h with
  | quiet _ => exact hS t
  | change h _ =>
    exact (follow_change hS t).trans (changed_next B h).2.2.1.tokens.mem_iff.symm
  | gaveUp h =>
    show follow S (_ ++ _) t ↔ _
    rw [follow_append, follow_tried]
    exact hS t
  | exchange _ _ h _ =>
    show follow S (_ ++ _) t ↔ _
    rw [follow_append, follow_tried]
    exact (follow_change hS t).trans (changed_next B h).2.2.1.tokens.mem_iff.symm

theorem follow_saved {S : Token → Prop} {o : List Printed} {ts : TokenSet} (h : o = [] ∨ o = [.writing ts]) :
    follow S o = S := by
  rcases h with rfl | rfl <;> rfl

theorem story_follow (B : Behaves bo Fam lo hi ntokens) {ts rc ts' out}
    (h : Story env bo Fam hi ntokens ts rc ts' out) : ∀ {S : Token → Prop}, (∀ t, S t ↔ t ∈ ts.tokens) →
    ∀ t, follow S out t ↔ t ∈ ts'.tokens := by
  induction h with
  | stop h => intro S hS t; exact roundOut_follow B h hS t
  | again h h2 _ _ ih =>
    intro S hS t
    rw [follow_append, follow_append, follow_saved h2]
    exact ih (roundOut_follow B h hS) t

/-! ### Rates -/

theorem rates_append (l m : List Printed) : rates (l ++ m) = rates l ++ rates m := by
  induction l with
  | nil => rfl
  | cons e l ih => cases e <;> simp [rates, ih]

theorem rates_tried (l : List Bytes) : rates (l.map .tried) = [] := by
  induction l with
  | nil => rfl
  | cons s l ih => exact ih

theorem rates_saved {o : List Printed} {ts : TokenSet} (h : o = [] ∨ o = [.writing ts]) : rates o = [] := by
  rcases h with rfl | rfl <;> rfl

theorem roundOut_rates {ts rc st rc' out} (h : RoundOut env bo Fam hi ntokens ts rc st rc' out) :
    rates out = st.toList := by
  cases h with
  | quiet _ => rfl
  | change _ _ => rfl
  | gaveUp _ =>
    show rates (_ ++ _) = _
    rw [rates_append, rates_tried]; rfl
  | exchange _ _ _ _ =>
    show rates (_ ++ _) = _
    rw [rates_append, rates_tried]; rfl

theorem roundOut_less {ts rc st rc' out} (B : Behaves bo Fam lo hi ntokens)
    (h : RoundOut env bo Fam hi ntokens ts rc (some st) rc' out)
    (hn : ts.tokens.length = ntokens) : st.totalTokens < tot env ts ∧ st.tokenSet.tokens.length = ntokens := by
  obtain ⟨a, hc⟩ := roundOut_changed h
  have hx := changed_next B hc
  have hlen : st.tokenSet.tokens.length = ntokens := by
    have h1 := hx.1.size
    rcases hx.1.progress with ⟨_, h⟩ | h <;> omega
  refine ⟨?_, hlen⟩
  cases h with
  | change h hs => rw [← (changed_next B h).2.2.2.2]; exact hs hn
  | exchange _ _ h hs => rw [← (changed_next B h).2.2.2.2]; exact hs

theorem story_rates (B : Behaves bo Fam lo hi ntokens) {ts rc ts' out}
    (h : Story env bo Fam hi ntokens ts rc ts' out) :
    (ts.tokens.length = ntokens → ∀ st ∈ rates out, st.totalTokens < tot env ts) ∧
    (rates out).Pairwise (fun st st' => st.tokenSet.tokens.length = ntokens → st'.totalTokens < st.totalTokens) ∧
    (rates out).getLast?.map TokenStats.totalTokens = if rates out = [] then none else some (tot env ts') := by
  induction h with
  | stop h =>
    have := roundOut_rates h
    rw [this]
    simp
  | @again ts rc st rc' o1 o2 ts' o3 h h2 _ hl ih =>
    have e : rates (o1 ++ o2 ++ o3) = st :: rates o3 := by
      rw [rates_append, rates_append, roundOut_rates h, rates_saved h2]; rfl
    obtain ⟨i1, i2, i3⟩ := ih
    obtain ⟨a, hc⟩ := roundOut_changed h
    have hx := changed_next B hc
    rw [e]
    refine ⟨?_, ?_, ?_⟩
    · intro hn x hx'
      obtain ⟨g1, g2⟩ := roundOut_less B h hn
      rcases List.mem_cons.1 hx' with rfl | hx'
      · exact g1
      · have := i1 g2 x hx'
        have := hx.2.2.2.1
        omega
    · refine List.pairwise_cons.2 ⟨?_, i2⟩
      intro x hx' hn
      have := i1 hn x hx'
      have := hx.2.2.2.1
      omega
    · rw [if_neg (by simp)]
      by_cases h0 : rates o3 = []
      · rw [h0]
        cases hl with
        | stop h => simp [hx.2.2.2.1]
        | again h h2 _ hl =>
          exfalso
          rw [rates_append, rates_append, roundOut_rates h] at h0
          simp at h0
      · rw [if_neg h0] at i3
        rw [List.getLast?_cons]
        cases hg : (rates o3).getLast? with
        | none => rw [hg] at i3; cases i3
        | some x => rw [hg] at i3; simpa using i3

/-- Every exchange is followed by its rate. -/
def Rated (P : TokenSet → TokenSet → TokenStats → Prop) : List Printed → Prop
  | [] => True
  | .change a b :: l => (∃ st l', l = .rate st :: l' ∧ P a b st) ∧ Rated P l
  | .rate _ :: l => Rated P l
  | .initial _ _ :: l => Rated P l
  | .removing :: l => Rated P l
  | .tried _ :: l => Rated P l
  | .newline :: l => Rated P l
  | .writing _ :: l => Rated P l

theorem rated_append {P : TokenSet → TokenSet → TokenStats → Prop} {l m : List Printed} (h1 : Rated P l)
    (h2 : Rated P m) : Rated P (l ++ m) := by
  induction l with
  | nil => exact h2
  | cons e l ih =>
    cases e with
    | change a b =>
      obtain ⟨⟨st, l', rfl, hp⟩, h1⟩ := h1
      exact ⟨⟨st, l' ++ m, rfl, hp⟩, ih h1⟩
    | _ => exact ih h1

theorem rated_tried {P : TokenSet → TokenSet → TokenStats → Prop} (l : List Bytes) : Rated P (l.map .tried) := by
  induction l with
  | nil => trivial
  | cons s l ih => exact ih

theorem rated_at {P : TokenSet → TokenSet → TokenStats → Prop} {u v : List Printed} {a b : TokenSet}
    (h : Rated P (u ++ .change a b :: v)) : ∃ st v', v = .rate st :: v' ∧ P a b st := by
  induction u with
  | nil => exact h.1
  | cons e u ih =>
    cases e with
    | change a b => exact ih h.2
    | _ => exact ih h

/-- What is known of an exchange. -/
def Exchanged (env : Env) (ntokens : Nat) (a b : TokenSet) (st : TokenStats) : Prop :=
  (∃ full, Fresh env b full ∧ st = full.cloneWithoutPairs) ∧
  (b.tokens.length = a.tokens.length + 1 ∨
    (st.totalTokens < tot env a ∧ a.tokens.length ≤ b.tokens.length)) ∧
  b.tokens.length ≤ ntokens ∧ (a.tokens.length = ntokens → st.totalTokens < tot env a)

theorem changed_exchanged (B : Behaves bo Fam lo hi ntokens) {ts a st} (h : Changed env bo Fam hi ntokens ts a st)
    (hs : ts.tokens.length = ntokens → tot env a < tot env ts) : Exchanged env ntokens ts a st := by
  have hx := (changed_next B h).2.2.2.2
  refine ⟨h.fresh, ?_, h.better.size, fun hn => by rw [← hx]; exact hs hn⟩
  rcases h.better.progress with ⟨h1, h2⟩ | h1
  · exact .inr ⟨by omega, h2⟩
  · exact .inl h1

theorem roundOut_rated (B : Behaves bo Fam lo hi ntokens) {ts rc st rc' out}
    (h : RoundOut env bo Fam hi ntokens ts rc st rc' out) : Rated (Exchanged env ntokens) out := by
  cases h with
  | quiet _ => trivial
  | change h hs => exact ⟨⟨_, _, rfl, changed_exchanged B h hs⟩, trivial⟩
  | gaveUp _ => exact rated_append (rated_tried _) trivial
  | exchange _ _ h hs =>
    exact rated_append (rated_tried _) ⟨⟨_, _, rfl, changed_exchanged B h (fun _ => hs)⟩, trivial⟩

theorem story_rated (B : Behaves bo Fam lo hi ntokens) {ts rc ts' out}
    (h : Story env bo Fam hi ntokens ts rc ts' out) : Rated (Exchanged env ntokens) out := by
  induction h with
  | stop h => exact roundOut_rated B h
  | again h h2 _ _ ih =>
    refine rated_append (rated_append (roundOut_rated B h) ?_) ih
    rcases h2 with rfl | rfl <;> trivial

/-! ### Attempts -/

theorem tries_append (l m : List Printed) : tries (l ++ m) = tries l ++ tries m := by
  induction l with
  | nil => rfl
  | cons e l ih => cases e <;> simp [tries, ih]

theorem tries_tried (l : List Bytes) : tries (l.map .tried) = l := by
  induction l with
  | nil => rfl
  | cons s l ih => exact congrArg (s :: ·) ih

theorem tried_split {l m : List Bytes} {x y : List Printed}
    (h : l.map Printed.tried ++ .newline :: x = m.map Printed.tried ++ .newline :: y) : l = m ∧ x = y := by
  induction l generalizing m with
  | nil =>
    cases m with
    | nil => simpa using h
    | cons s m => simp at h
  | cons s l ih =>
    cases m with
    | nil => simp at h
    | cons s' m =>
      simp only [List.map_cons, List.cons_append, List.cons.injEq, Printed.tried.injEq] at h
      obtain ⟨rfl, h⟩ := h
      obtain ⟨rfl, rfl⟩ := ih h
      exact ⟨rfl, rfl⟩

theorem removing_not_tried (l : List Bytes) : Printed.removing ∉ l.map Printed.tried := by simp

/-- Where the attempts of a round are in its output. -/
theorem roundOut_attempts {ts rc st rc' out pre tr post}
    (h : RoundOut env bo Fam hi ntokens ts rc st rc' out)
    (e : out = pre ++ .removing :: (tr.map .tried ++ .newline :: post)) :
    pre = [] ∧ ∃ rest, Attempts ts ntokens rc (tr ++ rest) ∧
      ((st = none ∧ rest = [] ∧ post = []) ∨ ∃ a s, st = some s ∧ post = [.change ts a, .rate s]) := by
  have one : ∀ (x : List Printed) y, Printed.removing ∉ x → .removing :: x = pre ++ .removing :: y → pre = [] := by
    intro x y hx e
    cases pre with
    | nil => rfl
    | cons p pre =>
      rw [List.cons_append, List.cons.injEq] at e
      exact absurd (by rw [e.2]; simp) hx
  cases h with
  | quiet _ => simp at e
  | change h _ =>
    have : Printed.removing ∈ ([.change ts ‹_›, .rate ‹_›] : List Printed) := by rw [e]; simp
    simp at this
  | gaveUp h =>
    have hp := one _ _ (by simp) e
    subst hp
    obtain ⟨h1, h2⟩ := tried_split (List.cons.inj e).2
    subst h1 h2
    exact ⟨rfl, [], by rw [List.append_nil]; exact h, .inl ⟨rfl, rfl, rfl⟩⟩
  | exchange h hne hc hs =>
    have hp := one _ _ (by simp) e
    subst hp
    obtain ⟨h1, h2⟩ := tried_split (List.cons.inj e).2
    subst h1 h2
    exact ⟨rfl, _, h, .inr ⟨_, _, rfl, rfl⟩⟩

theorem roundOut_tries {ts rc st rc' out} (h : RoundOut env bo Fam hi ntokens ts rc st rc' out) :
    rc' = rc.bumps (tries out) := by
  cases h with
  | quiet _ => exact (bumps_nil rc).symm
  | change _ _ => exact (bumps_nil rc).symm
  | gaveUp _ =>
    show _ = rc.bumps (tries (_ ++ _))
    rw [tries_append, tries_tried]; simp [tries]
  | exchange _ _ _ _ =>
    show _ = rc.bumps (tries (_ ++ _))
    rw [tries_append, tries_tried]; simp [tries]

theorem bumps_append (rc : Removals) (l m : List Bytes) : (rc.bumps l).bumps m = rc.bumps (l ++ m) := by
  funext x
  simp [Removals.bumps, Nat.add_assoc]

theorem removing_later {L o3 pre Y : List Printed} (h : Printed.removing ∉ L)
    (e : L ++ o3 = pre ++ .removing :: Y) : ∃ pre', pre = L ++ pre' ∧ o3 = pre' ++ .removing :: Y := by
  induction L generalizing pre with
  | nil => exact ⟨pre, rfl, e⟩
  | cons x L ih =>
    cases pre with
    | nil =>
      rw [List.cons_append, List.nil_append, List.cons.injEq] at e
      exact absurd (by rw [e.1]; simp) h
    | cons y pre =>
      rw [List.cons_append, List.cons_append, List.cons.injEq] at e
      obtain ⟨rfl, e⟩ := e
      obtain ⟨pre', rfl, h2⟩ := ih (fun hm => h (by simp [hm])) e
      exact ⟨pre', rfl, h2⟩

theorem story_attempts (B : Behaves bo Fam lo hi ntokens) {ts rc ts' out}
    (h : Story env bo Fam hi ntokens ts rc ts' out) : ∀ {S : Token → Prop}, (∀ t, S t ↔ t ∈ ts.tokens) →
    ∀ {pre tr post}, out = pre ++ .removing :: (tr.map .tried ++ .newline :: post) →
    ∃ c rest, (∀ t, t ∈ c.tokens ↔ follow S pre t) ∧ Attempts c ntokens (rc.bumps (tries pre)) (tr ++ rest) ∧
      ((rest = [] ∧ post = [] ∧ c = ts') ∨ ∃ a s post', post = .change c a :: .rate s :: post') := by
  induction h with
  | stop h =>
    intro S hS pre tr post e
    obtain ⟨rfl, rest, h1, h2⟩ := roundOut_attempts h e
    refine ⟨_, rest, fun t => (hS t).symm, by rw [show tries [] = [] from rfl, bumps_nil]; exact h1, ?_⟩
    rcases h2 with ⟨_, h2, h3⟩ | ⟨a, s, h2, _⟩
    · exact .inl ⟨h2, h3, rfl⟩
    · cases h2
  | @again ts rc st rc' o1 o2 ts' o3 h h2 _ hl ih =>
    intro S hS pre tr post e
    have ho : tries o2 = [] := by rcases h2 with rfl | rfl <;> rfl
    have later : ∀ pre', pre = o1 ++ o2 ++ pre' → o3 = pre' ++ .removing :: (tr.map .tried ++ .newline :: post) →
        ∃ c rest, (∀ t, t ∈ c.tokens ↔ follow S pre t) ∧ Attempts c ntokens (rc.bumps (tries pre)) (tr ++ rest) ∧
          ((rest = [] ∧ post = [] ∧ c = ts') ∨ ∃ a s post', post = .change c a :: .rate s :: post') := by
      rintro pre' rfl e'
      obtain ⟨c, rest, g1, g2, g3⟩ := ih (roundOut_follow B h hS) e'
      refine ⟨c, rest, ?_, ?_, g3⟩
      · intro t
        rw [g1 t, follow_append, follow_append, follow_saved h2]
      · rw [tries_append, tries_append, ho, List.append_nil, ← bumps_append, ← roundOut_tries h]
        exact g2
    have hno : Printed.removing ∉ o2 := by rcases h2 with rfl | rfl <;> simp
    cases h with
    | change hc hs =>
      obtain ⟨pre', h3, h4⟩ := removing_later (by simpa using hno) e
      exact later pre' h3 h4
    | @exchange tr0 rest0 a _ hat hne hc hs =>
      cases pre with
      | nil =>
        simp only [List.cons_append, List.nil_append, List.append_assoc, List.cons.injEq, true_and] at e
        obtain ⟨rfl, rfl⟩ := tried_split e
        refine ⟨ts, rest0, fun t => (hS t).symm, by rw [show tries [] = [] from rfl, bumps_nil]; exact hat,
          .inr ⟨_, _, _, rfl⟩⟩
      | cons p pre =>
        simp only [List.cons_append, List.cons.injEq] at e
        obtain ⟨rfl, e⟩ := e
        obtain ⟨pre', h3, h4⟩ := removing_later (by simpa using hno) e
        exact later pre' (by rw [h3]; rfl) h4

theorem story_end (B : Behaves bo Fam lo hi ntokens) {ts rc ts' out}
    (h : Story env bo Fam hi ntokens ts rc ts' out) (hn : ts'.tokens.length = ntokens) :
    ∃ (order : List Bytes) (pre : List Printed), order.Perm (longTokens ts') ∧ out = pre ++ .removing :: (order.map .tried ++ [.newline]) := by
  induction h with
  | stop h =>
    cases h with
    | quiet h => omega
    | gaveUp h => exact ⟨_, [], h.perm, rfl⟩
  | @again ts rc st rc' o1 o2 ts' o3 h h2 _ _ ih =>
    obtain ⟨order, pre, h3, h4⟩ := ih hn
    exact ⟨order, (o1 ++ o2) ++ pre, h3, by rw [h4, List.append_assoc (o1 ++ o2)]⟩

theorem story_blocks {ts rc ts' out} (h : Story env bo Fam hi ntokens ts rc ts' out) : Blocks out := by
  have round : ∀ {ts rc st rc' o l}, RoundOut env bo Fam hi ntokens ts rc st rc' o → Blocks l → Blocks (o ++ l) := by
    intro ts rc st rc' o l h hl
    cases h with
    | quiet _ => exact hl
    | change _ _ => exact .change (.rate hl)
    | gaveUp _ =>
      rw [List.cons_append, List.append_assoc]
      exact .removing hl
    | exchange _ _ _ _ =>
      rw [List.cons_append, List.append_assoc]
      exact .removing (.change (.rate hl))
  induction h with
  | stop h => have := round h .nil; rwa [List.append_nil] at this
  | again h h2 _ _ ih =>
    rw [List.append_assoc]
    refine round h ?_
    rcases h2 with rfl | rfl
    · exact ih
    · exact .writing ih

end Optimize
end Tokens
