import Verif.Proofs.Log5

/-!
# Properties C111–C113: the console output of the optimizer

Read together with `Verif/Model/Log.lean` (what is printed, and where), `Verif/Spec/Log.lean` (what the
output is read for) and `Verif/Props/Optimum.lean` (`CanStart`).
-/

namespace Tokens.Props
open Tokens Spec TokenSet Batch OptimizeBytes Optimize

/-! ## C111 the output can be replayed -/

/-- **C111**.  Printing changes nothing: the outcomes and the files are those of the optimizer that all other
properties are about. -/
theorem C111_same_runs (env : Env) (ntokens : Nat) (p : Processing) (ty : TokenType) (pre : Option TokenSet)
    (r : R TokenStats) (w : World) :
    (∃ out, OptimizeTokensetT env ntokens p ty pre r w out) ↔ OptimizeTokenset env ntokens p ty pre r w :=
  optimizeT_iff

/-- **C111**.  Whoever starts with the tokens of the first set and follows the printed exchanges arrives at
the tokens of the set that is returned. -/
theorem C111_replay (env : Env) (he : EnvOk env) (ty : TokenType) (p : Processing) (ntokens : Nat)
    (pre : Option TokenSet) (hp : CanStart ty p ntokens pre) (st : TokenStats) (w : World) (out : List Printed)
    (h : OptimizeTokensetT env ntokens p ty pre (.ok st) w out) :
    ∃ start, StartsWith env ntokens p ty pre start ∧
      ∀ t, t ∈ st.tokenSet.tokens ↔ follow (· ∈ start.tokens) out t := by
  obtain ⟨start, full, Fam, lo, hi, ts', o, h1, h2, B, h3, h4, rfl, h5, h6, h7⟩ := told he hp h
  refine ⟨start, h1, fun t => ?_⟩
  show _ ↔ follow _ o t
  rw [story_follow B h5 (fun _ => Iff.rfl) t]
  exact h6.tokens.mem_iff

/-- **C111**.  Each printed exchange is one between the set that the reader has at this point and the next
one: it takes away only tokens that are there and adds only tokens that are not. -/
theorem C111_exchanges (env : Env) (he : EnvOk env) (ty : TokenType) (p : Processing) (ntokens : Nat)
    (pre : Option TokenSet) (hp : CanStart ty p ntokens pre) (st : TokenStats) (w : World) (out : List Printed)
    (h : OptimizeTokensetT env ntokens p ty pre (.ok st) w out) :
    ∃ start, StartsWith env ntokens p ty pre start ∧
      ∀ u a b v, out = u ++ .change a b :: v → ∀ t, t ∈ a.tokens ↔ follow (· ∈ start.tokens) u t := by
  obtain ⟨start, full, Fam, lo, hi, ts', o, h1, h2, B, h3, h4, rfl, h5, h6, h7⟩ := told he hp h
  refine ⟨start, h1, fun u a b v e t => ?_⟩
  cases u with
  | nil => simp at e
  | cons x u =>
    rw [List.cons_append, List.cons.injEq] at e
    obtain ⟨rfl, rfl⟩ := e
    exact (linked_at (story_linked B h5 (fun _ => Iff.rfl)) t).symm

/-- **C111**, for the text on the console.  The lines that show exchanges (they begin with a space, a
quotation mark, a bracket or a digit, and no other lines do) show, left of an arrow, tokens to take away and,
right of it, tokens to add; doing so, from the tokens of the first set on, gives the tokens of the result.
By C75 the tokens can be read from such a line. -/
theorem C111_console (sty : Style) (hsty : OneLine sty) (env : Env) (he : EnvOk env) (ty : TokenType)
    (p : Processing) (ntokens : Nat) (pre : Option TokenSet) (hp : CanStart ty p ntokens pre) (st : TokenStats)
    (w : World) (out : List Printed) (h : OptimizeTokensetT env ntokens p ty pre (.ok st) w out)
    (text : Text) (ht : Console sty out text) :
    ∃ start ex, StartsWith env ntokens p ty pre start ∧
      (fullLines [] text).filter showsExchange = ex.map (exchangeLine sty.plain) ∧
      ∀ t, t ∈ st.tokenSet.tokens ↔ exchanged (· ∈ start.tokens) ex t := by
  obtain ⟨start, full, Fam, lo, hi, ts', o, h1, h2, B, h3, h4, rfl, h5, h6, h7⟩ := told he hp h
  obtain ⟨ex, e, hx⟩ := exchanged_lines (S := (· ∈ start.tokens)) _
    (exchange_lines hsty (.initial (story_blocks h5)) ht)
  refine ⟨start, ex, h1, e, fun t => ?_⟩
  rw [← hx t, h6.tokens.mem_iff]
  exact (story_follow B h5 (fun _ => Iff.rfl) t).symm

/-- **C111**, for the text on the console.  If two optimizations, of whatever data, types and sizes, start
with the same tokens and print the same text, then they return the same tokens: the text tells everything
that was exchanged. -/
theorem C111_text (sty : Style) (hsty : OneLine sty) (env env' : Env) (he : EnvOk env) (he' : EnvOk env')
    (ty ty' : TokenType) (p p' : Processing) (ntokens ntokens' : Nat) (pre pre' : Option TokenSet)
    (hp : CanStart ty p ntokens pre) (hp' : CanStart ty' p' ntokens' pre') (st st' : TokenStats) (w w' : World)
    (out out' : List Printed) (h : OptimizeTokensetT env ntokens p ty pre (.ok st) w out)
    (h' : OptimizeTokensetT env' ntokens' p' ty' pre' (.ok st') w' out')
    (hstart : ∀ a b, StartsWith env ntokens p ty pre a → StartsWith env' ntokens' p' ty' pre' b →
      ∀ t, t ∈ a.tokens ↔ t ∈ b.tokens)
    (text : Text) (ht : Console sty out text) (ht' : Console sty out' text) :
    ∀ t, t ∈ st.tokenSet.tokens ↔ t ∈ st'.tokenSet.tokens := by
  intro t
  obtain ⟨a, full, Fam, lo, hi, x, o, h1, h2, B, h3, h4, rfl, h5, h6, h7⟩ := told he hp h
  obtain ⟨a', full', Fam', lo', hi', x', o', h1', h2', B', h3', h4', rfl, h5', h6', h7'⟩ := told he' hp' h'
  rw [h6.tokens.mem_iff, h6'.tokens.mem_iff, ← story_follow B h5 (fun _ => Iff.rfl) t,
    ← story_follow B' h5' (fun _ => Iff.rfl) t]
  have g := exchange_lines hsty (.initial (story_blocks h5)) ht
  have g' := exchange_lines hsty (.initial (story_blocks h5')) ht'
  exact follow_exchanges o o' (hstart a a' h1 h1') g g' t

/-- A style: printable ASCII as it is, numbers as `x`, files in the directory `d`. -/
def someStyle : Style := ⟨fun c => decide (32 ≤ c.val ∧ c.val < 127), fun _ => ['x'], fun n => 'd' :: '/' :: n⟩

theorem someStyle_ok : OneLine someStyle := ⟨fun _ => (by decide : '\n' ∉ ['x']), fun x hx => by
  show '\n' ∉ 'd' :: '/' :: x
  simp only [List.mem_cons, not_or]
  exact ⟨by decide, by decide, hx⟩⟩

theorem console_exists (sty : Style) (l : List Printed) : ∃ t, Console sty l t := by
  induction l with
  | nil => exact ⟨_, .nil⟩
  | cons e l ih =>
    obtain ⟨u, hu⟩ := ih
    have : ∃ t, e.Shows sty t := by
      cases e with
      | initial n st => exact ⟨_, .initial⟩
      | change a b => exact (C75_line_determined sty.plain a b).imp' _ fun _ h => .change h.1
      | rate st => exact ⟨_, .rate⟩
      | removing => exact ⟨_, .removing⟩
      | tried s => exact ⟨_, .tried⟩
      | newline => exact ⟨_, .newline⟩
      | writing ts => exact ⟨_, .writing⟩
    obtain ⟨t, ht⟩ := this
    exact ⟨_, .cons ht hu⟩

-- a run to which they apply: 17 tokens of four-bit type, made in a first exchange
example : ∃ st w out text, CanStart .bits4 .raw 17 none ∧
    OptimizeTokensetT smallEnv 17 .raw .bits4 none (.ok st) w out ∧ Console someStyle out text ∧
    st.tokenSet.tokens.length = 17 := by
  have hc : CanStart .bits4 .raw 17 none := by show Admissible .bits4 17; unfold Admissible; omega
  obtain ⟨st, w, h⟩ := optimize_ends smallEnv smallEnv_ok .bits4 .raw 17 hc
  obtain ⟨out, ho⟩ := optimizeT_iff.2 h
  obtain ⟨text, ht⟩ := console_exists someStyle out
  exact ⟨st, w, out, text, hc, ho, ht, C49_bits_exact smallEnv smallEnv_ok .bits4 _ rfl _ _ none hc st w h⟩

/-! ## C112 the rates -/

/-- **C112**.  The first line shows the size and the rate of the set the optimizer starts from; every exchange
is followed at once by the rate of the set it leads to; an exchange adds a token or lowers the number of
output tokens, and leads to at most `ntokens` tokens; once there are `ntokens` of them every exchange lowers
the number of output tokens. -/
theorem C112_rates (env : Env) (he : EnvOk env) (ty : TokenType) (p : Processing) (ntokens : Nat)
    (pre : Option TokenSet) (hp : CanStart ty p ntokens pre) (st : TokenStats) (w : World) (out : List Printed)
    (h : OptimizeTokensetT env ntokens p ty pre (.ok st) w out) :
    (∃ start full rest, StartsWith env ntokens p ty pre start ∧ Fresh env start full ∧
      out = .initial start.tokens.length full.cloneWithoutPairs :: rest) ∧
    ∀ u a b v, out = u ++ .change a b :: v → ∃ fa fb v', Fresh env a fa ∧ Fresh env b fb ∧
      v = .rate fb.cloneWithoutPairs :: v' ∧ b.tokens.length ≤ ntokens ∧
      (b.tokens.length = a.tokens.length + 1 ∨
        (fb.totalTokens < fa.totalTokens ∧ a.tokens.length ≤ b.tokens.length)) ∧
      (a.tokens.length = ntokens → fb.totalTokens < fa.totalTokens) := by
  obtain ⟨start, full, Fam, lo, hi, ts', o, h1, h2, B, h3, h4, rfl, h5, h6, h7⟩ := told he hp h
  refine ⟨⟨start, full, o, h1, h2, rfl⟩, ?_⟩
  intro u a b v e
  cases u with
  | nil => simp at e
  | cons x u =>
    rw [List.cons_append, List.cons.injEq] at e
    obtain ⟨rfl, rfl⟩ := e
    obtain ⟨s, v', rfl, ⟨fb, hfb, rfl⟩, k2, k3, k4⟩ := rated_at (story_rated B h5)
    obtain ⟨fa, hfa⟩ := story_before B h5 h3
    rw [fresh_tot hfa] at k2 k4
    exact ⟨fa, fb, v', hfa, hfb, rfl, k3, k2, k4⟩

/-- **C112**.  Once the set has the size asked for, the number of output tokens behind the printed rates goes
strictly down, and the rates themselves, as printed floating-point numbers, never go down.  The last printed
rate is that of the result. -/
theorem C112_never_worse (env : Env) (he : EnvOk env) (ty : TokenType) (p : Processing) (ntokens : Nat)
    (pre : Option TokenSet) (hp : CanStart ty p ntokens pre) (st : TokenStats) (w : World) (out : List Printed)
    (h : OptimizeTokensetT env ntokens p ty pre (.ok st) w out) :
    (rates out).Pairwise (fun a b => a.tokenSet.tokens.length = ntokens → b.totalTokens < a.totalTokens ∧
      (Main.bytesPerToken b).lt (Main.bytesPerToken a) = false) ∧
    ∀ l a, rates out = l ++ [a] → a.totalTokens = st.totalTokens ∧ a.scannedBytes = st.scannedBytes := by
  obtain ⟨start, full, Fam, lo, hi, ts', o, h1, h2, B, h3, h4, rfl, h5, h6, h7⟩ := told he hp h
  obtain ⟨g1, g2, g3⟩ := story_rates B h5
  have hsc : ∀ a ∈ rates o, a.scannedBytes = (env.sampler.samples.map (·.length)).sum := by
    intro a ha
    obtain ⟨x, full, hf, rfl⟩ := rates_fresh h5 a ha
    exact (fresh_scanned hf : full.scannedBytes = _)
  obtain ⟨_, _, full', hf', _, hst⟩ := workable_sorted_stuck he hp (optimizeT_iff.1 ⟨_, h⟩)
  constructor
  · show (rates o).Pairwise _
    refine g2.imp_of_mem ?_
    intro a b ha hb hab hn
    exact ⟨hab hn, rate_not_lower ((hsc b hb).trans (hsc a ha).symm) (hab hn)⟩
  · intro l a e
    have e' : rates o = l ++ [a] := e
    rw [e'] at g3
    rw [if_neg (by simp)] at g3
    simp at g3
    refine ⟨g3.trans h7, ?_⟩
    rw [hsc a (by rw [e']; simp), hst]
    exact (fresh_scanned hf').symm

/-! ## C113 the attempts -/

/-- **C113**.  A line "Removing: …" appears only when the set has the size asked for.  It names tokens of two
or more bytes of this set, none twice, those first that were tried least often before; then either all of
them were named and the output ends (the set is the result), or the line is followed by an exchange. -/
theorem C113_attempts (env : Env) (he : EnvOk env) (ty : TokenType) (p : Processing) (ntokens : Nat)
    (pre : Option TokenSet) (hp : CanStart ty p ntokens pre) (st : TokenStats) (w : World) (out : List Printed)
    (h : OptimizeTokensetT env ntokens p ty pre (.ok st) w out) :
    ∃ start, StartsWith env ntokens p ty pre start ∧
      ∀ u tr v, out = u ++ .removing :: (tr.map .tried ++ .newline :: v) →
        ∃ (c : TokenSet) (rest : List Bytes), (∀ t, t ∈ c.tokens ↔ follow (· ∈ start.tokens) u t) ∧
          c.tokens.length = ntokens ∧ (tr ++ rest).Perm (longTokens c) ∧
          (tr ++ rest).Pairwise (fun a b => (tries u).count a ≤ (tries u).count b) ∧
          ((rest = [] ∧ v = [] ∧ ∀ t, t ∈ c.tokens ↔ t ∈ st.tokenSet.tokens) ∨
            ∃ a s v', v = .change c a :: .rate s :: v') := by
  obtain ⟨start, full, Fam, lo, hi, ts', o, h1, h2, B, h3, h4, rfl, h5, h6, h7⟩ := told he hp h
  refine ⟨start, h1, ?_⟩
  intro u tr v e
  cases u with
  | nil => simp at e
  | cons x u =>
    rw [List.cons_append, List.cons.injEq] at e
    obtain ⟨rfl, e⟩ := e
    obtain ⟨c, rest, k1, k2, k3⟩ := story_attempts B h5 (S := (· ∈ start.tokens)) (fun _ => Iff.rfl) e
    refine ⟨c, rest, k1, k2.full, k2.perm, ?_, ?_⟩
    · refine k2.sorted.imp ?_
      intro a b hab
      show (tries u).count a ≤ (tries u).count b
      simpa [Removals.bumps] using hab
    · rcases k3 with ⟨k3, k4, rfl⟩ | k3
      · exact .inl ⟨k3, k4, fun t => h6.tokens.mem_iff.symm⟩
      · exact .inr k3

/-- **C113**.  The output consists of whole lines; tokens are named as tried in lines that begin with
"Removing:" and nowhere else. -/
theorem C113_lines (env : Env) (he : EnvOk env) (ty : TokenType) (p : Processing) (ntokens : Nat)
    (pre : Option TokenSet) (hp : CanStart ty p ntokens pre) (st : TokenStats) (w : World) (out : List Printed)
    (h : OptimizeTokensetT env ntokens p ty pre (.ok st) w out) : Blocks out := by
  obtain ⟨start, full, Fam, lo, hi, ts', o, h1, h2, B, h3, h4, rfl, h5, h6, h7⟩ := told he hp h
  exact .initial (story_blocks h5)

/-- **C113**.  If the result has the size asked for, then the output ends with a line that names every token
of two or more bytes of the result: each of them was tried, in vain. -/
theorem C113_all_tried (env : Env) (he : EnvOk env) (ty : TokenType) (p : Processing) (ntokens : Nat)
    (pre : Option TokenSet) (hp : CanStart ty p ntokens pre) (st : TokenStats) (w : World) (out : List Printed)
    (h : OptimizeTokensetT env ntokens p ty pre (.ok st) w out) (hn : st.tokenSet.tokens.length = ntokens) :
    ∃ (u : List Printed) (tr : List Bytes), out = u ++ .removing :: (tr.map .tried ++ [.newline]) ∧
      tr.Perm (longTokens st.tokenSet) := by
  obtain ⟨start, full, Fam, lo, hi, ts', o, h1, h2, B, h3, h4, rfl, h5, h6, h7⟩ := told he hp h
  obtain ⟨order, u, k1, k2⟩ := story_end B h5 (by rw [← h6.tokens.length_eq]; exact hn)
  refine ⟨_ :: u, order, by rw [k2]; rfl, k1.trans (sameSet_long h6).symm⟩

-- a run to which they apply
example : ∃ st w out, CanStart .bits4 .raw 17 none ∧
    OptimizeTokensetT smallEnv 17 .raw .bits4 none (.ok st) w out ∧ st.tokenSet.tokens.length = 17 ∧
    ∃ (u : List Printed) (tr : List Bytes), out = u ++ .removing :: (tr.map .tried ++ [.newline]) := by
  have hc : CanStart .bits4 .raw 17 none := by show Admissible .bits4 17; unfold Admissible; omega
  obtain ⟨st, w, h⟩ := optimize_ends smallEnv smallEnv_ok .bits4 .raw 17 hc
  obtain ⟨out, ho⟩ := optimizeT_iff.2 h
  have hn := C49_bits_exact smallEnv smallEnv_ok .bits4 _ rfl _ _ none hc st w h
  obtain ⟨u, tr, hu, _⟩ := C113_all_tried smallEnv smallEnv_ok .bits4 .raw 17 none hc st w out ho hn
  exact ⟨st, w, out, hc, ho, hn, u, tr, hu⟩

-- and one with an exchange: it starts from sixteen ext tokens and returns twenty tokens
example : ∃ ts st w out, CanStart .bits4 .raw 20 (some ts) ∧
    OptimizeTokensetT smallEnv 20 .raw .bits4 (some ts) (.ok st) w out ∧
    ∃ u a b v, out = u ++ .change a b :: v := by
  obtain ⟨ts, hts, hwk⟩ := workable_bits4
  have hc : CanStart .bits4 .raw 20 (some ts) := hwk
  obtain ⟨st, w, h⟩ := C37_terminates smallEnv smallEnv_ok _ _ _ ts hwk _ (reached_new smallEnv [])
  have h' : OptimizeTokenset smallEnv 20 .raw .bits4 (some ts) (.ok st) w := .run .pure h
  obtain ⟨out, ho⟩ := optimizeT_iff.2 h'
  refine ⟨ts, st, w, out, hc, ho, ?_⟩
  have hn := C49_bits_exact smallEnv smallEnv_ok .bits4 _ rfl _ _ _ hc st w h'
  by_contra hno
  have hno' : ∀ a b, Printed.change a b ∉ out := by
    intro a b hm
    obtain ⟨u, v, e⟩ := List.append_of_mem hm
    exact hno ⟨u, a, b, v, e⟩
  obtain ⟨start, ⟨w1, hs⟩, hf⟩ := C111_replay smallEnv smallEnv_ok _ _ _ _ hc st w out ho
  rw [follow_still hno'] at hf
  cases hs
  have hnd : st.tokenSet.tokens.Nodup :=
    (Tokens.Family.usable (workable_sorted_stuck smallEnv_ok hc h').1.family).distinct
  have hle : st.tokenSet.tokens.length ≤ ts.tokens.length :=
    hnd.length_le_of_subset (fun t ht => (hf t).1 ht)
  have h16 : ts.tokens.length = 16 := by
    have := Except.ok.inj (hts.symm.trans (newBits4_eq .raw true))
    rw [this]
    decide
  omega

end Tokens.Props
