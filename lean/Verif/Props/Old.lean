import Verif.Proofs.Old

/-!
C79, C80: the first generation of the tokenizer (`tokens.rs`, `tokenizer.rs`, `stats.rs`), which is in the
repository but not in the program.
-/

set_option linter.unusedVariables false

namespace Tokens.Props
open Tokens Old Spec.Old

/-- C79 (tokenizing).  For every set made with the methods of `TokenSet` (no empty string added) and every
text: the tokenizer is made without a panic; `process_slice` ends without a panic (with pair statistics, if
there are at most 65536 tokens); and what it adds to the statistics are the numbers of a cheapest way to
write the text: its tokens, its literals, its pairs of neighbouring tokens, and the number of bytes.  Among the
cheapest ways it is the one whose pieces, from the end, are longest. -/
theorem C79_tokenizes {ts : OSet} (hm : Made ts) (pairs : Bool) (hbig : pairs = true → ts.tokens.length ≤ 65536)
    (x : Bytes) :
    ∃ tk st ps, Tokenizer.new ts = .ok tk ∧
      processSlice tk x pairs (OStats.new ts.tokens.length ts.literal.literalCost) = .ok st ∧
      Cheapest ts x ps ∧ Longest ts ps ∧ Counted st [x] [ps] pairs ∧ st.cost = cost ts.literal.literalCost ps := by
  obtain ⟨tk, h1, h2⟩ := tokenizer_ok (made_ok hm)
  obtain ⟨st, h3, h4⟩ := tally_slice h2 hbig (tally_new ts pairs (seg h2 hbig)) x
  refine ⟨tk, st, seg h2 hbig x, h1, h3, seg_cheapest h2 hbig x, seg_longest h2 hbig x, ?_, ?_⟩
  · exact tally_counted h4 (fun y => ⟨y, (seg_cheapest h2 hbig y).spells⟩) hbig
  · have := h4.total ts.literal.literalCost
    rw [OStats.cost, h4.lc, this]
    simp

/-- C79 (which way).  For every text there is only one cheapest way whose pieces, from the end, are longest: the
set and the text alone say which pieces are counted. -/
theorem C79_one_way {ts : OSet} (hm : Made ts) {x : Bytes} {ps qs : List Piece} (h1 : Cheapest ts x ps)
    (h2 : Longest ts ps) (h3 : Cheapest ts x qs) (h4 : Longest ts qs) : ps = qs :=
  way_unique (made_ok hm) h1 h2 h3 h4

/-- C79 (empty strings).  With a token that is the empty string, no tokenizer can be made: the subtraction
in `generate_suffixes` panics. -/
theorem C79_empty_token_panics (ts : OSet) (h : ∃ t ∈ ts.tokens, t.string = []) :
    ∃ e, Tokenizer.new ts = .error e := by
  have key : ∀ l : List OToken, (∃ t ∈ l, t.string = []) → ∃ e, OSet.suffixes ts.byString l = .error e := by
    intro l hl
    induction l with
    | nil => obtain ⟨t, ht, -⟩ := hl; cases ht
    | cons t l ih =>
      rw [OSet.suffixes]
      by_cases h0 : t.string = []
      · refine ⟨.underflow, ?_⟩
        rw [h0]; rfl
      · obtain ⟨x, hx⟩ := suffixOf_ok ts.byString h0
        obtain ⟨e, he⟩ := ih (by
          obtain ⟨u, hu, hu0⟩ := hl
          rcases List.mem_cons.1 hu with rfl | hu
          · exact absurd hu0 h0
          · exact ⟨u, hu, hu0⟩)
        refine ⟨e, ?_⟩
        rw [hx, he]; rfl
  obtain ⟨e, he⟩ := key _ h
  refine ⟨e, ?_⟩
  unfold Tokenizer.new OSet.generateSuffixes
  rw [he]; rfl

/-- C80 (threads).  For every set made with the methods of `TokenSet`, all samples (none empty), every number
of threads, every way in which the threads take the samples and every order in which their results arrive:
`tokenize_file` returns the statistics that one worker makes of all samples in their order, and they are the
numbers of a cheapest way to write each of the samples. -/
theorem C80_threads_agree {ts : OSet} (hm : Made ts) (pairs : Bool) (hbig : pairs = true → ts.tokens.length ≤ 65536)
    (samples : List Bytes) (hne : ∀ s ∈ samples, s ≠ []) :
    ∃ tk st cut, Tokenizer.new ts = .ok tk ∧
      workerLoop tk pairs samples (OStats.new ts.tokens.length ts.literal.literalCost) = .ok st ∧
      List.Forall₂ (Cheapest ts) samples cut ∧ Counted st samples cut pairs ∧
      st.cost = (cut.map (cost ts.literal.literalCost)).sum ∧
      ∀ (nthreads : Nat) (r : R OStats), TokenizeFile ts samples pairs nthreads r → r = .ok st := by
  obtain ⟨tk, h1, h2⟩ := tokenizer_ok (made_ok hm)
  obtain ⟨st, h3, h4⟩ := tally_worker h2 hbig samples hne (tally_new ts pairs (seg h2 hbig))
  rw [List.nil_append] at h4
  refine ⟨tk, st, samples.map (seg h2 hbig), h1, h3, ?_, ?_, ?_, ?_⟩
  · rw [List.forall₂_map_right_iff]
    exact List.forall₂_same.2 (fun x _ => seg_cheapest h2 hbig x)
  · exact tally_counted h4 (fun y => ⟨y, (seg_cheapest h2 hbig y).spells⟩) hbig
  · rw [OStats.cost, h4.lc, h4.total, List.map_map]; rfl
  · intro n r hr
    obtain ⟨st', e1, e2⟩ := file_ok h1 h2 hbig hne hr
    rw [e1, tally_unique e2 h4]

/-- C80 (every schedule is possible).  However the samples are given to the threads and in whatever order the
results arrive, there is such a run of `tokenize_file`, and it ends without a panic. -/
theorem C80_every_schedule {ts : OSet} (hm : Made ts) (pairs : Bool)
    (hbig : pairs = true → ts.tokens.length ≤ 65536) (shares : List (List Bytes))
    (hne : ∀ s ∈ shares.flatten, s ≠ []) :
    ∃ tk results, Tokenizer.new ts = .ok tk ∧
      shares.map (fun ss => workerLoop tk pairs ss (OStats.new ts.tokens.length ts.literal.literalCost)) =
        results.map Except.ok ∧
      ∀ order : List OStats, order.Perm results → ∃ st,
        collect order (OStats.new ts.tokens.length ts.literal.literalCost) = .ok st ∧
        TokenizeFile ts shares.flatten pairs shares.length (.ok st) := by
  obtain ⟨tk, h1, h2⟩ := tokenizer_ok (made_ok hm)
  obtain ⟨results, e1, e2⟩ := tally_shares h2 hbig shares hne
  refine ⟨tk, results, h1, e1, ?_⟩
  intro order ho
  have hrun := TokenizeFile.run (nthreads := shares.length) h1 rfl (List.Perm.refl _) e1 ho
  obtain ⟨st, e5, -⟩ := file_ok h1 h2 hbig hne hrun
  rw [e5] at hrun
  exact ⟨st, e5, hrun⟩

/-! ### Examples -/

/-- A set with the tokens `a`, `ab`, `bab`. -/
def oldExample : OSet :=
  { tokens := [{ string := [97], isMandatory := false, suffix := .none },
               { string := [97, 98], isMandatory := false, suffix := .none },
               { string := [98, 97, 98], isMandatory := false, suffix := .none }]
    byString := ((StrMap.insert (fun _ => none) [97] 0).insert [97, 98] 1).insert [98, 97, 98] 2
    literal := .dist4 }

theorem oldExample_made : Made oldExample :=
  .add (s := [98, 97, 98]) (.add (s := [97, 98]) (.add (s := [97]) (.new (le := .dist4) rfl) (by decide) rfl)
    (by decide) rfl) (by decide) rfl

/-- The text `abab`: two tokens `ab` cost 2, and so do `a` and `bab`; nothing is cheaper. -/
example : ∃ tk st ps, Tokenizer.new oldExample = .ok tk ∧
    processSlice tk [97, 98, 97, 98] true (OStats.new 3 4) = .ok st ∧
    Cheapest oldExample [97, 98, 97, 98] ps ∧ Counted st [[97, 98, 97, 98]] [ps] true ∧ st.cost ≤ 2 := by
  obtain ⟨tk, st, ps, h1, h2, h3, -, h4, h5⟩ := C79_tokenizes oldExample_made true (by decide) [97, 98, 97, 98]
  refine ⟨tk, st, ps, h1, h2, h3, h4, ?_⟩
  rw [h5]
  exact h3.least [.tok 1, .tok 1] (Spells.cons (s := [97, 98]) rfl (Spells.cons (s := [97, 98]) (x := []) rfl .nil))

/-- No way to write `abab` costs less than 2. -/
theorem oldExample_abab : Cheapest oldExample [97, 98, 97, 98] [.tok 0, .tok 2] := by
  refine ⟨Spells.cons (s := [97]) rfl (Spells.cons (s := [98, 97, 98]) (x := []) rfl .nil), ?_⟩
  intro qs hq
  show 2 ≤ cost 4 qs
  match qs, hq with
  | [.lit b], hq =>
    generalize hx : ([97, 98, 97, 98] : Bytes) = x at hq
    cases hq with
    | cons h h' =>
      cases h'; cases h
      exact absurd (congrArg List.length hx) (by simp)
  | [.tok i], hq =>
    exfalso
    generalize hx : ([97, 98, 97, 98] : Bytes) = x at hq
    cases hq with
    | cons h h' =>
      cases h'
      rw [List.append_nil] at hx
      subst hx
      match i, h with
      | 0, h => exact absurd (Option.some.inj h) (by decide)
      | 1, h => exact absurd (Option.some.inj h) (by decide)
      | 2, h => exact absurd (Option.some.inj h) (by decide)
      | i + 3, h => cases h
  | p :: q :: qs, _ => cases p <;> cases q <;> simp only [cost] <;> omega

/-- Of the two cheapest ways to write `abab`, the tokenizer takes the one that ends with the longer token `bab`. -/
example : ∃ tk st, Tokenizer.new oldExample = .ok tk ∧
    processSlice tk [97, 98, 97, 98] true (OStats.new 3 4) = .ok st ∧ 1 ≤ st.tokenCount.getD 2 0 := by
  obtain ⟨tk, st, ps, h1, h2, h3, h4, h5, h6⟩ := C79_tokenizes oldExample_made true (by decide) [97, 98, 97, 98]
  refine ⟨tk, st, h1, h2, ?_⟩
  rw [h5.tokens]
  simp only [List.map_cons, List.map_nil, List.sum_cons, List.sum_nil, Nat.add_zero]
  rcases List.eq_nil_or_concat ps with rfl | ⟨ps', p, rfl⟩
  · have hx := h3.spells
    generalize hx : ([97, 98, 97, 98] : Bytes) = x at *
    cases hx
    cases h3.spells
    simp_all
  · rw [List.concat_eq_append] at *
    obtain ⟨u, s, e, -, hs⟩ := spells_snoc_inv h3.spells
    have hlen := h4 ps' p [] rfl _ h3.spells [.tok 0] (.tok 2) oldExample_abab s [98, 97, 98] hs rfl
    have hp : p = .tok 2 := by
      cases p with
      | lit b =>
        cases hs
        exact absurd hlen (by simp)
      | tok i =>
        match i, hs with
        | 0, hs => cases hs; exact absurd hlen (by decide)
        | 1, hs => cases hs; exact absurd hlen (by decide)
        | 2, hs => rfl
        | i + 3, hs => cases hs
    rw [hp, List.count_append]
    simp

/-- A removed token: the others move down. -/
example : ∃ ts, oldExample.removeToken [97] = .ok ts ∧ Made ts ∧ ts.byString [98, 97, 98] = some 1 :=
  ⟨_, rfl, .remove (s := [97]) oldExample_made rfl, rfl⟩

/-- The empty string can be added, and then no tokenizer can be made. -/
example : ∃ ts, oldExample.addToken [] = .ok ts ∧ ∃ e, Tokenizer.new ts = .error e :=
  ⟨_, rfl, C79_empty_token_panics _ ⟨{ string := [], isMandatory := false, suffix := .none }, List.mem_append_right _ (List.mem_singleton.2 rfl), rfl⟩⟩

/-- Three samples on two threads, with the results in both orders. -/
example : ∃ st, ∀ r, TokenizeFile oldExample [[97, 98], [98, 97], [99]] true 2 r → r = .ok st := by
  obtain ⟨tk, st, cut, -, -, -, -, -, h⟩ := C80_threads_agree oldExample_made true (by decide)
    [[97, 98], [98, 97], [99]] (by decide)
  exact ⟨st, h 2⟩

example : ∃ st, TokenizeFile oldExample [[97, 98], [99], [98, 97]] true 2 (.ok st) := by
  obtain ⟨tk, results, -, -, h⟩ := C80_every_schedule oldExample_made true (by decide)
    [[[97, 98], [99]], [[98, 97]]] (by decide)
  obtain ⟨st, -, h2⟩ := h results (List.Perm.refl _)
  exact ⟨st, h2⟩

end Tokens.Props
