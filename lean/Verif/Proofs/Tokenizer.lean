import Verif.Proofs.Traceback

/-! `FragmentTokenizer::new` and `process_slice`: the main theorems in general form. -/

set_option linter.unusedSimpArgs false
set_option linter.unusedVariables false

namespace Tokens
open Spec
namespace FragmentTokenizer

theorem new_spec (ts : TokenSet) :
    (∃ tk, new ts = .ok tk ∧ TokenizerOK ts tk ∧ Tokenizable ts) ∨
    ((∃ e, new ts = .error e) ∧ ¬ Tokenizable ts) := by
  unfold new
  rcases createSpans_spec ts with ⟨m, h1, hm, hnd, hne⟩ | ⟨⟨e, h1⟩, hn⟩
  · have hs := spansOK_of hm hne
    rw [h1]
    simp only [R.ok_bind]
    rcases createSuffixStates_spec ts _ m hs with ⟨states, stateBy, h2, h3, h4⟩ | ⟨⟨e, h2⟩, b, h3⟩
    · left
      rw [h2]
      simp only [R.ok_bind]
      exact ⟨_, rfl, ⟨rfl, ⟨m, stateBy, hs, h3⟩, h4, hnd⟩, ⟨hnd, hne, h4⟩⟩
    · right
      rw [h2]
      simp only [R.error_bind]
      exact ⟨⟨e, rfl⟩, fun h => h3 (h.bytes b)⟩
  · right
    rw [h1]
    exact ⟨⟨e, rfl⟩, fun h => hn ⟨h.nodup, h.nonempty⟩⟩

theorem new_ok_of {ts : TokenSet} (h : Tokenizable ts) : ∃ tk, new ts = .ok tk ∧ TokenizerOK ts tk := by
  rcases new_spec ts with ⟨tk, h1, h2, _⟩ | ⟨_, h2⟩
  · exact ⟨tk, h1, h2⟩
  · exact absurd h h2

theorem ok_of_new {ts : TokenSet} {tk : FragmentTokenizer} (h : new ts = .ok tk) :
    TokenizerOK ts tk ∧ Tokenizable ts := by
  rcases new_spec ts with ⟨tk', h1, h2, h3⟩ | ⟨⟨e, h1⟩, h2⟩
  · rw [h] at h1; simp at h1; subst h1; exact ⟨h2, h3⟩
  · rw [h] at h1; simp at h1

theorem spells_pieces {ts : TokenSet} {ps : List Piece} {t : Bytes} (h : Spells ts ps t) :
    ∀ p ∈ ps, (p.string ts).isSome := by
  induction h with
  | nil => simp
  | cons hp _ ih =>
    intro p h
    rcases List.mem_cons.1 h with rfl | h
    · simp [hp]
    · exact ih p h

/-- The statistics after `process_slice` are those of the longest-last optimal segmentation. -/
theorem processSlice_ok {ts : TokenSet} {tk : FragmentTokenizer} (hk : TokenizerOK ts tk)
    (hseq : SeqsInRange ts) (text : Bytes) (st : TokenStats) (hst : Shaped ts st) :
    ∃ st' ps, processSlice tk text st = .ok st' ∧ LongestLast ts ps text ∧
      Counted ts ps text.length st st' := by
  obtain ⟨hts, ⟨spanBy, stateBy, hs, ha⟩, hb, hnd⟩ := hk
  obtain ⟨st0, h0, hsuf0⟩ := ha.head
  unfold processSlice
  rw [getR_of h0]
  simp only [R.ok_bind]
  obtain ⟨costs, hpl, hc⟩ := processLoop_ok hs ha hb text [] 0 st0 [{ cost := 0, span := 0 }] h0
    (by rw [hsuf0]; exact List.suffix_refl _)
    (by intro u hu _; rw [List.suffix_nil.1 hu]; simp) (costsOK_init ts tk.spans)
  rw [List.nil_append] at hc
  rw [hpl]
  simp only [R.ok_bind]
  unfold updateStats
  have hlen := hc.len
  have hlast : costs.getLast? = costs[text.length]? := by
    rw [List.getLast?_eq_getElem?]; congr 1; omega
  have hlt : text.length < costs.length := by omega
  have hget := List.getElem?_eq_getElem hlt
  generalize costs[text.length] = last at hget
  rw [hlast, hget]
  simp only [unwrapR_some, R.ok_bind]
  have hnt : st.tokenSet.ntokens = ts.tokens.length := by rw [hst.tokenSet]; rfl
  rw [hnt]
  obtain ⟨ps, acc', hLL, htb, hsl, hpl', hsc, hpc⟩ := traceback_ok hs hc text.length text.length
    (Nat.le_refl _) (Nat.le_refl _) none (by simp)
    { spanCounts := List.replicate tk.spans.length 0, pairCounts := st.pairCounts }
    (by simp) hst.pairCounts
  rw [htb]
  simp only [R.ok_bind]
  rw [List.take_length] at hLL
  simp only [nextList, List.append_nil] at hpc
  have hopt := hLL.optimal
  have hmin := (hc.row _ _ hget).min
  rw [List.take_length] at hmin
  have htotal := ((optimal_iff hmin ps).1 hopt).2
  -- the list of all pieces, in the order of the spans
  obtain ⟨P, hP⟩ : ∃ P : List Piece, tk.spans.tail.map (fun s => pieceOf s.content) = P.map some := by
    have : ∀ l : List Span, (∀ sp ∈ l, (pieceOf sp.content).isSome) →
        ∃ P : List Piece, l.map (fun s => pieceOf s.content) = P.map some := by
      intro l
      induction l with
      | nil => intro _; exact ⟨[], rfl⟩
      | cons x l ih =>
        intro h
        obtain ⟨P, hP⟩ := ih (fun sp hsp => h sp (by simp [hsp]))
        obtain ⟨p, hp⟩ := Option.isSome_iff_exists.1 (h x (by simp))
        exact ⟨p :: P, by simp [hP, hp]⟩
    apply this
    intro sp hsp
    obtain ⟨k, hk⟩ := List.mem_iff_getElem?.1 hsp
    rw [List.getElem?_tail] at hk
    obtain ⟨_, _, p, hp, _⟩ := hs.sound (k + 1) sp (by omega) hk
    simp [hp]
  have hPk : ∀ k p, P[k]? = some p ↔ ∃ sp, tk.spans[k + 1]? = some sp ∧ pieceOf sp.content = some p := by
    intro k p
    have := congrArg (fun l => l[k]?) hP
    simp only [List.getElem?_map, List.getElem?_tail] at this
    constructor
    · intro h
      rw [h] at this
      simp at this
      exact this
    · rintro ⟨sp, h1, h2⟩
      rw [h1] at this
      simp [h2] at this
      cases hh : P[k]? with
      | none => rw [hh] at this; simp at this
      | some x => rw [hh] at this; simp at this; rw [this]
  have hPstr : P.map (Piece.string ts) = tk.spans.tail.map (fun s => some s.string) := by
    apply List.ext_getElem?
    intro k
    simp only [List.getElem?_map, List.getElem?_tail]
    cases h : P[k]? with
    | some p =>
      obtain ⟨sp, h1, h2⟩ := (hPk k p).1 h
      obtain ⟨_, _, p', hp', hps', _⟩ := hs.sound (k + 1) sp (by omega) h1
      rw [h2] at hp'; simp at hp'; subst hp'
      simp [h1, hps']
    | none =>
      cases h1 : tk.spans[k + 1]? with
      | none => simp
      | some sp =>
        obtain ⟨_, _, p', hp', _⟩ := hs.sound (k + 1) sp (by omega) h1
        have := (hPk k p').2 ⟨sp, h1, hp'⟩
        rw [h] at this; simp at this
  have hPnd : P.Nodup := by
    have h1 : (tk.spans.map Span.string).Nodup := hs.map.nodup
    have h2 : (tk.spans.tail.map Span.string).Nodup := by
      rw [List.map_tail]; exact (List.tail_sublist _).nodup h1
    have h3 : (P.map (Piece.string ts)).Nodup := by
      rw [hPstr]
      have : tk.spans.tail.map (fun s => some s.string) =
          (tk.spans.tail.map Span.string).map some := by
        rw [List.map_map]; rfl
      rw [this]
      unfold List.Nodup at *
      rw [List.pairwise_map]
      exact h2.imp (fun h => by simpa using h)
    unfold List.Nodup at *
    rw [List.pairwise_map] at h3
    exact h3.imp (fun h he => h (by rw [he]))
  have hPvalid : ∀ p ∈ P, (p.string ts).isSome := by
    intro p hp
    obtain ⟨k, hk⟩ := List.mem_iff_getElem?.1 hp
    obtain ⟨sp, h1, h2⟩ := (hPk k p).1 hk
    obtain ⟨_, _, p', hp', hps', _⟩ := hs.sound (k + 1) sp (by omega) h1
    rw [h2] at hp'; simp at hp'; subst hp'
    simp [hps']
  have hPall : ∀ p, (p.string ts).isSome → p ∈ P := by
    intro p hp
    obtain ⟨s, hps⟩ := Option.isSome_iff_exists.1 hp
    obtain ⟨k, sp, hk0, hsp, _, hpc', _⟩ := hs.complete p s hps
    obtain ⟨k, rfl⟩ : ∃ k', k = k' + 1 := ⟨k - 1, by omega⟩
    exact List.mem_iff_getElem?.2 ⟨k, (hPk k p).2 ⟨sp, hsp, hpc'⟩⟩
  have hPin : ∀ p ∈ ps, p ∈ P := fun p hp => hPall p (spells_pieces hopt.1 p hp)
  have hcnt : acc'.spanCounts.tail = P.map (fun p => ps.count p) := by
    have hPlen : P.length = tk.spans.length - 1 := by
      have := congrArg List.length hP
      simp at this; omega
    apply List.ext_getElem
    · simp [hsl, hPlen]
    · intro k h1 h2
      simp at h1 h2
      have hPk' := (hPk k P[k]).1 (List.getElem?_eq_getElem h2)
      obtain ⟨sp, h3, h4⟩ := hPk'
      have := hsc (k + 1) sp P[k] (by omega) h3 h4
      simp only [List.getD_eq_getElem?_getD] at this
      rw [List.getElem?_eq_getElem (by omega)] at this
      simp at this
      simp [this]
      rw [List.getElem?_replicate]
      split <;> simp
  rw [hcnt]
  obtain ⟨st', h1, h2, h3, h4, h5, h6, h7, h8, h9, h10⟩ :=
    foldSpanCounts_ok hseq tk.spans.tail P hP hPvalid (fun p => ps.count p)
      { st with totalTokens := st.totalTokens + last.cost,
                scannedBytes := st.scannedBytes + text.length,
                pairCounts := acc'.pairCounts }
      hst.tokenSet hst.tokenCounts hst.seqCounts
  refine ⟨st', ps, h1, hLL, ?_⟩
  constructor
  · simpa using h2
  · simpa using h3
  · rw [h4, htotal]
  · simpa using h5
  · simpa using h7
  · intro i hi
    rw [h9 i hi, wsum_count _ P ps hPnd hPin]
    congr 1
    unfold output
    rw [List.count_flatMap]
    rfl
  · simpa using h8
  · intro j hj
    rw [h10 j hj, wsum_count _ P ps hPnd hPin]
    congr 1
    clear hPin hcnt h9 h10 htotal hopt hpc hsc hLL htb h1
    induction ps with
    | nil => rfl
    | cons p ps ih =>
      simp only [List.map_cons, List.sum_cons, List.count_cons, ih]
      by_cases hp : p = .seq j <;> simp [hp]; omega
  · rw [h6, hpl', hst.pairCounts]
  · intro a ha b hb
    rw [h6]
    exact hpc a ha b hb

end FragmentTokenizer
end Tokens
