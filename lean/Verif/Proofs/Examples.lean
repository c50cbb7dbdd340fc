import Verif.Proofs.TokenSetOps

/-! Concrete sets used as witnesses that hypotheses can be met, and preservation of
`Tokenizable` by `add_token`. -/

set_option linter.unusedSimpArgs false
set_option linter.unusedVariables false

namespace Tokens
open Spec

theorem strTokens_append (ts : TokenSet) (l : List Token) :
    strTokens { ts with tokens := ts.tokens ++ l } = strTokens ts ++ l.filterMap tokenText := by
  simp [strTokens]

theorem mem_strTokens {ts : TokenSet} {s : Bytes} : s ∈ strTokens ts ↔ Token.str s ∈ ts.tokens := by
  unfold strTokens
  rw [List.mem_filterMap]
  constructor
  · rintro ⟨t, h1, h2⟩
    cases t with
    | ext n => simp [tokenText] at h2
    | str x => simp [tokenText] at h2; rw [← h2]; exact h1
  · intro h; exact ⟨_, h, rfl⟩

/-- Adding a new non-empty string keeps a set usable. -/
theorem tokenizable_addToken {ts ts' : TokenSet} {s : Bytes} {i : Nat} (h : Tokenizable ts)
    (hnew : Token.str s ∉ ts.tokens) (ha : ts.addToken s = .ok (ts', i)) : Tokenizable ts' := by
  by_cases hs : s = []
  · subst hs; simp [TokenSet.addToken_nil] at ha
  rw [TokenSet.addToken_eq ts s hs] at ha
  simp at ha
  obtain ⟨ha, _⟩ := ha
  subst ha
  have hpieces : pieceStrings { ts with
      tokens := ts.tokens ++ [.str s],
      sequences := ts.sequences.filter (fun q => q.string != s) } =
      strTokens ts ++ [s] ++ (ts.sequences.filter (fun q => q.string != s)).map (·.string) := by
    simp [pieceStrings, strTokens, tokenText]
  have hsub : ((ts.sequences.filter (fun q => q.string != s)).map (·.string)).Sublist
      (ts.sequences.map (·.string)) := List.Sublist.map _ List.filter_sublist
  have hnd := h.nodup
  unfold pieceStrings at hnd
  refine ⟨?_, ?_, ?_⟩
  · rw [hpieces, List.append_assoc]
    rw [List.nodup_append] at hnd ⊢
    refine ⟨hnd.1, ?_, ?_⟩
    · rw [List.nodup_append]
      refine ⟨by simp, hsub.nodup hnd.2.1, ?_⟩
      intro a ha b hb
      simp at ha
      subst ha
      simp only [List.mem_map, List.mem_filter] at hb
      obtain ⟨q, ⟨_, hq⟩, rfl⟩ := hb
      rintro rfl
      simp at hq
    · intro a ha b hb
      simp at hb
      rcases hb with rfl | ⟨q, ⟨hq, _⟩, rfl⟩
      · rintro rfl; exact hnew (mem_strTokens.1 ha)
      · exact hnd.2.2 a ha _ (List.mem_map.2 ⟨q, hq, rfl⟩)
  · intro x hx
    rw [hpieces] at hx
    simp only [List.mem_append, List.mem_singleton] at hx
    rcases hx with (hx | rfl) | hx
    · exact h.nonempty x (List.mem_append.2 (.inl hx))
    · exact hs
    · exact h.nonempty x (List.mem_append.2 (.inr (hsub.mem hx)))
  · intro b
    rw [hpieces]
    have hb := h.bytes b
    simp only [List.mem_append, List.mem_singleton]
    rcases List.mem_append.1 hb with hb | hb
    · exact .inl (.inl hb)
    · by_cases hbs : [b] = s
      · exact .inl (.inr hbs)
      · obtain ⟨q, hq, hqs⟩ := List.mem_map.1 hb
        refine .inr (List.mem_map.2 ⟨q, List.mem_filter.2 ⟨hq, ?_⟩, hqs⟩)
        simp [hqs, hbs]

theorem seqsInRange_addToken {ts ts' : TokenSet} {s : Bytes} {i : Nat} (h : SeqsInRange ts)
    (ha : ts.addToken s = .ok (ts', i)) : SeqsInRange ts' := by
  by_cases hs : s = []
  · subst hs; simp [TokenSet.addToken_nil] at ha
  rw [TokenSet.addToken_eq ts s hs] at ha
  simp at ha
  obtain ⟨ha, _⟩ := ha
  subst ha
  intro q hq i hi
  simp at hq ⊢
  have := h q hq.1 i hi
  omega

theorem filterMap_nodup_idx {α β : Type} {f : α → Option β} {l : List α} (h : (l.filterMap f).Nodup)
    {i j : Nat} {a b : α} {s : β} (hi : l[i]? = some a) (hj : l[j]? = some b) (ha : f a = some s)
    (hb : f b = some s) : i = j := by
  induction l generalizing i j with
  | nil => simp at hi
  | cons x l ih =>
    have htail : (l.filterMap f).Nodup := by
      rw [List.filterMap_cons] at h
      split at h
      · exact h
      · exact (List.nodup_cons.1 h).2
    cases i with
    | zero =>
      cases j with
      | zero => rfl
      | succ j =>
        simp at hi hj
        subst hi
        rw [List.filterMap_cons, ha] at h
        exact absurd (List.mem_filterMap.2 ⟨b, List.mem_iff_getElem?.2 ⟨j, hj⟩, hb⟩)
          (List.nodup_cons.1 h).1
    | succ i =>
      cases j with
      | zero =>
        simp at hi hj
        subst hj
        rw [List.filterMap_cons, hb] at h
        exact absurd (List.mem_filterMap.2 ⟨a, List.mem_iff_getElem?.2 ⟨i, hi⟩, ha⟩)
          (List.nodup_cons.1 h).1
      | succ j =>
        simp at hi hj
        rw [ih htail hi hj]

theorem Spec.Piece.string_tok {ts : TokenSet} {i : Nat} {s : Bytes} :
    Piece.string ts (.tok i) = some s ↔ ts.tokens[i]? = some (.str s) := by
  simp only [Piece.string]
  constructor
  · intro h
    split at h
    · next h' => simp at h; subst h; exact h'
    · simp at h
  · intro h; simp [h]

theorem Spec.Piece.string_seq {ts : TokenSet} {j : Nat} {s : Bytes} :
    Piece.string ts (.seq j) = some s ↔ ∃ q, ts.sequences[j]? = some q ∧ q.string = s := by
  simp only [Piece.string]
  constructor
  · intro h
    split at h
    · next q h' => simp at h; exact ⟨q, h', h⟩
    · simp at h
  · rintro ⟨q, h, rfl⟩; simp [h]

/-- A piece is determined by its string. -/
theorem piece_unique {ts : TokenSet} (h : (pieceStrings ts).Nodup) {p q : Piece} {s : Bytes}
    (hp : p.string ts = some s) (hq : q.string ts = some s) : p = q := by
  unfold pieceStrings at h
  rw [List.nodup_append] at h
  obtain ⟨h1, h2, h3⟩ := h
  cases p with
  | tok i =>
    rw [Piece.string_tok] at hp
    cases q with
    | tok j =>
      rw [Piece.string_tok] at hq
      rw [filterMap_nodup_idx h1 hp hq (s := s) rfl rfl]
    | seq j =>
      rw [Piece.string_seq] at hq
      obtain ⟨q, hq, hs⟩ := hq
      exact absurd rfl (h3 s (mem_strTokens.2 (List.mem_iff_getElem?.2 ⟨i, hp⟩)) s
        (List.mem_map.2 ⟨q, List.mem_iff_getElem?.2 ⟨j, hq⟩, hs⟩))
  | seq i =>
    rw [Piece.string_seq] at hp
    obtain ⟨r, hp, hs⟩ := hp
    cases q with
    | tok j =>
      rw [Piece.string_tok] at hq
      exact absurd rfl (h3 s (mem_strTokens.2 (List.mem_iff_getElem?.2 ⟨j, hq⟩)) s
        (List.mem_map.2 ⟨_, List.mem_iff_getElem?.2 ⟨i, hp⟩, hs⟩))
    | seq j =>
      rw [Piece.string_seq] at hq
      obtain ⟨q', hq', hs'⟩ := hq
      have : (ts.sequences.map (·.string))[i]? = (ts.sequences.map (·.string))[j]? := by
        rw [List.getElem?_map, List.getElem?_map, hp, hq', Option.map_some, Option.map_some, hs, hs']
      have := (List.getElem?_inj (by
        simpa using (List.getElem?_eq_some_iff.1 hp).1) h2).1 this
      rw [this]

/-- Strings of pieces are piece strings. -/
theorem piece_mem {ts : TokenSet} {p : Piece} {s : Bytes} (hp : p.string ts = some s) :
    s ∈ pieceStrings ts := by
  cases p with
  | tok i =>
    rw [Piece.string_tok] at hp
    exact List.mem_append.2 (.inl (mem_strTokens.2 (List.mem_iff_getElem?.2 ⟨i, hp⟩)))
  | seq j =>
    rw [Piece.string_seq] at hp
    obtain ⟨q, hp, hs⟩ := hp
    exact List.mem_append.2 (.inr (List.mem_map.2 ⟨q, List.mem_iff_getElem?.2 ⟨j, hp⟩, hs⟩))

theorem longestLast_unique {ts : TokenSet} (hts : Tokenizable ts) {text : Bytes}
    {ps qs : List Piece} (hp : LongestLast ts ps text) (hq : LongestLast ts qs text) : ps = qs := by
  induction hp generalizing qs with
  | nil =>
    generalize ht : ([] : Bytes) = t at hq
    cases hq with
    | nil => rfl
    | @snoc qs' t' q s' _ hs _ _ =>
      have := hts.nonempty _ (piece_mem hs)
      exact absurd (List.append_eq_nil_iff.1 ht.symm).2 this
  | @snoc ps' t p s hps hstr hopt hmax ih =>
    generalize ht : t ++ s = u at hq
    cases hq with
    | nil =>
      have := hts.nonempty _ (piece_mem hstr)
      exact absurd (List.append_eq_nil_iff.1 ht).2 this
    | @snoc qs' t' q s' hqs hstr' hopt' hmax' =>
      have h1 := hmax qs' q s' hstr' (by rw [ht]; exact hopt')
      have h2 := hmax' ps' p s hstr (by rw [← ht]; exact hopt)
      obtain ⟨rfl, rfl⟩ := List.append_inj' ht (by omega)
      rw [ih hqs, piece_unique hts.nodup hstr hstr']

theorem shaped_new (ts : TokenSet) (n : Option Nat) : Shaped ts (TokenStats.new ts n) := by
  constructor <;> simp [TokenStats.new]

/-- `Tokenizable` only depends on the piece strings up to order. -/
theorem tokenizable_perm {a b : TokenSet} (hp : (pieceStrings a).Perm (pieceStrings b))
    (h : Tokenizable a) : Tokenizable b :=
  ⟨hp.nodup_iff.1 h.nodup, fun s hs => h.nonempty s (hp.mem_iff.2 hs),
    fun b => hp.mem_iff.1 (h.bytes b)⟩

theorem pieceStrings_sameSet {a b : TokenSet} (h : SameSet a b) :
    (pieceStrings a).Perm (pieceStrings b) := by
  unfold pieceStrings strTokens
  refine List.Perm.append (h.tokens.filterMap _) ?_
  have h1 : ∀ ts : TokenSet, ts.sequences.map (·.string) = (meaning ts).map Prod.fst := by
    intro ts; simp [meaning]
  rw [h1, h1]
  exact h.sequences.map _

theorem filterMap_eraseIdx {α β : Type} {f : α → Option β} {l : List α} {i : Nat} {a : α} {s : β}
    (h : l[i]? = some a) (hf : f a = some s) :
    (l.filterMap f).Perm (s :: (l.eraseIdx i).filterMap f) := by
  induction l generalizing i with
  | nil => simp at h
  | cons x l ih =>
    cases i with
    | zero => simp at h; subst h; simp [hf]
    | succ i =>
      simp at h
      have := ih h
      simp only [List.eraseIdx_cons_succ, List.filterMap_cons]
      split
      · exact this
      · exact (List.Perm.cons _ this).trans (.swap _ _ _)

/-- The piece strings after removing a token. -/
theorem pieceStrings_remove {ts ts' : TokenSet} {idx : Nat} {s : Bytes} (hr : SeqsInRange ts)
    (htok : ts.tokens[idx]? = some (.str s)) (h : ts.removeToken idx = .ok ts') :
    (pieceStrings ts).Perm (s :: pieceStrings ts') := by
  obtain ⟨_, hp, _, _, hq⟩ := TokenSet.removeToken_spec hr h
  unfold pieceStrings strTokens
  rw [hq]
  have h1 := filterMap_eraseIdx (f := tokenText) htok rfl
  have h2 := hp.filterMap tokenText
  exact List.Perm.append_right _ (h1.trans (List.Perm.cons _ h2.symm))

/-- Removing a long token keeps a set usable. -/
theorem tokenizable_remove {ts ts' : TokenSet} {idx : Nat} {s : Bytes} (hr : SeqsInRange ts)
    (hts : Tokenizable ts) (htok : ts.tokens[idx]? = some (.str s)) (hlong : 1 < s.length)
    (h : ts.removeToken idx = .ok ts') : Tokenizable ts' := by
  have hp := pieceStrings_remove hr htok h
  refine ⟨?_, ?_, ?_⟩
  · exact (List.nodup_cons.1 (hp.nodup_iff.1 hts.nodup)).2
  · intro x hx; exact hts.nonempty x (hp.mem_iff.2 (by simp [hx]))
  · intro b
    have := hp.mem_iff.1 (hts.bytes b)
    rcases List.mem_cons.1 this with h | h
    · rw [← h] at hlong; simp at hlong
    · exact h

namespace Example

open TokenSet

/-- `TokenSet::new_bits4(Raw, true)`. -/
def bits4 : TokenSet := bitsSet 16 .bits4 (fun c => [c >>> 4, c &&& 15]) .raw true

theorem bits4_new : newBits4 .raw true = .ok bits4 := newBits4_eq .raw true
theorem bits4_tokenizable : Tokenizable bits4 := bitsSet_tokenizable ..
theorem bits4_inRange : SeqsInRange bits4 := bitsSet_inRange _ _ _ code4_lt

/-- `bits4` with the tokens `"a"`, `"ab"`, `"abc"`, `"bcd"` added. -/
def grown : TokenSet :=
  { bits4 with
    tokens := bits4.tokens ++ [.str [97], .str [97, 98], .str [97, 98, 99], .str [98, 99, 100]],
    sequences := bits4.sequences.filter (fun q => q.string != [97]) }

theorem bits4_noStr (s : Bytes) : Token.str s ∉ bits4.tokens := by
  simp [bits4, bitsSet, extTokens]

theorem filter_irrelevant (s : Bytes) (hs : s.length ≠ 1) (l : List Sequence)
    (hl : ∀ q ∈ l, q.string.length = 1) : l.filter (fun q => q.string != s) = l := by
  rw [List.filter_eq_self]
  intro q hq
  simp
  rintro rfl
  exact hs (hl q hq)

theorem bits4_seqs : ∀ q ∈ bits4.sequences, q.string.length = 1 := by
  intro q hq
  simp only [bits4, bitsSet, List.mem_map] at hq
  obtain ⟨c, _, rfl⟩ := hq
  rfl

theorem addTokens_tokenizable (l : List Bytes) (hne : ∀ s ∈ l, s ≠ []) (hnd : l.Nodup)
    (ts : TokenSet) (h : Tokenizable ts) (hr : SeqsInRange ts)
    (hnew : ∀ s ∈ l, Token.str s ∉ ts.tokens) :
    ∃ ts', ts.addTokens l = .ok ts' ∧ Tokenizable ts' ∧ SeqsInRange ts' := by
  induction l generalizing ts with
  | nil => exact ⟨ts, rfl, h, hr⟩
  | cons s l ih =>
    have ha := TokenSet.addToken_eq ts s (hne s (by simp))
    rw [TokenSet.addTokens, ha]
    simp only [R.ok_bind]
    apply ih (fun x hx => hne x (by simp [hx])) (List.nodup_cons.1 hnd).2
    · exact tokenizable_addToken h (hnew s (by simp)) ha
    · exact seqsInRange_addToken hr ha
    · intro x hx hmem
      simp at hmem
      rcases hmem with hmem | rfl
      · exact hnew x (by simp [hx]) hmem
      · exact (List.nodup_cons.1 hnd).1 hx

theorem grown_eq : bits4.addTokens [[97], [97, 98], [97, 98, 99], [98, 99, 100]] = .ok grown := by
  rw [addTokens_eq _ _ (by simp)]
  have hf : bits4.sequences.filter (fun q =>
      !([[97], [97, 98], [97, 98, 99], [98, 99, 100]] : List Bytes).contains q.string) =
      bits4.sequences.filter (fun q => q.string != [97]) := by
    apply List.filter_congr
    intro q hq
    have := bits4_seqs q hq
    obtain ⟨b, hb⟩ := List.length_eq_one_iff.1 this
    rw [hb]
    by_cases h : b = 97 <;> simp [h, bne]
  rw [hf]
  rfl

theorem grown_ok : Tokenizable grown ∧ SeqsInRange grown := by
  obtain ⟨ts', h1, h2, h3⟩ := addTokens_tokenizable
    [[97], [97, 98], [97, 98, 99], [98, 99, 100]] (by simp) (by decide) bits4 bits4_tokenizable
    bits4_inRange (fun s _ => bits4_noStr s)
  rw [grown_eq] at h1
  simp at h1
  subst h1
  exact ⟨h2, h3⟩

end Example
end Tokens
