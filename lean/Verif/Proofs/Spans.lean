import Verif.Model.Tokenizer
import Verif.Spec.Segmentation

/-! Lemmas about `create_spans`. -/

set_option linter.unusedSimpArgs false
set_option linter.unusedVariables false

namespace Tokens
open Spec

theorem R.bind_ok {α β : Type} {x : R α} {f : α → R β} {b : β} :
    (x >>= f) = .ok b ↔ ∃ a, x = .ok a ∧ f a = .ok b := by
  cases x with
  | error e => simp [bind, Except.bind]
  | ok a => simp [bind, Except.bind]

@[simp] theorem R.ok_bind {α β : Type} (a : α) (f : α → R β) :
    ((Except.ok a : R α) >>= f) = f a := rfl

@[simp] theorem R.error_bind {α β : Type} (e : Err) (f : α → R β) :
    ((Except.error e : R α) >>= f) = .error e := rfl

theorem rassert_ok {b : Bool} {u : Unit} : rassert b = .ok u ↔ b = true := by
  cases b <;> simp [rassert]

theorem rassert_true {b : Bool} (h : b = true) : rassert b = .ok () := by simp [rassert, h]

theorem getR_ok {α : Type} {l : List α} {i : Nat} {a : α} : getR l i = .ok a ↔ l[i]? = some a := by
  unfold getR; split <;> simp_all

theorem getR_of {α : Type} {l : List α} {i : Nat} {a : α} (h : l[i]? = some a) :
    getR l i = .ok a := getR_ok.2 h

theorem subR_ok {a b c : Nat} : subR a b = .ok c ↔ b ≤ a ∧ c = a - b := by
  unfold subR; split <;> simp_all <;> omega

theorem subR_of {a b : Nat} (h : b ≤ a) : subR a b = .ok (a - b) := by simp [subR, h]

theorem unwrapR_ok {α : Type} {o : Option α} {a : α} : unwrapR o = .ok a ↔ o = some a := by
  cases o <;> simp [unwrapR]

theorem unwrapR_some {α : Type} (a : α) : unwrapR (some a) = .ok a := rfl

/-- The map `m` is the inverse of the table of strings. -/
def MapOK {α : Type} (str : α → Bytes) (l : List α) (m : StrMap) : Prop :=
  ∀ s k, m s = some k ↔ ∃ x, l[k]? = some x ∧ str x = s

theorem MapOK.none_iff {α : Type} {str : α → Bytes} {l : List α} {m : StrMap}
    (h : MapOK str l m) (s : Bytes) : m s = none ↔ s ∉ l.map str := by
  constructor
  · intro hn hm
    obtain ⟨x, hx, rfl⟩ := List.mem_map.1 hm
    obtain ⟨k, hk⟩ := List.mem_iff_getElem?.1 hx
    have := (h (str x) k).2 ⟨x, hk, rfl⟩
    simp [hn] at this
  · intro hn
    cases hm : m s with
    | none => rfl
    | some k =>
      obtain ⟨x, hk, rfl⟩ := (h s k).1 hm
      exact absurd (List.mem_map.2 ⟨x, List.mem_iff_getElem?.2 ⟨k, hk⟩, rfl⟩) hn

theorem MapOK.nodup {α : Type} {str : α → Bytes} {l : List α} {m : StrMap}
    (h : MapOK str l m) : (l.map str).Nodup := by
  unfold List.Nodup
  rw [List.pairwise_iff_getElem]
  intro i j hi hj hij heq
  simp only [List.length_map] at hi hj
  simp only [List.getElem_map] at heq
  have h1 := (h (str l[i]) i).2 ⟨l[i], List.getElem?_eq_getElem hi, rfl⟩
  have h2 := (h (str l[i]) j).2 ⟨l[j], List.getElem?_eq_getElem hj, heq.symm⟩
  rw [h1] at h2
  simp at h2
  omega

theorem MapOK.snoc {α : Type} {str : α → Bytes} {l : List α} {m : StrMap}
    (h : MapOK str l m) (x : α) (hn : m (str x) = none) :
    MapOK str (l ++ [x]) (m.insert (str x) l.length) := by
  intro s k
  unfold StrMap.insert
  by_cases hs : s = str x
  · subst hs
    simp only [if_true, Option.some.injEq]
    constructor
    · rintro rfl
      exact ⟨x, by simp, rfl⟩
    · rintro ⟨y, hy, hyx⟩
      by_cases hk : k < l.length
      · rw [List.getElem?_append_left hk] at hy
        have := (h (str x) k).2 ⟨y, hy, hyx⟩
        simp [hn] at this
      · have : k < (l ++ [x]).length := by
          rcases List.getElem?_eq_some_iff.1 hy with ⟨h1, _⟩
          exact h1
        simp at this
        omega
  · simp only [hs, if_false]
    rw [h s k]
    constructor
    · rintro ⟨y, hy, hyx⟩
      refine ⟨y, ?_, hyx⟩
      rcases List.getElem?_eq_some_iff.1 hy with ⟨h1, _⟩
      rw [List.getElem?_append_left h1]; exact hy
    · rintro ⟨y, hy, hyx⟩
      refine ⟨y, ?_, hyx⟩
      by_cases hk : k < l.length
      · rwa [List.getElem?_append_left hk] at hy
      · rw [List.getElem?_append_right (by omega)] at hy
        have : k - l.length = 0 := by
          rcases List.getElem?_eq_some_iff.1 hy with ⟨h1, _⟩
          simp at h1; omega
        rw [this] at hy
        simp at hy
        subst hy
        exact absurd hyx.symm hs

namespace FragmentTokenizer

/-- The spans made from tokens. -/
def tokenSpans : List Token → Nat → List Span
  | [], _ => []
  | .ext _ :: ts, i => tokenSpans ts (i + 1)
  | .str s :: ts, i =>
    { content := .token i, string := s, suffixSpan := 0, cost := 1 } :: tokenSpans ts (i + 1)

/-- The spans made from sequences. -/
def seqSpans : List Sequence → Nat → List Span
  | [], _ => []
  | q :: qs, j =>
    { content := .sequence j, string := q.string, suffixSpan := 0, cost := q.tokens.length } ::
      seqSpans qs (j + 1)

abbrev SMapOK (spans : List Span) (m : StrMap) : Prop := MapOK Span.string spans m

theorem addTokenSpans_spec (toks : List Token) (i : Nat) (spans : List Span) (m : StrMap)
    (h : SMapOK spans m) :
    (∃ m', addTokenSpans toks i spans m = .ok (spans ++ tokenSpans toks i, m') ∧
      SMapOK (spans ++ tokenSpans toks i) m') ∨
    ((∃ e, addTokenSpans toks i spans m = .error e) ∧
      ¬ ((spans ++ tokenSpans toks i).map Span.string).Nodup) := by
  induction toks generalizing i spans m with
  | nil => left; exact ⟨m, by simp [addTokenSpans, tokenSpans], by simpa [tokenSpans] using h⟩
  | cons t ts ih =>
    cases t with
    | ext n => simpa [addTokenSpans, tokenSpans] using ih (i + 1) spans m h
    | str s =>
      simp only [addTokenSpans, tokenSpans]
      by_cases hm : (m s).isSome
      · right
        refine ⟨⟨.panic, by simp [hm]⟩, ?_⟩
        intro hnd
        have hmem : s ∈ spans.map Span.string := by
          apply Decidable.byContradiction
          intro hc
          have := (h.none_iff s).2 hc
          simp [this] at hm
        rw [List.map_append, List.map_cons] at hnd
        have := (List.nodup_append.1 hnd).2.2 s hmem s (by simp)
        exact this rfl
      · simp only [hm]
        have hn : m s = none := by simpa using hm
        have h' := h.snoc { content := .token i, string := s, suffixSpan := 0, cost := 1 } hn
        have := ih (i + 1) _ _ h'
        simpa using this

theorem addSeqSpans_spec (qs : List Sequence) (j : Nat) (spans : List Span) (m : StrMap)
    (h : SMapOK spans m) :
    (∃ m', addSeqSpans qs j spans m = .ok (spans ++ seqSpans qs j, m') ∧
      SMapOK (spans ++ seqSpans qs j) m') ∨
    ((∃ e, addSeqSpans qs j spans m = .error e) ∧
      ¬ ((spans ++ seqSpans qs j).map Span.string).Nodup) := by
  induction qs generalizing j spans m with
  | nil => left; exact ⟨m, by simp [addSeqSpans, seqSpans], by simpa [seqSpans] using h⟩
  | cons q ts ih =>
    simp only [addSeqSpans, seqSpans]
    by_cases hm : (m q.string).isSome
    · right
      refine ⟨⟨.assertFailed, by simp [hm]⟩, ?_⟩
      intro hnd
      have hmem : q.string ∈ spans.map Span.string := by
        apply Decidable.byContradiction
        intro hc
        have := (h.none_iff q.string).2 hc
        simp [this] at hm
      rw [List.map_append, List.map_cons] at hnd
      have := (List.nodup_append.1 hnd).2.2 q.string hmem q.string (by simp)
      exact this rfl
    · simp only [hm]
      have hn : m q.string = none := by simpa using hm
      have h' := h.snoc { content := .sequence j, string := q.string, suffixSpan := 0,
                          cost := q.tokens.length } hn
      have := ih (j + 1) _ _ h'
      simpa using this

theorem populate_spec (m : StrMap) (l : List Span) (hne : ∀ sp ∈ l, sp.string ≠ []) :
    populateSuffixSpans m l =
      .ok (l.map fun sp =>
        { sp with suffixSpan := (firstSuffix m sp.string.tail).getD sp.suffixSpan }) := by
  induction l with
  | nil => rfl
  | cons sp rest ih =>
    have h1 : 1 ≤ sp.string.length := by
      have := hne sp (by simp)
      cases hs : sp.string with
      | nil => exact absurd hs this
      | cons => simp
    rw [populateSuffixSpans, subR_of h1, ih (fun s hs => hne s (by simp [hs]))]
    rfl

theorem tokenSpans_strings (toks : List Token) (i : Nat) :
    (tokenSpans toks i).map Span.string =
      toks.filterMap tokenText := by
  induction toks generalizing i with
  | nil => rfl
  | cons t ts ih => cases t <;> simp [tokenSpans, tokenText, ih, List.filterMap_cons]

theorem seqSpans_strings (qs : List Sequence) (j : Nat) :
    (seqSpans qs j).map Span.string = qs.map (·.string) := by
  induction qs generalizing j with
  | nil => rfl
  | cons t ts ih => simp [seqSpans, ih]

def emptySpan : Span := { content := .none, string := [], suffixSpan := 0, cost := 0 }

/-- All spans before suffix links are set. -/
def rawSpans (ts : TokenSet) : List Span := tokenSpans ts.tokens 0 ++ seqSpans ts.sequences 0

theorem rawSpans_strings (ts : TokenSet) : (rawSpans ts).map Span.string = pieceStrings ts := by
  simp [rawSpans, pieceStrings, strTokens, tokenSpans_strings, seqSpans_strings]

/-- Setting the suffix link of a span. -/
def link (m : StrMap) (sp : Span) : Span :=
  { sp with suffixSpan := (firstSuffix m sp.string.tail).getD sp.suffixSpan }

theorem mapOK_init : SMapOK [emptySpan] (StrMap.insert (fun _ => none) [] 0) := by
  intro s k
  unfold StrMap.insert
  by_cases hs : s = []
  · subst hs
    simp only [if_true, Option.some.injEq]
    constructor
    · rintro rfl; exact ⟨emptySpan, rfl, rfl⟩
    · rintro ⟨x, hx, _⟩
      rcases List.getElem?_eq_some_iff.1 hx with ⟨h1, _⟩
      simp at h1; omega
  · simp only [hs, if_false]
    constructor
    · intro h; exact absurd h (by simp)
    · rintro ⟨x, hx, hxs⟩
      rcases List.getElem?_eq_some_iff.1 hx with ⟨h1, h2⟩
      simp at h2
      subst h2
      exact absurd hxs.symm hs

theorem MapOK.map_link {spans : List Span} {m m' : StrMap} (h : SMapOK spans m) :
    SMapOK (spans.map (link m')) m := by
  intro s k
  rw [h s k]
  simp only [List.getElem?_map]
  constructor
  · rintro ⟨x, hx, hs⟩
    exact ⟨link m' x, by simp [hx], by simpa [link] using hs⟩
  · rintro ⟨y, hy, hs⟩
    cases hx : spans[k]? with
    | none => simp [hx] at hy
    | some x =>
      simp [hx] at hy
      subst hy
      exact ⟨x, rfl, by simpa [link] using hs⟩

/-- Full description of `create_spans`. -/
theorem createSpans_spec (ts : TokenSet) :
    (∃ m, createSpans ts = .ok (emptySpan :: (rawSpans ts).map (link m), m) ∧
      SMapOK (emptySpan :: (rawSpans ts).map (link m)) m ∧
      (pieceStrings ts).Nodup ∧ (∀ s ∈ pieceStrings ts, s ≠ [])) ∨
    ((∃ e, createSpans ts = .error e) ∧
      ¬ ((pieceStrings ts).Nodup ∧ ∀ s ∈ pieceStrings ts, s ≠ [])) := by
  have key : ∀ l1 l2 : List Bytes, (([] : Bytes) :: (l1 ++ l2)).Nodup ↔
      (l1 ++ l2).Nodup ∧ ∀ s ∈ l1 ++ l2, s ≠ [] := by
    intro l1 l2
    rw [List.nodup_cons]
    constructor
    · rintro ⟨h1, h2⟩
      exact ⟨h2, fun s hs he => h1 (he ▸ hs)⟩
    · rintro ⟨h1, h2⟩
      exact ⟨fun h => h2 [] h rfl, h1⟩
  have hps : pieceStrings ts =
      (tokenSpans ts.tokens 0).map Span.string ++ (seqSpans ts.sequences 0).map Span.string := by
    rw [← rawSpans_strings]; simp [rawSpans]
  rcases addTokenSpans_spec ts.tokens 0 [emptySpan] _ mapOK_init with ⟨m1, h1, hm1⟩ | ⟨⟨e, h1⟩, hn1⟩
  · rcases addSeqSpans_spec ts.sequences 0 _ m1 hm1 with ⟨m2, h2, hm2⟩ | ⟨⟨e, h2⟩, hn2⟩
    · left
      refine ⟨m2, ?_, ?_, ?_⟩
      · have hne : ∀ sp ∈ rawSpans ts, sp.string ≠ [] := by
          have := hm2.nodup
          intro sp hsp he
          simp only [List.cons_append, List.nil_append, List.map_cons, List.map_append,
            List.append_assoc] at this
          have h3 := (key _ _).1 this
          refine h3.2 sp.string ?_ he
          rw [← List.map_append]
          exact List.mem_map.2 ⟨sp, hsp, rfl⟩
        unfold createSpans
        simp only [emptySpan, List.cons_append, List.nil_append] at h1 h2
        simp only [h1, h2, R.ok_bind]
        rw [populate_spec m2 _ (by
          intro sp hsp; exact hne sp (by simpa [rawSpans] using hsp))]
        rfl
      · have := MapOK.map_link (m' := m2) hm2
        simpa [link, rawSpans, emptySpan, firstSuffix] using this
      · have := hm2.nodup
        simp only [List.cons_append, List.nil_append, List.map_cons, List.map_append,
            List.append_assoc] at this
        rw [hps]
        exact (key _ _).1 this
    · right
      refine ⟨⟨e, ?_⟩, ?_⟩
      · unfold createSpans
        simp only [emptySpan, List.cons_append, List.nil_append] at h1 h2
        simp only [h1, h2, R.ok_bind, R.error_bind]
      · rw [hps]
        intro hc
        apply hn2
        simp only [List.cons_append, List.nil_append, List.map_cons, List.map_append,
            List.append_assoc]
        exact (key _ _).2 hc
  · right
    refine ⟨⟨e, ?_⟩, ?_⟩
    · unfold createSpans
      simp only [emptySpan] at h1
      simp only [h1, R.error_bind]
    · rw [hps]
      intro hc
      apply hn1
      have := (key _ _).2 hc
      simp only [List.cons_append, List.nil_append, List.map_cons]
      rw [← List.cons_append] at this
      exact (List.nodup_append.1 this).1

/-- The piece a span content stands for. -/
def pieceOf : SpanContent → Option Piece
  | .none => none
  | .token i => some (.tok i)
  | .sequence j => some (.seq j)

theorem tokenSpans_mem (toks : List Token) (i : Nat) (sp : Span) :
    sp ∈ tokenSpans toks i ↔
      ∃ k s, toks[k]? = some (.str s) ∧
        sp = { content := .token (i + k), string := s, suffixSpan := 0, cost := 1 } := by
  induction toks generalizing i with
  | nil => simp [tokenSpans]
  | cons t ts ih =>
    cases t with
    | ext n =>
      simp only [tokenSpans, ih]
      constructor
      · rintro ⟨k, s, h1, h2⟩
        exact ⟨k + 1, s, by simpa using h1, by rw [h2]; congr 2; omega⟩
      · rintro ⟨k, s, h1, h2⟩
        cases k with
        | zero => simp at h1
        | succ k => exact ⟨k, s, by simpa using h1, by rw [h2]; congr 2; omega⟩
    | str s0 =>
      simp only [tokenSpans, List.mem_cons, ih]
      constructor
      · rintro (h | ⟨k, s, h1, h2⟩)
        · exact ⟨0, s0, by simp, h⟩
        · exact ⟨k + 1, s, by simpa using h1, by rw [h2]; congr 2; omega⟩
      · rintro ⟨k, s, h1, h2⟩
        cases k with
        | zero => left; simp at h1; subst h1; exact h2
        | succ k => right; exact ⟨k, s, by simpa using h1, by rw [h2]; congr 2; omega⟩

theorem seqSpans_mem (qs : List Sequence) (j : Nat) (sp : Span) :
    sp ∈ seqSpans qs j ↔
      ∃ k q, qs[k]? = some q ∧
        sp = { content := .sequence (j + k), string := q.string, suffixSpan := 0,
               cost := q.tokens.length } := by
  induction qs generalizing j with
  | nil => simp [seqSpans]
  | cons q0 ts ih =>
    simp only [seqSpans, List.mem_cons, ih]
    constructor
    · rintro (h | ⟨k, s, h1, h2⟩)
      · exact ⟨0, q0, by simp, h⟩
      · exact ⟨k + 1, s, by simpa using h1, by rw [h2]; congr 2; omega⟩
    · rintro ⟨k, s, h1, h2⟩
      cases k with
      | zero => left; simp at h1; subst h1; exact h2
      | succ k => right; exact ⟨k, s, by simpa using h1, by rw [h2]; congr 2; omega⟩

/-- What the rest of the development needs to know about the spans. -/
structure SpansOK (ts : TokenSet) (spans : List Span) (m : StrMap) : Prop where
  head : spans[0]? = some emptySpan
  map : SMapOK spans m
  sound : ∀ k sp, 0 < k → spans[k]? = some sp → sp.string ≠ [] ∧
    sp.suffixSpan = (firstSuffix m sp.string.tail).getD 0 ∧
    ∃ p, pieceOf sp.content = some p ∧ p.string ts = some sp.string ∧
      sp.cost = (p.output ts).length
  complete : ∀ p s, p.string ts = some s → ∃ k sp, 0 < k ∧ spans[k]? = some sp ∧
    sp.string = s ∧ pieceOf sp.content = some p ∧ sp.cost = (p.output ts).length
  tail : spans.tail.map Span.content = (rawSpans ts).map Span.content

theorem spansOK_of {ts : TokenSet} {m : StrMap}
    (hm : SMapOK (emptySpan :: (rawSpans ts).map (link m)) m)
    (hne : ∀ s ∈ pieceStrings ts, s ≠ []) :
    SpansOK ts (emptySpan :: (rawSpans ts).map (link m)) m := by
  refine ⟨rfl, hm, ?_, ?_, ?_⟩
  · intro k sp hk hsp
    obtain ⟨k, rfl⟩ : ∃ k', k = k' + 1 := ⟨k - 1, by omega⟩
    simp only [List.getElem?_cons_succ, List.getElem?_map] at hsp
    cases hx : (rawSpans ts)[k]? with
    | none => simp [hx] at hsp
    | some x =>
      simp [hx] at hsp
      have hmem : x ∈ rawSpans ts := List.mem_iff_getElem?.2 ⟨k, hx⟩
      have hxs : x.string ∈ pieceStrings ts := by
        rw [← rawSpans_strings]; exact List.mem_map.2 ⟨x, hmem, rfl⟩
      rcases List.mem_append.1 hmem with h | h
      · obtain ⟨i, s, h1, h2⟩ := (tokenSpans_mem _ _ _).1 h
        subst hsp h2
        refine ⟨hne _ hxs, rfl, .tok i, by simp [link, pieceOf], ?_, ?_⟩
        · simp [Piece.string, h1, link]
        · simp [Piece.output, link]
      · obtain ⟨i, s, h1, h2⟩ := (seqSpans_mem _ _ _).1 h
        subst hsp h2
        refine ⟨hne _ hxs, rfl, .seq i, by simp [link, pieceOf], ?_, ?_⟩
        · simp [Piece.string, h1, link]
        · simp [Piece.output, h1, link]
  · intro p s hp
    cases p with
    | tok i =>
      simp only [Piece.string] at hp
      split at hp
      · next s' h =>
        simp at hp; subst hp
        have : ({ content := .token (0 + i), string := s', suffixSpan := 0, cost := 1 } : Span) ∈
            rawSpans ts :=
          List.mem_append.2 (.inl ((tokenSpans_mem _ _ _).2 ⟨i, s', h, rfl⟩))
        obtain ⟨k, hk⟩ := List.mem_iff_getElem?.1 this
        refine ⟨k + 1, link m _, by omega, by simp [hk]; rfl, ?_, ?_, ?_⟩
        · simp [link]
        · simp [link, pieceOf]
        · simp [link, Piece.output]
      · simp at hp
    | seq j =>
      simp only [Piece.string] at hp
      split at hp
      · next q h =>
        simp at hp; subst hp
        have : ({ content := .sequence (0 + j), string := q.string, suffixSpan := 0,
                  cost := q.tokens.length } : Span) ∈ rawSpans ts :=
          List.mem_append.2 (.inr ((seqSpans_mem _ _ _).2 ⟨j, q, h, rfl⟩))
        obtain ⟨k, hk⟩ := List.mem_iff_getElem?.1 this
        refine ⟨k + 1, link m _, by omega, by simp [hk]; rfl, ?_, ?_, ?_⟩
        · simp [link]
        · simp [link, pieceOf]
        · simp [link, Piece.output, h]
      · simp at hp
  · simp [link, Function.comp_def]

end FragmentTokenizer
end Tokens
