import Verif.Proofs.Spans

/-! Lemmas about `create_suffix_states`. -/

set_option linter.unusedSimpArgs false
set_option linter.unusedVariables false

namespace Tokens
open Spec

theorem mem_allBytes (b : UInt8) : b ∈ allBytes := by
  unfold allBytes
  rw [List.mem_map]
  exact ⟨b.toNat, by simpa using b.toNat_lt, by simp⟩

/-- `firstSuffix` finds the longest non-empty suffix that is a key. -/
theorem firstSuffix_some {m : StrMap} {s : Bytes} {k : Nat} (h : firstSuffix m s = some k) :
    ∃ t, t <:+ s ∧ t ≠ [] ∧ m t = some k ∧
      ∀ u, u <:+ s → u ≠ [] → (m u).isSome → u.length ≤ t.length := by
  induction s with
  | nil => simp [firstSuffix] at h
  | cons b bs ih =>
    rw [firstSuffix] at h
    split at h
    · next i hi =>
      simp at h; subst h
      exact ⟨b :: bs, List.suffix_refl _, by simp, hi, fun u hu _ _ => hu.length_le⟩
    · next hi =>
      obtain ⟨t, h1, h2, h3, h4⟩ := ih h
      refine ⟨t, h1.trans (List.suffix_cons _ _), h2, h3, ?_⟩
      intro u hu hne hs
      rcases List.suffix_cons_iff.1 hu with rfl | hu
      · simp [hi] at hs
      · exact h4 u hu hne hs

theorem firstSuffix_none {m : StrMap} {s : Bytes} (h : firstSuffix m s = none) :
    ∀ u, u <:+ s → u ≠ [] → m u = none := by
  induction s with
  | nil => intro u hu hne; exact absurd (List.suffix_nil.1 hu) hne
  | cons b bs ih =>
    rw [firstSuffix] at h
    split at h
    · simp at h
    · next hi =>
      intro u hu hne
      rcases List.suffix_cons_iff.1 hu with rfl | hu
      · exact hi
      · exact ih h u hu hne

theorem firstSuffix_isSome_of {m : StrMap} {s u : Bytes} (hu : u <:+ s) (hne : u ≠ [])
    (hm : (m u).isSome) : (firstSuffix m s).isSome := by
  cases h : firstSuffix m s with
  | some => rfl
  | none => simp [firstSuffix_none h u hu hne] at hm

namespace FragmentTokenizer

abbrev PMapOK (l : List ProtoState) (m : StrMap) : Prop := MapOK ProtoState.suffix l m

/-- Invariant of the state table while it is being built. -/
structure ProtoOK (spanBy : StrMap) (l : List ProtoState) (m : StrMap) : Prop where
  map : PMapOK l m
  head : l[0]? = some { suffix := [], spanIdx := 0 }
  span : ∀ k st, 0 < k → l[k]? = some st →
    0 < st.spanIdx ∧ st.spanIdx = (firstSuffix spanBy st.suffix).getD 0

theorem addPrefixStates_spec (spanBy : StrMap) (s : Bytes) (es : List Nat)
    (l : List ProtoState) (m : StrMap) (h : ProtoOK spanBy l m) :
    (∃ l' m', addPrefixStates spanBy s es l m = .ok (l', m') ∧ ProtoOK spanBy l' m' ∧
      (∀ t, (m' t).isSome ↔ (m t).isSome ∨ ∃ e ∈ es, t = s.take e)) ∨
    ((∃ e, addPrefixStates spanBy s es l m = .error e) ∧
      ∃ e ∈ es, (firstSuffix spanBy (s.take e)).getD 0 = 0) := by
  induction es generalizing l m with
  | nil => exact .inl ⟨l, m, rfl, h, by simp⟩
  | cons e es ih =>
    rw [addPrefixStates]
    by_cases hm : (m (s.take e)).isSome
    · simp only [hm, if_true]
      rcases ih l m h with ⟨l', m', h1, h2, h3⟩ | ⟨h1, e', he', h2⟩
      · refine .inl ⟨l', m', h1, h2, ?_⟩
        intro t
        rw [h3]
        constructor
        · rintro (h | ⟨e', he', rfl⟩)
          · exact .inl h
          · exact .inr ⟨e', by simp [he'], rfl⟩
        · rintro (h | ⟨e', he', rfl⟩)
          · exact .inl h
          · rcases List.mem_cons.1 he' with rfl | he'
            · exact .inl hm
            · exact .inr ⟨e', he', rfl⟩
      · exact .inr ⟨h1, e', by simp [he'], h2⟩
    · simp only [hm]
      by_cases hz : (firstSuffix spanBy (s.take e)).getD 0 > 0
      · have hn : m (s.take e) = none := by simpa using hm
        have h' : ProtoOK spanBy
            (l ++ [{ suffix := s.take e, spanIdx := (firstSuffix spanBy (s.take e)).getD 0 }])
            (m.insert (s.take e) l.length) := by
          refine ⟨h.map.snoc (str := ProtoState.suffix)
            { suffix := s.take e, spanIdx := (firstSuffix spanBy (s.take e)).getD 0 } hn, ?_, ?_⟩
          · rcases List.getElem?_eq_some_iff.1 h.head with ⟨h1, _⟩
            rw [List.getElem?_append_left h1]; exact h.head
          · intro k st hk hst
            by_cases hk' : k < l.length
            · rw [List.getElem?_append_left hk'] at hst
              exact h.span k st hk hst
            · rw [List.getElem?_append_right (by omega)] at hst
              have : k - l.length = 0 := by
                rcases List.getElem?_eq_some_iff.1 hst with ⟨h1, _⟩
                simp at h1; omega
              rw [this] at hst
              simp at hst
              subst hst
              exact ⟨hz, rfl⟩
        simp only [rassert, hz, decide_true, if_true, R.ok_bind]
        rcases ih _ _ h' with ⟨l', m', h1, h2, h3⟩ | ⟨h1, e', he', h2⟩
        · refine .inl ⟨l', m', by simpa using h1, h2, ?_⟩
          intro t
          rw [h3]
          have hi : (StrMap.insert m (s.take e) l.length t).isSome ↔
              (m t).isSome ∨ t = s.take e := by
            unfold StrMap.insert
            by_cases ht : t = s.take e <;> simp [ht]
          rw [hi]
          constructor
          · rintro ((h | h) | ⟨e', he', rfl⟩)
            · exact .inl h
            · exact .inr ⟨e, by simp, h⟩
            · exact .inr ⟨e', by simp [he'], rfl⟩
          · rintro (h | ⟨e', he', rfl⟩)
            · exact .inl (.inl h)
            · rcases List.mem_cons.1 he' with rfl | he'
              · exact .inl (.inr rfl)
              · exact .inr ⟨e', he', rfl⟩
        · exact .inr ⟨by simpa using h1, e', by simp [he'], h2⟩
      · refine .inr ⟨⟨.assertFailed, by simp [rassert, hz]⟩, e, by simp, by omega⟩

theorem addAllPrefixStates_spec (spanBy : StrMap) (spans : List Span)
    (l : List ProtoState) (m : StrMap) (h : ProtoOK spanBy l m) :
    (∃ l' m', addAllPrefixStates spanBy spans l m = .ok (l', m') ∧ ProtoOK spanBy l' m' ∧
      (∀ t, (m' t).isSome ↔ (m t).isSome ∨ ∃ sp ∈ spans, t ≠ [] ∧ t <+: sp.string)) ∨
    ((∃ e, addAllPrefixStates spanBy spans l m = .error e) ∧
      ∃ sp ∈ spans, ∃ t, t ≠ [] ∧ t <+: sp.string ∧ (firstSuffix spanBy t).getD 0 = 0) := by
  have hpre : ∀ (s t : Bytes), (∃ e ∈ (List.range s.length).map (· + 1), t = s.take e) ↔
      t ≠ [] ∧ t <+: s := by
    intro s t
    constructor
    · rintro ⟨e, he, rfl⟩
      simp only [List.mem_map, List.mem_range] at he
      obtain ⟨a, ha, rfl⟩ := he
      refine ⟨?_, List.take_prefix _ _⟩
      intro hc
      have := congrArg List.length hc
      simp at this
      rw [this] at ha; simp at ha
    · rintro ⟨hne, hp⟩
      refine ⟨t.length, ?_, (List.prefix_iff_eq_take.1 hp)⟩
      have h1 : 0 < t.length := List.length_pos_iff.2 hne
      have h2 := hp.length_le
      simp only [List.mem_map, List.mem_range]
      exact ⟨t.length - 1, by omega, by omega⟩
  induction spans generalizing l m with
  | nil => exact .inl ⟨l, m, rfl, h, by simp⟩
  | cons sp rest ih =>
    rw [addAllPrefixStates]
    rcases addPrefixStates_spec spanBy sp.string ((List.range sp.string.length).map (· + 1)) l m h
      with ⟨l1, m1, h1, hok, hdom⟩ | ⟨⟨e, h1⟩, e', he', h2⟩
    · simp only [h1, R.ok_bind]
      rcases ih l1 m1 hok with ⟨l', m', h1', h2, h3⟩ | ⟨h1', sp', hsp', h2⟩
      · refine .inl ⟨l', m', h1', h2, ?_⟩
        intro t
        rw [h3, hdom, hpre]
        simp only [List.mem_cons, exists_eq_or_imp]
        rw [or_assoc]
      · exact .inr ⟨h1', sp', by simp [hsp'], h2⟩
    · refine .inr ⟨⟨e, by simp [h1]⟩, sp, by simp, sp.string.take e', ?_⟩
      have := (hpre sp.string (sp.string.take e')).1 ⟨e', he', rfl⟩
      exact ⟨this.1, this.2, h2⟩

/-- The finished form of a state. -/
def mkState (m : StrMap) (st : ProtoState) : SuffixState :=
  { suffix := st.suffix, spanIdx := st.spanIdx,
    next := fun b => (firstSuffix m (st.suffix ++ [b])).getD 0 }

theorem fillNext_spec (m : StrMap) (l : List ProtoState) :
    (fillNext m l = .ok (l.map (mkState m)) ∧
      ∀ st ∈ l, ∀ b, 0 < (firstSuffix m (st.suffix ++ [b])).getD 0) ∨
    ((∃ e, fillNext m l = .error e) ∧
      ∃ st ∈ l, ∃ b, (firstSuffix m (st.suffix ++ [b])).getD 0 = 0) := by
  induction l with
  | nil => exact .inl ⟨rfl, by simp⟩
  | cons st rest ih =>
    rw [fillNext]
    by_cases hall :
        allBytes.all (fun b => decide ((firstSuffix m (st.suffix ++ [b])).getD 0 > 0)) = true
    · simp only [rassert, hall, if_true, R.ok_bind]
      rcases ih with ⟨h1, h2⟩ | ⟨⟨e, h1⟩, st', hst', h2⟩
      · refine .inl ⟨by simp [h1, mkState], ?_⟩
        intro st' hst' b
        rcases List.mem_cons.1 hst' with rfl | hst'
        · have := List.all_eq_true.1 hall b (mem_allBytes b)
          simpa using this
        · exact h2 st' hst' b
      · exact .inr ⟨⟨e, by simp [h1]⟩, st', by simp [hst'], h2⟩
    · refine .inr ⟨⟨.assertFailed, by simp [rassert, hall]⟩, st, by simp, ?_⟩
      apply Classical.byContradiction
      intro hc
      apply hall
      rw [List.all_eq_true]
      intro b _
      simp only [gt_iff_lt, decide_eq_true_eq]
      apply Nat.pos_of_ne_zero
      intro h0
      exact hc ⟨b, h0⟩

/-- What the rest of the development needs to know about the automaton. -/
structure StatesOK (spans : List Span) (spanBy : StrMap) (states : List SuffixState)
    (stateBy : StrMap) : Prop where
  map : MapOK SuffixState.suffix states stateBy
  head : ∃ st : SuffixState, states[0]? = some st ∧ st.suffix = []
  span : ∀ (k : Nat) (st : SuffixState), 0 < k → states[k]? = some st →
    st.spanIdx = (firstSuffix spanBy st.suffix).getD 0
  next : ∀ (k : Nat) (st : SuffixState), states[k]? = some st → ∀ b,
    st.next b = (firstSuffix stateBy (st.suffix ++ [b])).getD 0 ∧ 0 < st.next b
  dom : ∀ t, (stateBy t).isSome ↔ t = [] ∨ ∃ sp ∈ spans, t <+: sp.string

theorem protoOK_init (spanBy : StrMap) :
    ProtoOK spanBy [{ suffix := [], spanIdx := 0 }] (StrMap.insert (fun _ => none) [] 0) := by
  refine ⟨?_, rfl, ?_⟩
  · intro s k
    unfold StrMap.insert
    by_cases hs : s = []
    · subst hs
      simp only [if_true, Option.some.injEq]
      constructor
      · rintro rfl; exact ⟨_, rfl, rfl⟩
      · rintro ⟨x, hx, _⟩
        rcases List.getElem?_eq_some_iff.1 hx with ⟨h1, _⟩
        simp at h1; omega
    · simp only [hs, if_false]
      constructor
      · intro h; exact absurd h (by simp)
      · rintro ⟨x, hx, hxs⟩
        rcases List.getElem?_eq_some_iff.1 hx with ⟨h1, h2⟩
        simp at h2
        subst h2
        exact absurd hxs.symm hs
  · intro k st hk hst
    rcases List.getElem?_eq_some_iff.1 hst with ⟨h1, h2⟩
    simp at h1; omega

/-- `create_suffix_states` succeeds with a correct automaton, or some assertion fails. -/
theorem createSuffixStates_spec (ts : TokenSet) (spans : List Span) (spanBy : StrMap)
    (hs : SpansOK ts spans spanBy) :
    (∃ states stateBy, createSuffixStates spans spanBy = .ok states ∧
      StatesOK spans spanBy states stateBy ∧ ∀ b : UInt8, [b] ∈ pieceStrings ts) ∨
    ((∃ e, createSuffixStates spans spanBy = .error e) ∧ ∃ b : UInt8, [b] ∉ pieceStrings ts) := by
  -- keys of `spanBy` other than the empty string are exactly the piece strings
  have hkey : ∀ t, t ≠ [] → ((spanBy t).isSome ↔ t ∈ pieceStrings ts) := by
    intro t ht
    constructor
    · intro h
      obtain ⟨k, hk⟩ := Option.isSome_iff_exists.1 h
      obtain ⟨sp, hsp, rfl⟩ := (hs.map t k).1 hk
      have h0 : 0 < k := by
        rcases Nat.eq_zero_or_pos k with rfl | h
        · rw [hs.head] at hsp; simp at hsp; subst hsp; exact absurd rfl ht
        · exact h
      obtain ⟨_, _, p, _, hp, _⟩ := hs.sound k sp h0 hsp
      cases p with
      | tok i =>
        simp only [Piece.string] at hp
        split at hp
        · next s' h' =>
          simp at hp
          refine List.mem_append.2 (.inl ?_)
          unfold strTokens
          rw [List.mem_filterMap]
          exact ⟨.str s', List.mem_iff_getElem?.2 ⟨i, h'⟩, by simp [tokenText, hp]⟩
        · simp at hp
      | seq j =>
        simp only [Piece.string] at hp
        split at hp
        · next q h' =>
          simp at hp
          refine List.mem_append.2 (.inr ?_)
          rw [← hp]
          exact List.mem_map.2 ⟨q, List.mem_iff_getElem?.2 ⟨j, h'⟩, rfl⟩
        · simp at hp
    · intro h
      have : ∃ p : Piece, p.string ts = some t := by
        rcases List.mem_append.1 h with h | h
        · obtain ⟨tok, h1, h2⟩ := List.mem_filterMap.1 h
          obtain ⟨i, hi⟩ := List.mem_iff_getElem?.1 h1
          cases tok with
          | ext n => simp [tokenText] at h2
          | str s => simp [tokenText] at h2; subst h2; exact ⟨.tok i, by simp [Piece.string, hi]⟩
        · obtain ⟨q, h1, rfl⟩ := List.mem_map.1 h
          obtain ⟨j, hj⟩ := List.mem_iff_getElem?.1 h1
          exact ⟨.seq j, by simp [Piece.string, hj]⟩
      obtain ⟨p, hp⟩ := this
      obtain ⟨k, sp, _, hsp, hstr, _⟩ := hs.complete p t hp
      rw [(hs.map t k).2 ⟨sp, hsp, hstr⟩]; rfl
  -- a value of `spanBy` at a non-empty key is positive
  have hpos : ∀ t k, t ≠ [] → spanBy t = some k → 0 < k := by
    intro t k ht hk
    obtain ⟨sp, hsp, rfl⟩ := (hs.map t k).1 hk
    rcases Nat.eq_zero_or_pos k with rfl | h
    · rw [hs.head] at hsp; simp at hsp; subst hsp; exact absurd rfl ht
    · exact h
  have hbyte : ∀ (w : Bytes) (b : UInt8), (firstSuffix spanBy (w ++ [b])).getD 0 = 0 →
      [b] ∉ pieceStrings ts := by
    intro w b h0 hmem
    have h1 : ([b] : Bytes) <:+ w ++ [b] := List.suffix_append _ _
    have h2 := firstSuffix_isSome_of h1 (by simp) ((hkey [b] (by simp)).2 hmem)
    obtain ⟨k, hk⟩ := Option.isSome_iff_exists.1 h2
    obtain ⟨t, _, hne, hmt, _⟩ := firstSuffix_some hk
    have := hpos t k hne hmt
    simp [hk] at h0
    omega
  unfold createSuffixStates
  rcases addAllPrefixStates_spec spanBy spans _ _ (protoOK_init spanBy) with
    ⟨l, m, h1, hok, hdom⟩ | ⟨⟨e, h1⟩, sp, hsp, t, hne, hp, h0⟩
  · simp only [h1, R.ok_bind]
    have hdom' : ∀ t, (m t).isSome ↔ t = [] ∨ ∃ sp ∈ spans, t <+: sp.string := by
      intro t
      rw [hdom]
      have hi : (StrMap.insert (fun _ => none) [] 0 t).isSome ↔ t = [] := by
        unfold StrMap.insert
        by_cases ht : t = [] <;> simp [ht]
      rw [hi]
      by_cases ht : t = [] <;> simp [ht]
    rcases fillNext_spec m l with ⟨h2, h3⟩ | ⟨⟨e, h2⟩, st, hst, b, h3⟩
    · left
      refine ⟨_, m, h2, ⟨?_, ?_, ?_, ?_, hdom'⟩, ?_⟩
      · intro s k
        rw [hok.map s k]
        simp only [List.getElem?_map]
        constructor
        · rintro ⟨x, hx, hs'⟩
          exact ⟨_, by rw [hx]; rfl, hs'⟩
        · rintro ⟨y, hy, hs'⟩
          cases hx : l[k]? with
          | none => simp [hx] at hy
          | some x =>
            simp [hx] at hy
            subst hy
            exact ⟨x, rfl, hs'⟩
      · exact ⟨_, by rw [List.getElem?_map, hok.head]; rfl, rfl⟩
      · intro k st hk hst
        rw [List.getElem?_map] at hst
        cases hx : l[k]? with
        | none => simp [hx] at hst
        | some x =>
          simp [hx] at hst
          subst hst
          exact (hok.span k x hk hx).2
      · intro k st hst b
        rw [List.getElem?_map] at hst
        cases hx : l[k]? with
        | none => simp [hx] at hst
        | some x =>
          simp [hx] at hst
          subst hst
          exact ⟨rfl, h3 x (List.mem_iff_getElem?.2 ⟨k, hx⟩) b⟩
      · intro b
        have hmem : ({ suffix := [], spanIdx := 0 } : ProtoState) ∈ l :=
          List.mem_iff_getElem?.2 ⟨0, hok.head⟩
        have h4 := h3 _ hmem b
        simp only [List.nil_append] at h4
        cases h5 : firstSuffix m [b] with
        | none => simp [h5] at h4
        | some k =>
          simp [h5] at h4
          obtain ⟨t, ht, hne, hmt, _⟩ := firstSuffix_some h5
          have htb : t = [b] := by
            rcases List.suffix_cons_iff.1 ht with h | h
            · exact h
            · exact absurd (List.suffix_nil.1 h) hne
          subst htb
          obtain ⟨st, hst, hsuf⟩ := (hok.map [b] k).1 hmt
          have := hok.span k st h4 hst
          rw [hsuf] at this
          apply Classical.byContradiction
          intro hc
          have h6 : firstSuffix spanBy [b] = none := by
            rw [firstSuffix]
            cases h7 : spanBy [b] with
            | some k' => exact absurd ((hkey [b] (by simp)).1 (by simp [h7])) hc
            | none => rfl
          rw [h6] at this
          simp at this
          omega
    · right
      refine ⟨⟨e, h2⟩, b, ?_⟩
      intro hmem
      have hb : (m [b]).isSome := by
        rw [hdom']
        right
        obtain ⟨k, hk⟩ := Option.isSome_iff_exists.1 ((hkey [b] (by simp)).2 hmem)
        obtain ⟨sp, hsp, hstr⟩ := (hs.map [b] k).1 hk
        exact ⟨sp, List.mem_iff_getElem?.2 ⟨k, hsp⟩, by rw [hstr]; exact List.prefix_refl _⟩
      have h4 : (firstSuffix m (st.suffix ++ [b])).isSome :=
        firstSuffix_isSome_of (List.suffix_append _ _) (by simp) hb
      obtain ⟨k, hk⟩ := Option.isSome_iff_exists.1 h4
      simp [hk] at h3
      subst h3
      obtain ⟨t, _, hne, hmt, _⟩ := firstSuffix_some hk
      obtain ⟨st', hst', hsuf⟩ := (hok.map t 0).1 hmt
      rw [hok.head] at hst'
      simp at hst'
      subst hst'
      exact hne hsuf.symm
  · right
    refine ⟨⟨e, by simp [h1]⟩, ?_⟩
    have : t = t.dropLast ++ [t.getLast hne] := (List.dropLast_concat_getLast hne).symm
    rw [this] at h0
    exact ⟨_, hbyte _ _ h0⟩

end FragmentTokenizer
end Tokens
