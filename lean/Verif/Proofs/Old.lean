import Verif.Spec.Old
import Verif.Proofs.DP
import Verif.Proofs.Traceback
import Verif.Proofs.Bytes
import Mathlib.Data.List.Nodup
import Mathlib.Data.List.Forall2
import Mathlib.Data.List.Induction

/-! Lemmas about the first generation of the tokenizer. -/

set_option linter.unusedSimpArgs false
set_option linter.unusedVariables false

namespace Tokens.Old
open Tokens Spec.Old

/-! ### Sets -/

/-- A set in order: the table is right, and no token is empty. -/
structure SetOK (ts : OSet) : Prop where
  map : MapOK OToken.string ts.tokens ts.byString
  nonempty : ∀ t ∈ ts.tokens, t.string ≠ []

theorem mapOK_nil {α : Type} (str : α → Bytes) : MapOK str [] (fun _ => none) := by
  intro s k
  constructor
  · intro h; cases h
  · rintro ⟨x, hx, _⟩; simp at hx

theorem SetOK.snoc {ts : OSet} (h : SetOK ts) (t : OToken) (hn : ts.byString t.string = none) (hne : t.string ≠ []) :
    SetOK { ts with tokens := ts.tokens ++ [t], byString := ts.byString.insert t.string ts.tokens.length } := by
  refine ⟨h.map.snoc t hn, ?_⟩
  intro u hu
  rcases List.mem_append.1 hu with hu | hu
  · exact h.nonempty u hu
  · rw [List.mem_singleton.1 hu]; exact hne

theorem addAllMandatory_ok (l : List Bytes) (ts : OSet) (h : SetOK ts) (hn : ∀ s ∈ l, s ≠ [])
    (hd : ∀ s ∈ l, ts.byString s = none) (hnd : l.Nodup) :
    ∃ ts', ts.addAllMandatory l = .ok ts' ∧ SetOK ts' ∧ ts'.literal = ts.literal := by
  induction l generalizing ts with
  | nil => exact ⟨ts, rfl, h, rfl⟩
  | cons s l ih =>
    rw [OSet.addAllMandatory, OSet.addMandatory]
    have h0 := hd s (by simp)
    have hs := hn s (by simp)
    rw [h0, Option.isNone_none, rassert_true rfl]
    simp only [R.ok_bind]
    obtain ⟨hsl, hnd'⟩ := List.nodup_cons.1 hnd
    obtain ⟨ts', h1, h2, h3⟩ := ih _ (h.snoc { string := s, isMandatory := true, suffix := .none } h0 hs)
      (fun x hx => hn x (List.mem_cons_of_mem _ hx)) (fun x hx => by
        show StrMap.insert _ _ _ _ = none
        unfold StrMap.insert
        rw [if_neg (fun (e : x = s) => hsl (e ▸ hx))]
        exact hd x (List.mem_cons_of_mem _ hx)) hnd'
    exact ⟨ts', h1, h2, h3⟩

theorem mandatory_ne (le : LiteralEncoding) : ∀ s ∈ OSet.mandatory le, s ≠ [] := by
  intro s hs
  cases le
  case all =>
    obtain ⟨b, _, rfl⟩ := List.mem_map.1 hs
    exact List.cons_ne_nil _ _
  case hex =>
    revert s
    show ∀ s ∈ [[(0x10 : UInt8)], [48], [49], [50], [51], [52], [53], [54], [55], [56], [57],
      [97], [98], [99], [100], [101], [102]], s ≠ []
    decide
  all_goals cases hs

theorem mandatory_nodup (le : LiteralEncoding) : (OSet.mandatory le).Nodup := by
  cases le
  case all =>
    exact List.Nodup.map (fun a b h => by cases h; rfl) allBytes_nodup
  case hex =>
    show ([[(0x10 : UInt8)], [48], [49], [50], [51], [52], [53], [54], [55], [56], [57],
      [97], [98], [99], [100], [101], [102]] : List Bytes).Nodup
    decide
  all_goals exact List.nodup_nil

theorem new_ok (le : LiteralEncoding) : ∃ ts, OSet.new le = .ok ts ∧ SetOK ts ∧ ts.literal = le := by
  obtain ⟨ts, h1, h2, h3⟩ := addAllMandatory_ok (OSet.mandatory le)
    { tokens := [], byString := fun _ => none, literal := le } ⟨mapOK_nil _, fun t ht => by cases ht⟩
    (mandatory_ne le) (fun s _ => rfl) (mandatory_nodup le)
  exact ⟨ts, h1, h2, h3⟩

theorem addToken_ok {ts ts' : OSet} {s : Bytes} (h : SetOK ts) (hs : s ≠ []) (ha : ts.addToken s = .ok ts') :
    SetOK ts' := by
  unfold OSet.addToken at ha
  cases hm : ts.byString s with
  | some k =>
    rw [hm] at ha
    obtain ⟨t, ht, _⟩ := (h.map s k).1 hm
    simp only [getR_of ht, R.ok_bind] at ha
    cases hb : t.isMandatory with
    | true => rw [hb, rassert_true rfl] at ha; simp only [R.ok_bind] at ha; cases ha; exact h
    | false => rw [hb] at ha; cases ha
  | none =>
    rw [hm] at ha
    cases ha
    exact h.snoc _ hm hs

theorem reindex_ok (l done : List OToken) (m : StrMap) (hm : MapOK OToken.string done m)
    (hn : ((done ++ l).map OToken.string).Nodup) :
    MapOK OToken.string (done ++ l) (OSet.reindex l done.length m) := by
  induction l generalizing done m with
  | nil => simpa [OSet.reindex] using hm
  | cons t l ih =>
    rw [OSet.reindex]
    have h0 : m t.string = none := by
      rw [hm.none_iff]
      intro hc
      rw [List.map_append, List.map_cons, List.nodup_append] at hn
      exact hn.2.2 _ hc _ (by simp) rfl
    have := ih (done ++ [t]) _ (hm.snoc t h0) (by simpa using hn)
    simpa using this

theorem removeToken_ok {ts ts' : OSet} {s : Bytes} (h : SetOK ts) (ha : ts.removeToken s = .ok ts') :
    SetOK ts' := by
  unfold OSet.removeToken at ha
  cases hm : ts.byString s with
  | none => rw [hm] at ha; cases ha
  | some k =>
    obtain ⟨t, ht, _⟩ := (h.map s k).1 hm
    simp only [hm, unwrapR_some, getR_of ht, R.ok_bind] at ha
    cases hb : t.isMandatory with
    | true => rw [hb] at ha; cases ha
    | false =>
      rw [hb] at ha
      simp only [Bool.not_false, rassert_true rfl, R.ok_bind] at ha
      cases ha
      have hsub : (ts.tokens.eraseIdx k).Sublist ts.tokens := List.eraseIdx_sublist _ _
      refine ⟨?_, fun u hu => h.nonempty u (hsub.subset hu)⟩
      exact reindex_ok _ [] _ (mapOK_nil _) (by simpa using (hsub.map OToken.string).nodup h.map.nodup)

theorem made_ok {ts : OSet} (h : Made ts) : SetOK ts := by
  induction h with
  | @new le ts h =>
    obtain ⟨ts', h1, h2, _⟩ := new_ok le
    rw [h] at h1; cases h1; exact h2
  | add _ hs h ih => exact addToken_ok ih hs h
  | remove _ h ih => exact removeToken_ok ih h

/-! ### The suffixes -/

theorem suffixOf_ok (m : StrMap) {s : Bytes} (h : s ≠ []) : ∃ x, OSet.suffixOf m s = .ok x := by
  match s, h with
  | [b], _ => exact ⟨_, rfl⟩
  | b :: c :: rest, _ =>
    rw [OSet.suffixOf]
    cases firstSuffix m (c :: rest) with
    | some k => exact ⟨_, rfl⟩
    | none => exact ⟨_, rfl⟩

/-- The tokens with their suffixes. -/
structure Linked (m : StrMap) (l l' : List OToken) : Prop where
  strings : l'.map OToken.string = l.map OToken.string
  suffix : ∀ t ∈ l', OSet.suffixOf m t.string = .ok t.suffix

theorem suffixes_ok (m : StrMap) (l : List OToken) (h : ∀ t ∈ l, t.string ≠ []) :
    ∃ l', OSet.suffixes m l = .ok l' ∧ Linked m l l' := by
  induction l with
  | nil => exact ⟨[], rfl, rfl, fun t ht => by cases ht⟩
  | cons t l ih =>
    obtain ⟨x, hx⟩ := suffixOf_ok m (h t (by simp))
    obtain ⟨l', h1, h2⟩ := ih (fun u hu => h u (List.mem_cons_of_mem _ hu))
    refine ⟨{ t with suffix := x } :: l', ?_, ?_, ?_⟩
    · rw [OSet.suffixes, hx]
      simp only [R.ok_bind, h1]
    · simp only [List.map_cons, h2.strings]
    · intro u hu
      rcases List.mem_cons.1 hu with rfl | hu
      · exact hx
      · exact h2.suffix u hu

/-! ### The automaton -/

structure ProtoOK (by_ : StrMap) (l : List Proto) (m : StrMap) : Prop where
  map : MapOK Proto.suffix l m
  head : l[0]? = some { suffix := [], tokenIdx := .none }
  tok : ∀ k st, 0 < k → l[k]? = some st → st.suffix ≠ [] ∧ st.tokenIdx = endToken by_ st.suffix

theorem ProtoOK.snoc {by_ : StrMap} {l : List Proto} {m : StrMap} (h : ProtoOK by_ l m) (s : Bytes)
    (hn : m s = none) (x : TokenIdx) (hx : x = endToken by_ s) :
    ProtoOK by_ (l ++ [{ suffix := s, tokenIdx := x }]) (m.insert s l.length) := by
  have hs : s ≠ [] := by
    rintro rfl
    rw [(h.map [] 0).2 ⟨_, h.head, rfl⟩] at hn; cases hn
  refine ⟨h.map.snoc { suffix := s, tokenIdx := x } hn, ?_, ?_⟩
  · rcases List.getElem?_eq_some_iff.1 h.head with ⟨h1, _⟩
    rw [List.getElem?_append_left h1]; exact h.head
  · intro k st hk hst
    by_cases hk' : k < l.length
    · rw [List.getElem?_append_left hk'] at hst
      exact h.tok k st hk hst
    · rw [List.getElem?_append_right (by omega)] at hst
      have : k - l.length = 0 := by
        rcases List.getElem?_eq_some_iff.1 hst with ⟨h1, _⟩
        simp at h1; omega
      rw [this] at hst
      simp at hst
      subst hst
      exact ⟨hs, hx⟩

theorem insert_isSome (m : StrMap) (s : Bytes) (k : Nat) (t : Bytes) :
    (StrMap.insert m s k t).isSome ↔ (m t).isSome ∨ t = s := by
  unfold StrMap.insert
  by_cases ht : t = s <;> simp [ht]

theorem addPrefixes_ok (by_ : StrMap) (s : Bytes) (es : List Nat) (l : List Proto) (m : StrMap)
    (h : ProtoOK by_ l m) :
    ProtoOK by_ (addPrefixes by_ s es l m).1 (addPrefixes by_ s es l m).2 ∧
    ∀ t, ((addPrefixes by_ s es l m).2 t).isSome ↔ (m t).isSome ∨ ∃ e ∈ es, t = s.take e := by
  induction es generalizing l m with
  | nil => exact ⟨h, fun t => by simp [addPrefixes]⟩
  | cons e es ih =>
    rw [addPrefixes]
    by_cases hm : (m (s.take e)).isSome
    · simp only [hm, if_true]
      obtain ⟨h1, h2⟩ := ih l m h
      refine ⟨h1, fun t => ?_⟩
      rw [h2]
      simp only [List.mem_cons, exists_eq_or_imp]
      constructor
      · rintro (h | h)
        · exact .inl h
        · exact .inr (.inr h)
      · rintro (h | rfl | h)
        · exact .inl h
        · exact .inl hm
        · exact .inr h
    · simp only [hm]
      have hn : m (s.take e) = none := by simpa using hm
      obtain ⟨h1, h2⟩ := ih _ _ (h.snoc _ hn _ rfl)
      refine ⟨by simpa using h1, fun t => ?_⟩
      have := h2 t
      rw [insert_isSome] at this
      simp only [List.mem_cons, exists_eq_or_imp]
      rw [← or_assoc]
      simpa using this

theorem take_prefixes (s t : Bytes) : (∃ e ∈ (List.range s.length).map (· + 1), t = s.take e) ↔
    t ≠ [] ∧ t <+: s := by
  constructor
  · rintro ⟨e, he, rfl⟩
    simp only [List.mem_map, List.mem_range] at he
    obtain ⟨a, ha, rfl⟩ := he
    refine ⟨?_, List.take_prefix _ _⟩
    intro hc
    have := congrArg List.length hc
    simp at this
    rw [this] at ha; simp at ha
  · rintro ⟨hne, hp⟩
    refine ⟨t.length, ?_, (List.prefix_iff_eq_take.1 hp)⟩
    have h1 : 0 < t.length := List.length_pos_iff.2 hne
    have h2 := hp.length_le
    simp only [List.mem_map, List.mem_range]
    exact ⟨t.length - 1, by omega, by omega⟩

theorem addAllPrefixes_ok (by_ : StrMap) (ts : List OToken) (l : List Proto) (m : StrMap) (h : ProtoOK by_ l m) :
    ProtoOK by_ (addAllPrefixes by_ ts l m).1 (addAllPrefixes by_ ts l m).2 ∧
    ∀ t, ((addAllPrefixes by_ ts l m).2 t).isSome ↔
      (m t).isSome ∨ ∃ u ∈ ts, t ≠ [] ∧ t <+: u.string := by
  induction ts generalizing l m with
  | nil => exact ⟨h, fun t => by simp [addAllPrefixes]⟩
  | cons u ts ih =>
    rw [addAllPrefixes]
    obtain ⟨h1, h2⟩ := addPrefixes_ok by_ u.string ((List.range u.string.length).map (· + 1)) l m h
    obtain ⟨h3, h4⟩ := ih _ _ h1
    refine ⟨h3, fun t => ?_⟩
    rw [h4, h2, take_prefixes]
    simp only [List.mem_cons, exists_eq_or_imp]
    rw [or_assoc]

theorem addLiterals_ok (by_ : StrMap) (bs : List UInt8) (l : List Proto) (m : StrMap) (h : ProtoOK by_ l m)
    (hin : ∀ b, (by_ [b]).isSome → (m [b]).isSome) :
    ProtoOK by_ (addLiterals bs l m).1 (addLiterals bs l m).2 ∧
    ∀ t, ((addLiterals bs l m).2 t).isSome ↔ (m t).isSome ∨ ∃ b ∈ bs, t = [b] := by
  induction bs generalizing l m with
  | nil => exact ⟨h, fun t => by simp [addLiterals]⟩
  | cons b bs ih =>
    rw [addLiterals]
    by_cases hm : (m [b]).isSome
    · simp only [hm, if_true]
      obtain ⟨h1, h2⟩ := ih l m h hin
      refine ⟨h1, fun t => ?_⟩
      rw [h2]
      simp only [List.mem_cons, exists_eq_or_imp]
      constructor
      · rintro (h | h)
        · exact .inl h
        · exact .inr (.inr h)
      · rintro (h | rfl | h)
        · exact .inl h
        · exact .inl hm
        · exact .inr h
    · simp only [hm]
      have hn : m [b] = none := by simpa using hm
      have hb : by_ [b] = none := by
        cases hc : by_ [b] with
        | none => rfl
        | some k => exact absurd (hin b (by rw [hc]; rfl)) hm
      obtain ⟨h1, h2⟩ := ih _ _ (h.snoc [b] hn (.literal b) (by
        simp [endToken, firstSuffix, hb])) (fun c hc => (insert_isSome _ _ _ _).2 (.inl (hin c hc)))
      refine ⟨by simpa using h1, fun t => ?_⟩
      have := h2 t
      rw [insert_isSome] at this
      simp only [List.mem_cons, exists_eq_or_imp]
      rw [← or_assoc]
      simpa using this

/-- The finished form of a state. -/
def mkState (m : StrMap) (st : Proto) : State :=
  { suffix := st.suffix, tokenIdx := st.tokenIdx,
    next := fun b => (firstSuffix m (st.suffix ++ [b])).getD 0 }

theorem fillNext_ok (m : StrMap) (l : List Proto) (hb : ∀ b : UInt8, (m [b]).isSome) :
    fillNext m l = .ok (l.map (mkState m)) := by
  induction l with
  | nil => rfl
  | cons st rest ih =>
    rw [fillNext]
    have hall : allBytes.all (fun b => (firstSuffix m (st.suffix ++ [b])).isSome) = true := by
      rw [List.all_eq_true]
      intro b _
      exact firstSuffix_isSome_of (List.suffix_append _ _) (by simp) (hb b)
    rw [if_pos hall]
    simp only [unwrapR_some, R.ok_bind, ih, List.map_cons, mkState]

structure StatesOK (tokens : List OToken) (by_ : StrMap) (states : List State) (m : StrMap) : Prop where
  map : MapOK State.suffix states m
  head : ∃ st : State, states[0]? = some st ∧ st.suffix = []
  tok : ∀ (k : Nat) (st : State), states[k]? = some st → st.suffix ≠ [] → st.tokenIdx = endToken by_ st.suffix
  next : ∀ (k : Nat) (st : State), states[k]? = some st → ∀ b,
    ∃ i, firstSuffix m (st.suffix ++ [b]) = some i ∧ st.next b = i
  dom : ∀ t, (m t).isSome ↔ t = [] ∨ (∃ u ∈ tokens, t <+: u.string) ∨ ∃ b, t = [b]

theorem createStates_ok {ts : OSet} (h : SetOK ts) :
    ∃ states m, createStates ts = .ok states ∧ StatesOK ts.tokens ts.byString states m := by
  have hinit : ProtoOK ts.byString [{ suffix := [], tokenIdx := .none }] (StrMap.insert (fun _ => none) [] 0) := by
    have := (mapOK_nil Proto.suffix).snoc { suffix := [], tokenIdx := .none } rfl
    refine ⟨this, rfl, ?_⟩
    intro k st hk hst
    rcases List.getElem?_eq_some_iff.1 hst with ⟨h1, h2⟩
    simp at h1; omega
  unfold createStates
  obtain ⟨h1, h2⟩ := addAllPrefixes_ok ts.byString ts.tokens _ _ hinit
  have hin : ∀ b, (ts.byString [b]).isSome →
      ((addAllPrefixes ts.byString ts.tokens [{ suffix := [], tokenIdx := .none }]
        (StrMap.insert (fun _ => none) [] 0)).2 [b]).isSome := by
    intro b hb
    rw [h2]
    obtain ⟨k, hk⟩ := Option.isSome_iff_exists.1 hb
    obtain ⟨t, ht, hts⟩ := (h.map _ _).1 hk
    exact .inr ⟨t, List.mem_iff_getElem?.2 ⟨k, ht⟩, by simp, by rw [hts]; exact List.prefix_refl _⟩
  obtain ⟨h3, h4⟩ := addLiterals_ok ts.byString allBytes _ _ h1 hin
  have hb : ∀ b : UInt8, ((addLiterals allBytes (addAllPrefixes ts.byString ts.tokens [{ suffix := [], tokenIdx := .none }]
        (StrMap.insert (fun _ => none) [] 0)).1 (addAllPrefixes ts.byString ts.tokens [{ suffix := [], tokenIdx := .none }]
        (StrMap.insert (fun _ => none) [] 0)).2).2 [b]).isSome :=
    fun b => (h4 [b]).2 (.inr ⟨b, mem_allBytes b, rfl⟩)
  refine ⟨_, (addLiterals allBytes (addAllPrefixes ts.byString ts.tokens [{ suffix := [], tokenIdx := .none }]
        (StrMap.insert (fun _ => none) [] 0)).1 (addAllPrefixes ts.byString ts.tokens [{ suffix := [], tokenIdx := .none }]
        (StrMap.insert (fun _ => none) [] 0)).2).2, fillNext_ok _ _ hb, ?_⟩
  generalize (addLiterals allBytes (addAllPrefixes ts.byString ts.tokens [{ suffix := [], tokenIdx := .none }]
        (StrMap.insert (fun _ => none) [] 0)).1 (addAllPrefixes ts.byString ts.tokens [{ suffix := [], tokenIdx := .none }]
        (StrMap.insert (fun _ => none) [] 0)).2) = r at *
  have hget : ∀ (k : Nat) (st : State), (r.1.map (mkState r.2))[k]? = some st → ∃ x, r.1[k]? = some x ∧ st = mkState r.2 x := by
    intro k st hst
    rw [List.getElem?_map] at hst
    cases hx : r.1[k]? with
    | none => simp [hx] at hst
    | some x =>
      simp [hx] at hst
      exact ⟨x, rfl, hst.symm⟩
  refine ⟨?_, ⟨mkState r.2 _, by rw [List.getElem?_map, h3.head]; rfl, rfl⟩, ?_, ?_, ?_⟩
  · intro s k
    rw [h3.map s k]
    constructor
    · rintro ⟨x, hx, hs'⟩
      exact ⟨mkState r.2 x, by rw [List.getElem?_map, hx]; rfl, hs'⟩
    · rintro ⟨y, hy, hs'⟩
      obtain ⟨x, hx, rfl⟩ := hget k y hy
      exact ⟨x, hx, hs'⟩
  · intro k st hst hne
    obtain ⟨x, hx, rfl⟩ := hget k st hst
    rcases Nat.eq_zero_or_pos k with rfl | hk
    · rw [h3.head] at hx
      cases hx
      exact absurd rfl hne
    · exact (h3.tok k x hk hx).2
  · intro k st hst b
    obtain ⟨x, hx, rfl⟩ := hget k st hst
    obtain ⟨i, hi⟩ := Option.isSome_iff_exists.1
      (firstSuffix_isSome_of (m := r.2) (List.suffix_append x.suffix [b]) (by simp) (hb b))
    exact ⟨i, hi, by show (firstSuffix r.2 (x.suffix ++ [b])).getD 0 = i; rw [hi]; rfl⟩
  · intro t
    rw [h4, h2, insert_isSome]
    simp only [Option.isSome_none, Bool.false_eq_true, false_or]
    by_cases ht : t = []
    · simp [ht]
    · simp only [ht, false_or, ne_eq, not_false_iff, true_and]
      constructor
      · rintro (h | ⟨b, _, rfl⟩)
        · exact .inl h
        · exact .inr ⟨b, rfl⟩
      · rintro (h | ⟨b, rfl⟩)
        · exact .inl h
        · exact .inr ⟨b, mem_allBytes b, rfl⟩

/-- A tokenizer in order. -/
structure TkOK (ts : OSet) (tk : Tokenizer) : Prop where
  strings : tk.set.tokens.map OToken.string = ts.tokens.map OToken.string
  literal : tk.set.literal = ts.literal
  map : MapOK OToken.string tk.set.tokens ts.byString
  nonempty : ∀ t ∈ tk.set.tokens, t.string ≠ []
  suffix : ∀ t ∈ tk.set.tokens, OSet.suffixOf ts.byString t.string = .ok t.suffix
  states : ∃ m, StatesOK tk.set.tokens ts.byString tk.states m

theorem mapOK_of_strings {l l' : List OToken} {m : StrMap} (h : MapOK OToken.string l m)
    (e : l'.map OToken.string = l.map OToken.string) : MapOK OToken.string l' m := by
  intro s k
  rw [h s k]
  have hk : (l'[k]?).map OToken.string = (l[k]?).map OToken.string := by
    rw [← List.getElem?_map, ← List.getElem?_map, e]
  constructor
  · rintro ⟨x, hx, rfl⟩
    rw [hx] at hk
    cases hy : l'[k]? with
    | none => rw [hy] at hk; cases hk
    | some y => rw [hy] at hk; exact ⟨y, rfl, Option.some.inj hk⟩
  · rintro ⟨y, hy, rfl⟩
    rw [hy] at hk
    cases hx : l[k]? with
    | none => rw [hx] at hk; cases hk
    | some x => rw [hx] at hk; exact ⟨x, rfl, (Option.some.inj hk).symm⟩

theorem tokenizer_ok {ts : OSet} (h : SetOK ts) : ∃ tk, Tokenizer.new ts = .ok tk ∧ TkOK ts tk := by
  unfold Tokenizer.new OSet.generateSuffixes
  obtain ⟨l', h1, h2⟩ := suffixes_ok ts.byString ts.tokens h.nonempty
  simp only [h1, R.ok_bind]
  have hmap := mapOK_of_strings h.map h2.strings
  have hne : ∀ t ∈ l', t.string ≠ [] := by
    intro t ht
    have : t.string ∈ ts.tokens.map OToken.string := h2.strings ▸ List.mem_map_of_mem ht
    obtain ⟨u, hu, e⟩ := List.mem_map.1 this
    rw [← e]; exact h.nonempty u hu
  obtain ⟨states, m, h3, h4⟩ := createStates_ok (ts := { ts with tokens := l' }) ⟨hmap, hne⟩
  simp only [h3, R.ok_bind]
  exact ⟨_, rfl, h2.strings, rfl, hmap, hne, h2.suffix, m, h4⟩

/-! ### Spelling -/

theorem spells_append {ts : OSet} {ps qs : List Piece} {t u : Bytes} (h1 : Spells ts ps t)
    (h2 : Spells ts qs u) : Spells ts (ps ++ qs) (t ++ u) := by
  induction h1 with
  | nil => simpa using h2
  | cons hp _ ih => rw [List.cons_append, List.append_assoc]; exact .cons hp ih

theorem spells_snoc {ts : OSet} {ps : List Piece} {t s : Bytes} {p : Piece} (h1 : Spells ts ps t)
    (h2 : text ts p = some s) : Spells ts (ps ++ [p]) (t ++ s) := by
  have := spells_append h1 (Spells.cons h2 .nil)
  simpa using this

theorem spells_snoc_inv {ts : OSet} {ps : List Piece} {p : Piece} {t : Bytes} (h : Spells ts (ps ++ [p]) t) :
    ∃ u s, t = u ++ s ∧ Spells ts ps u ∧ text ts p = some s := by
  induction ps generalizing t with
  | nil =>
    cases h with
    | cons hp h => cases h; exact ⟨[], _, by simp, .nil, hp⟩
  | cons q ps ih =>
    cases h with
    | cons hp h =>
      obtain ⟨u, s, rfl, h1, h2⟩ := ih h
      exact ⟨_ ++ u, s, by simp, .cons hp h1, h2⟩

theorem cost_append (lc : Nat) (ps qs : List Piece) : cost lc (ps ++ qs) = cost lc ps + cost lc qs := by
  induction ps with
  | nil => simp [cost]
  | cons p ps ih => cases p <;> simp only [List.cons_append, cost, ih] <;> omega

theorem text_tok {ts : OSet} {tk : Tokenizer} (h : TkOK ts tk) {i : Nat} {s : Bytes} :
    text ts (.tok i) = some s ↔ ∃ t, tk.set.tokens[i]? = some t ∧ t.string = s := by
  have hk : (tk.set.tokens[i]?).map OToken.string = (ts.tokens[i]?).map OToken.string := by
    rw [← List.getElem?_map, ← List.getElem?_map, h.strings]
  rw [text, ← hk]
  cases tk.set.tokens[i]? with
  | none => simp
  | some t => simp

theorem literalCost_pos (le : LiteralEncoding) : 1 ≤ le.literalCost := by cases le <;> decide

/-! ### The cost table -/

/-- A way to end the text `x`, with its cost. -/
def Cand (tk : Tokenizer) (x : Bytes) (costs : List DynState) (d : DynState) : Prop :=
  (∃ (k : Nat) (t : OToken) (p : DynState), d.idx = .token k ∧ tk.set.tokens[k]? = some t ∧ t.string <:+ x ∧
    costs[x.length - t.string.length]? = some p ∧ d.cost = p.cost + 1) ∨
  (∃ (b : UInt8) (u : Bytes) (p : DynState), d.idx = .literal b ∧ x = u ++ [b] ∧
    costs[x.length - 1]? = some p ∧ d.cost = p.cost + tk.set.literal.literalCost)

/-- The candidate is a literal, or a token shorter than `n`. -/
def Shorter (tk : Tokenizer) (n : Nat) (d : DynState) : Prop :=
  ∀ (k : Nat) (t : OToken), d.idx = .token k → tk.set.tokens[k]? = some t → t.string.length < n

theorem getLastD_suffix (b : UInt8) (l : Bytes) (h : l ≠ []) : ∃ u, l = u ++ [l.getLastD b] := by
  refine ⟨l.dropLast, ?_⟩
  have h1 := (List.dropLast_concat_getLast h).symm
  have h2 : l.getLastD b = l.getLast h := by
    rw [List.getLastD_eq_getLast?, List.getLast?_eq_some_getLast h]; rfl
  rw [h2]; exact h1

theorem chain_ok {ts : OSet} {tk : Tokenizer} (h : TkOK ts tk) {x : Bytes} {costs : List DynState}
    (hlen : costs.length = x.length) (f : Nat) (token : OToken) (ht : token ∈ tk.set.tokens)
    (hsx : token.string <:+ x) (hf : token.string.length < f) (best : DynState) (hb : Cand tk x costs best)
    (hcur : ∃ p, costs[x.length - token.string.length]? = some p ∧ best.cost ≤ p.cost + 1) :
    ∃ d, chain tk.set.tokens tk.set.literal.literalCost costs f token best = .ok d ∧ Cand tk x costs d ∧
      d.cost ≤ best.cost ∧ ∀ c, Cand tk x costs c → Shorter tk token.string.length c → d.cost ≤ c.cost := by
  induction f generalizing token best with
  | zero => omega
  | succ f ih =>
    have hsuf := h.suffix token ht
    have hxl := hsx.length_le
    match hs : token.string, h.nonempty token ht with
    | [b], _ =>
      rw [hs] at hsuf
      have hsn : token.suffix = .none := (Except.ok.inj hsuf).symm
      refine ⟨best, by rw [chain, hsn], hb, Nat.le_refl _, ?_⟩
      intro c hc hsh
      rcases hc with ⟨k, t, p, e1, e2, e3, e4, e5⟩ | ⟨b', u, p, e1, e2, e3, e4⟩
      · have := hsh k t e1 e2
        have hne := h.nonempty t (List.mem_iff_getElem?.2 ⟨k, e2⟩)
        have := List.length_pos_iff.2 hne
        simp only [List.length_cons, List.length_nil] at *
        omega
      · obtain ⟨p', hp', hle⟩ := hcur
        rw [hs] at hp'
        have : p' = p := by
          have := hp'.symm.trans e3
          exact Option.some.inj this
        subst this
        have := literalCost_pos tk.set.literal
        omega
    | b :: c :: rest, _ =>
      rw [hs, OSet.suffixOf] at hsuf
      have htail : (c :: rest) <:+ x := (List.suffix_cons b (c :: rest)).trans (hs ▸ hsx)
      -- shorter candidates end in the tail
      have hcand : ∀ (k : Nat) (t : OToken), tk.set.tokens[k]? = some t → t.string <:+ x →
          t.string.length < (b :: c :: rest).length → t.string <:+ (c :: rest) := by
        intro k t e2 e3 e
        exact suffix_of_suffix_le e3 htail (by simp only [List.length_cons] at *; omega)
      cases hfs : firstSuffix ts.byString (c :: rest) with
      | some k =>
        rw [hfs] at hsuf
        have hsk : token.suffix = .token k := (Except.ok.inj hsuf).symm
        obtain ⟨t0, h1, h2, h3, h4⟩ := firstSuffix_some hfs
        obtain ⟨t, ht', hts⟩ := (h.map _ _).1 h3
        subst hts
        have hl1 := h1.length_le
        have hl2 := List.length_pos_iff.2 h2
        have hsl : token.string.length = rest.length + 2 := by rw [hs]; rfl
        have hidx : x.length - t.string.length < costs.length := by omega
        have hget := List.getElem?_eq_getElem hidx
        have hat : subR costs.length t.string.length = .ok (x.length - t.string.length) := by
          rw [subR_of (by simp only [List.length_cons] at hl1; omega), hlen]
        rw [chain, hsk]
        simp only [getR_of ht', R.ok_bind, hat, getR_of hget]
        have hc0 : Cand tk x costs { cost := costs[x.length - t.string.length].cost + 1, idx := .token k } :=
          .inl ⟨k, t, _, rfl, ht', h1.trans htail, hget, rfl⟩
        have hnew : Cand tk x costs (if costs[x.length - t.string.length].cost + 1 < best.cost then
            { cost := costs[x.length - t.string.length].cost + 1, idx := .token k } else best) := by
          split
          · exact hc0
          · exact hb
        obtain ⟨d, g1, g2, g3, g4⟩ := ih t (List.mem_iff_getElem?.2 ⟨k, ht'⟩) (h1.trans htail)
          (by simp only [List.length_cons] at hl1; omega) _ hnew
          ⟨_, hget, by split <;> (try dsimp only) <;> omega⟩
        have g5 : d.cost ≤ best.cost ∧ d.cost ≤ costs[x.length - t.string.length].cost + 1 := by
          refine ⟨Nat.le_trans g3 ?_, Nat.le_trans g3 ?_⟩ <;> split <;> (try dsimp only) <;> omega
        refine ⟨d, g1, g2, g5.1, ?_⟩
        intro c' hc' hsh
        by_cases hs' : Shorter tk t.string.length c'
        · exact g4 c' hc' hs'
        · rcases hc' with ⟨k', t', p, e1, e2, e3, e4, e5⟩ | ⟨b', u, p, e1, e2, e3, e4⟩
          · have hlt := hsh k' t' e1 e2
            have hin := hcand k' t' e2 e3 hlt
            have hle := h4 _ hin (h.nonempty t' (List.mem_iff_getElem?.2 ⟨k', e2⟩)) (by
              rw [(h.map _ _).2 ⟨t', e2, rfl⟩]; rfl)
            have heq : t'.string.length = t.string.length := by
              rcases Nat.lt_or_ge t'.string.length t.string.length with hlt' | hge
              · exfalso
                apply hs'
                intro k2 t2 e1' e2'
                rw [e1] at e1'
                cases e1'
                rw [e2] at e2'
                cases e2'
                exact hlt'
              · omega
            rw [heq, hget] at e4
            cases e4
            rw [e5]; exact g5.2
          · exfalso
            apply hs'
            intro k2 t2 e1' _
            rw [e1] at e1'; cases e1'
      | none =>
        rw [hfs] at hsuf
        have hsk : token.suffix = .literal ((c :: rest).getLastD b) := (Except.ok.inj hsuf).symm
        have hsl : token.string.length = rest.length + 2 := by rw [hs]; rfl
        have hidx : x.length - 1 < costs.length := by omega
        have hget := List.getElem?_eq_getElem hidx
        have hat : subR costs.length 1 = .ok (x.length - 1) := by rw [subR_of (by omega), hlen]
        rw [chain, hsk]
        simp only [R.ok_bind, hat, getR_of hget]
        obtain ⟨u, hu⟩ := getLastD_suffix b (c :: rest) (by simp)
        obtain ⟨v, hv⟩ := htail
        have hxu : x = (v ++ u) ++ [(c :: rest).getLastD b] := by
          rw [List.append_assoc, ← hu, hv]
        have hc0 : Cand tk x costs (DynState.mk (costs[x.length - 1].cost + tk.set.literal.literalCost)
            (.literal ((c :: rest).getLastD b))) := .inr ⟨_, _, _, rfl, hxu, hget, rfl⟩
        refine ⟨_, rfl, ?_, ?_, ?_⟩
        · split
          · exact hc0
          · exact hb
        · split <;> (try dsimp only) <;> omega
        · intro c' hc' hsh
          rcases hc' with ⟨k', t', p, e1, e2, e3, e4, e5⟩ | ⟨b', u', p, e1, e2, e3, e4⟩
          · exfalso
            have hin := hcand k' t' e2 e3 (hsh k' t' e1 e2)
            have := firstSuffix_none hfs _ hin (h.nonempty t' (List.mem_iff_getElem?.2 ⟨k', e2⟩))
            rw [(h.map _ _).2 ⟨t', e2, rfl⟩] at this
            cases this
          · rw [hget] at e3
            cases e3
            split <;> (try dsimp only) <;> omega

/-- The length of a piece of the table. -/
def reach (tk : Tokenizer) (d : DynState) : Nat :=
  match d.idx with
  | .token k => match tk.set.tokens[k]? with
    | some t => t.string.length
    | none => 0
  | _ => 1

/-- Every longer token at the end of `x` makes it dearer. -/
def Long (tk : Tokenizer) (x : Bytes) (costs : List DynState) (d : DynState) : Prop :=
  ∀ (k : Nat) (t : OToken) (p : DynState), tk.set.tokens[k]? = some t → t.string <:+ x →
    costs[x.length - t.string.length]? = some p → reach tk d < t.string.length → d.cost < p.cost + 1

theorem chain_long {ts : OSet} {tk : Tokenizer} (h : TkOK ts tk) {x : Bytes} {costs : List DynState}
    (hlen : costs.length = x.length) (f : Nat) (token : OToken) (ht : token ∈ tk.set.tokens)
    (hsx : token.string <:+ x) (hf : token.string.length < f) (best d : DynState)
    (hbest : ∀ (k : Nat) (t : OToken) (p : DynState), tk.set.tokens[k]? = some t → t.string <:+ x →
      costs[x.length - t.string.length]? = some p → token.string.length ≤ t.string.length →
      best.cost ≤ p.cost + 1 ∧ (reach tk best < t.string.length → best.cost < p.cost + 1))
    (hreach : token.string.length ≤ reach tk best)
    (hd : chain tk.set.tokens tk.set.literal.literalCost costs f token best = .ok d) : Long tk x costs d := by
  induction f generalizing token best with
  | zero => omega
  | succ f ih =>
    have hsuf := h.suffix token ht
    have hxl := hsx.length_le
    match hs : token.string, h.nonempty token ht with
    | [b], _ =>
      rw [hs] at hsuf
      have hsn : token.suffix = .none := (Except.ok.inj hsuf).symm
      rw [chain, hsn] at hd
      cases hd
      intro k t p e1 e2 e3 e4
      have hne := List.length_pos_iff.2 (h.nonempty t (List.mem_iff_getElem?.2 ⟨k, e1⟩))
      exact (hbest k t p e1 e2 e3 (by rw [hs]; exact hne)).2 e4
    | b :: c :: rest, _ =>
      rw [hs, OSet.suffixOf] at hsuf
      have htail : (c :: rest) <:+ x := (List.suffix_cons b (c :: rest)).trans (hs ▸ hsx)
      have hsl : token.string.length = rest.length + 2 := by rw [hs]; rfl
      have hcand : ∀ (k : Nat) (t : OToken), tk.set.tokens[k]? = some t → t.string <:+ x →
          t.string.length < token.string.length → t.string <:+ (c :: rest) := by
        intro k t e2 e3 e
        exact suffix_of_suffix_le e3 htail (by simp only [List.length_cons]; omega)
      cases hfs : firstSuffix ts.byString (c :: rest) with
      | some k =>
        rw [hfs] at hsuf
        have hsk : token.suffix = .token k := (Except.ok.inj hsuf).symm
        obtain ⟨t0, h1, h2, h3, h4⟩ := firstSuffix_some hfs
        obtain ⟨t, ht', hts⟩ := (h.map _ _).1 h3
        subst hts
        have hl1 := h1.length_le
        simp only [List.length_cons] at hl1
        have hl2 := List.length_pos_iff.2 h2
        have hidx : x.length - t.string.length < costs.length := by omega
        have hget := List.getElem?_eq_getElem hidx
        have hat : subR costs.length t.string.length = .ok (x.length - t.string.length) := by
          rw [subR_of (by omega), hlen]
        rw [chain, hsk] at hd
        simp only [getR_of ht', R.ok_bind, hat, getR_of hget] at hd
        have hr : ∀ cc, reach tk { cost := cc, idx := .token k } = t.string.length := by
          intro cc; simp only [reach, ht']
        have hbetween : ∀ (k' : Nat) (t' : OToken), tk.set.tokens[k']? = some t' → t'.string <:+ x →
            t.string.length < t'.string.length → token.string.length ≤ t'.string.length := by
          intro k' t' e1 e2 e3
          by_contra hc
          have hin := hcand k' t' e1 e2 (by omega)
          have hle := h4 _ hin (h.nonempty t' (List.mem_iff_getElem?.2 ⟨k', e1⟩)) (by
            rw [(h.map _ _).2 ⟨t', e1, rfl⟩]; rfl)
          omega
        have hsame : ∀ (t' : OToken) (p : DynState), t'.string.length = t.string.length →
            costs[x.length - t'.string.length]? = some p → p.cost = costs[x.length - t.string.length].cost := by
          intro t' p e1 e2
          rw [e1, hget] at e2
          cases e2; rfl
        refine ih t (List.mem_iff_getElem?.2 ⟨k, ht'⟩) (h1.trans htail) (by omega) _ ?_ ?_ hd
        · intro k' t' p e1 e2 e3 e4
          split
          · next hlt =>
            rw [hr]
            dsimp only
            rcases Nat.eq_or_lt_of_le e4 with e5 | e5
            · have := hsame t' p e5.symm e3
              exact ⟨by omega, by omega⟩
            · have := (hbest k' t' p e1 e2 e3 (hbetween k' t' e1 e2 e5)).1
              exact ⟨by omega, by omega⟩
          · next hlt =>
            rcases Nat.eq_or_lt_of_le e4 with e5 | e5
            · have := hsame t' p e5.symm e3
              exact ⟨by omega, by omega⟩
            · exact hbest k' t' p e1 e2 e3 (hbetween k' t' e1 e2 e5)
        · split
          · exact Nat.le_of_eq (hr _).symm
          · omega
      | none =>
        rw [hfs] at hsuf
        have hsk : token.suffix = .literal ((c :: rest).getLastD b) := (Except.ok.inj hsuf).symm
        have hidx : x.length - 1 < costs.length := by omega
        have hget := List.getElem?_eq_getElem hidx
        have hat : subR costs.length 1 = .ok (x.length - 1) := by rw [subR_of (by omega), hlen]
        rw [chain, hsk] at hd
        simp only [R.ok_bind, hat, getR_of hget] at hd
        have hd' := (Except.ok.inj hd).symm
        subst hd'
        intro k' t' p e1 e2 e3 e4
        have hge : token.string.length ≤ t'.string.length := by
          by_contra hc
          have hin := hcand k' t' e1 e2 (by omega)
          have := firstSuffix_none hfs _ hin (h.nonempty t' (List.mem_iff_getElem?.2 ⟨k', e1⟩))
          rw [(h.map _ _).2 ⟨t', e1, rfl⟩] at this
          cases this
        have h5 := hbest k' t' p e1 e2 e3 hge
        split at e4
        · next hlt =>
          rw [if_pos hlt]
          dsimp only
          omega
        · next hlt =>
          rw [if_neg hlt]
          exact h5.2 e4

theorem bestEnd_ok {ts : OSet} {tk : Tokenizer} (h : TkOK ts tk) {x : Bytes} {costs : List DynState}
    (hlen : costs.length = x.length) (state : State) (hne : state.suffix ≠ [])
    (hidx : state.tokenIdx = endToken ts.byString state.suffix) (hsx : state.suffix <:+ x)
    (hall : ∀ (k : Nat) (t : OToken), tk.set.tokens[k]? = some t → t.string <:+ x → t.string <:+ state.suffix) :
    ∃ d, bestEnd tk.set.tokens tk.set.literal.literalCost costs state = .ok d ∧ Cand tk x costs d ∧
      (∀ c, Cand tk x costs c → d.cost ≤ c.cost) ∧ Long tk x costs d := by
  unfold bestEnd
  have hxl := hsx.length_le
  have hpos := List.length_pos_iff.2 hne
  rw [hidx, endToken]
  cases hfs : firstSuffix ts.byString state.suffix with
  | some k =>
    obtain ⟨t0, h1, h2, h3, h4⟩ := firstSuffix_some hfs
    obtain ⟨t, ht, hts⟩ := (h.map _ _).1 h3
    subst hts
    have hl1 := h1.length_le
    have hl2 := List.length_pos_iff.2 h2
    have hi : x.length - t.string.length < costs.length := by omega
    have hget := List.getElem?_eq_getElem hi
    have hat : subR costs.length t.string.length = .ok (x.length - t.string.length) := by
      rw [subR_of (by omega), hlen]
    simp only [getR_of ht, R.ok_bind, hat, getR_of hget]
    have hc0 : Cand tk x costs { cost := costs[x.length - t.string.length].cost + 1, idx := .token k } :=
      .inl ⟨k, t, _, rfl, ht, h1.trans hsx, hget, rfl⟩
    obtain ⟨d, g1, g2, g3, g4⟩ := chain_ok h hlen (t.string.length + 1) t (List.mem_iff_getElem?.2 ⟨k, ht⟩)
      (h1.trans hsx) (by omega) _ hc0 ⟨_, hget, Nat.le_refl _⟩
    have hr : ∀ cc, reach tk { cost := cc, idx := .token k } = t.string.length := by
      intro cc; simp only [reach, ht]
    refine ⟨d, g1, g2, ?_, chain_long h hlen (t.string.length + 1) t (List.mem_iff_getElem?.2 ⟨k, ht⟩)
      (h1.trans hsx) (by omega) _ d ?_ (Nat.le_of_eq (hr _).symm) g1⟩
    rotate_left
    · intro k' t' p e1 e2 e3 e4
      have hle := h4 _ (hall k' t' e1 e2) (h.nonempty t' (List.mem_iff_getElem?.2 ⟨k', e1⟩)) (by
        rw [(h.map _ _).2 ⟨t', e1, rfl⟩]; rfl)
      have heq : t'.string.length = t.string.length := by omega
      rw [heq, hget] at e3
      cases e3
      rw [hr]
      exact ⟨Nat.le_refl _, by omega⟩
    intro c hc
    by_cases hs' : Shorter tk t.string.length c
    · exact g4 c hc hs'
    · rcases hc with ⟨k', t', p, e1, e2, e3, e4, e5⟩ | ⟨b', u, p, e1, e2, e3, e4⟩
      · have hle := h4 _ (hall k' t' e2 e3) (h.nonempty t' (List.mem_iff_getElem?.2 ⟨k', e2⟩)) (by
          rw [(h.map _ _).2 ⟨t', e2, rfl⟩]; rfl)
        have heq : t'.string.length = t.string.length := by
          rcases Nat.lt_or_ge t'.string.length t.string.length with hlt' | hge
          · exfalso
            apply hs'
            intro k2 t2 e1' e2'
            rw [e1] at e1'
            cases e1'
            rw [e2] at e2'
            cases e2'
            exact hlt'
          · omega
        rw [heq, hget] at e4
        cases e4
        rw [e5]; exact g3
      · exfalso
        apply hs'
        intro k2 t2 e1' _
        rw [e1] at e1'; cases e1'
  | none =>
    have hi : x.length - 1 < costs.length := by omega
    have hget := List.getElem?_eq_getElem hi
    have hlast : costs.getLast? = some costs[x.length - 1] := by
      rw [List.getLast?_eq_getElem?, hlen, hget]
    simp only [hlast, unwrapR_some, R.ok_bind]
    obtain ⟨u, hu⟩ := getLastD_suffix 0 state.suffix hne
    obtain ⟨v, hv⟩ := hsx
    have hxu : x = (v ++ u) ++ [state.suffix.getLastD 0] := by
      rw [List.append_assoc, ← hu, hv]
    refine ⟨_, rfl, .inr ⟨_, _, _, rfl, hxu, hget, rfl⟩, ?_, ?_⟩
    rotate_left
    · intro k' t' p e2 e3
      exfalso
      have := firstSuffix_none hfs _ (hall k' t' e2 e3) (h.nonempty t' (List.mem_iff_getElem?.2 ⟨k', e2⟩))
      rw [(h.map _ _).2 ⟨t', e2, rfl⟩] at this
      cases this
    intro c hc
    rcases hc with ⟨k', t', p, e1, e2, e3, e4, e5⟩ | ⟨b', u', p, e1, e2, e3, e4⟩
    · exfalso
      have := firstSuffix_none hfs _ (hall k' t' e2 e3) (h.nonempty t' (List.mem_iff_getElem?.2 ⟨k', e2⟩))
      rw [(h.map _ _).2 ⟨t', e2, rfl⟩] at this
      cases this
    · rw [hget] at e3
      cases e3
      simp only; omega

/-- The cost table for `x` so far. -/
structure Rows (tk : Tokenizer) (x : Bytes) (costs : List DynState) : Prop where
  length : costs.length = x.length + 1
  head : ∃ d, costs[0]? = some d ∧ d.cost = 0
  row : ∀ i, 0 < i → i ≤ x.length → ∃ d, costs[i]? = some d ∧ Cand tk (x.take i) costs d ∧
    (∀ c, Cand tk (x.take i) costs c → d.cost ≤ c.cost) ∧ Long tk (x.take i) costs d

theorem long_append {ts : OSet} {tk : Tokenizer} (h : TkOK ts tk) {x : Bytes} {costs l : List DynState}
    (hx : x.length ≤ costs.length) (hx0 : x ≠ []) (d : DynState) (hl : Long tk x costs d) :
    Long tk x (costs ++ l) d := by
  have hx1 := List.length_pos_iff.2 hx0
  intro k t p e1 e2 e3 e4
  have := List.length_pos_iff.2 (h.nonempty t (List.mem_iff_getElem?.2 ⟨k, e1⟩))
  rw [List.getElem?_append_left (by omega)] at e3
  exact hl k t p e1 e2 e3 e4

/-- Only the rows before are looked at. -/
theorem cand_append {ts : OSet} {tk : Tokenizer} (h : TkOK ts tk) {x : Bytes} {costs l : List DynState} (hx : x.length ≤ costs.length)
    (hx0 : x ≠ []) (d : DynState) : Cand tk x (costs ++ l) d ↔ Cand tk x costs d := by
  have hx1 := List.length_pos_iff.2 hx0
  unfold Cand
  have h1 : (costs ++ l)[x.length - 1]? = costs[x.length - 1]? := List.getElem?_append_left (by omega)
  have h2 : ∀ (k : Nat) (t : OToken), tk.set.tokens[k]? = some t →
      (costs ++ l)[x.length - t.string.length]? = costs[x.length - t.string.length]? := by
    intro k t ht
    have := List.length_pos_iff.2 (h.nonempty t (List.mem_iff_getElem?.2 ⟨k, ht⟩))
    exact List.getElem?_append_left (by omega)
  rw [h1]
  constructor
  · rintro (⟨k, t, p, e1, e2, e3, e4, e5⟩ | h)
    · exact .inl ⟨k, t, p, e1, e2, e3, (h2 k t e2) ▸ e4, e5⟩
    · exact .inr h
  · rintro (⟨k, t, p, e1, e2, e3, e4, e5⟩ | h)
    · exact .inl ⟨k, t, p, e1, e2, e3, (h2 k t e2).symm ▸ e4, e5⟩
    · exact .inr h

theorem sliceLoop_ok {ts : OSet} {tk : Tokenizer} (h : TkOK ts tk) {m : StrMap}
    (hm : StatesOK tk.set.tokens ts.byString tk.states m) (rest x : Bytes) (costs : List DynState)
    (state : State) (k : Nat) (hk : tk.states[k]? = some state) (hsx : state.suffix <:+ x)
    (hlong : ∀ u, u <:+ x → (m u).isSome → u.length ≤ state.suffix.length) (hr : Rows tk x costs) :
    ∃ costs', sliceLoop tk rest state costs = .ok costs' ∧ Rows tk (x ++ rest) costs' := by
  induction rest generalizing x costs state k with
  | nil => exact ⟨costs, rfl, by simpa using hr⟩
  | cons b rest ih =>
    obtain ⟨i, hi, hnext⟩ := hm.next k state hk b
    obtain ⟨t, h1, h2, h3, h4⟩ := firstSuffix_some hi
    obtain ⟨state', hst', hsuf'⟩ := (hm.map _ _).1 h3
    subst hsuf'
    have hsx' : state'.suffix <:+ x ++ [b] := h1.trans (by
      obtain ⟨v, hv⟩ := hsx
      exact ⟨v, by rw [← List.append_assoc, hv]⟩)
    have hlong' : ∀ u, u <:+ x ++ [b] → (m u).isSome → u.length ≤ state'.suffix.length := by
      intro u hu hum
      by_cases hu0 : u = []
      · subst hu0; exact Nat.zero_le _
      obtain ⟨v, hv⟩ := hu
      have hul : u = u.dropLast ++ [u.getLast hu0] := (List.dropLast_concat_getLast hu0).symm
      rw [hul, ← List.append_assoc] at hv
      obtain ⟨hv1, hv2⟩ := List.append_inj' hv rfl
      have hb : u.getLast hu0 = b := by simpa using hv2
      have hkey : (m u.dropLast).isSome := by
        rw [hm.dom]
        rcases (hm.dom u).1 hum with h5 | ⟨w, hw, hp⟩ | ⟨b', rfl⟩
        · exact absurd h5 hu0
        · exact .inr (.inl ⟨w, hw, (List.dropLast_prefix u).trans hp⟩)
        · exact .inl rfl
      have h5 := hlong u.dropLast ⟨v, hv1⟩ hkey
      have h6 : u.dropLast <:+ state.suffix := suffix_of_suffix_le ⟨v, hv1⟩ hsx h5
      have h7 : u <:+ state.suffix ++ [b] := by
        obtain ⟨w, hw⟩ := h6
        refine ⟨w, ?_⟩
        rw [hul, hb, ← List.append_assoc, hw]
      exact h4 u h7 hu0 hum
    have hlen : costs.length = (x ++ [b]).length := by rw [hr.length]; simp
    obtain ⟨d, g1, g2, g3, g4⟩ := bestEnd_ok h hlen state' h2 (hm.tok _ _ hst' h2) hsx' (by
      intro k' t' e2 e3
      refine suffix_of_suffix_le e3 hsx' (hlong' _ e3 ?_)
      rw [hm.dom]
      exact .inr (.inl ⟨t', List.mem_iff_getElem?.2 ⟨k', e2⟩, List.prefix_refl _⟩))
    rw [sliceLoop, hnext]
    simp only [getR_of hst', R.ok_bind, g1]
    have hrows : Rows tk (x ++ [b]) (costs ++ [d]) := by
      refine ⟨by rw [List.length_append, hlen]; rfl, ?_, ?_⟩
      · obtain ⟨d0, e1, e2⟩ := hr.head
        rcases List.getElem?_eq_some_iff.1 e1 with ⟨e3, _⟩
        exact ⟨d0, by rw [List.getElem?_append_left e3]; exact e1, e2⟩
      · intro j hj0 hj
        have hxl : (x ++ [b]).length = x.length + 1 := by simp
        by_cases hjx : j ≤ x.length
        · obtain ⟨d', e1, e2, e3, e4⟩ := hr.row j hj0 hjx
          have htake : (x ++ [b]).take j = x.take j := List.take_append_of_le_length hjx
          have hne : x.take j ≠ [] := by
            intro hc
            have := congrArg List.length hc
            rw [List.length_take, List.length_nil] at this
            omega
          have hle : (x.take j).length ≤ costs.length := by rw [List.length_take]; omega
          rw [htake]
          refine ⟨d', by rw [List.getElem?_append_left (by omega)]; exact e1, (cand_append h hle hne _).2 e2, ?_,
            long_append h hle hne _ e4⟩
          intro c hc
          exact e3 c ((cand_append h hle hne _).1 hc)
        · have hj' : j = (x ++ [b]).length := by omega
          subst hj'
          rw [List.take_length]
          refine ⟨d, by rw [← hlen]; simp, (cand_append h (by omega) (by simp) _).2 g2, ?_,
            long_append h (by omega) (by simp) _ g4⟩
          intro c hc
          exact g3 c ((cand_append h (by omega) (by simp) _).1 hc)
    obtain ⟨costs', e1, e2⟩ := ih (x ++ [b]) (costs ++ [d]) state' i hst' hsx' hlong' hrows
    exact ⟨costs', e1, by simpa using e2⟩

/-- Every row is the least cost. -/
theorem rows_least {ts : OSet} {tk : Tokenizer} (h : TkOK ts tk) {x : Bytes} {costs : List DynState}
    (hr : Rows tk x costs) (i : Nat) (hi : i ≤ x.length) (qs : List Piece) (hq : Spells ts qs (x.take i)) :
    ∃ d, costs[i]? = some d ∧ d.cost ≤ cost ts.literal.literalCost qs := by
  induction qs using List.reverseRecOn generalizing i with
  | nil =>
    have h0 : x.take i = [] := by
      generalize x.take i = y at hq
      cases hq; rfl
    rcases Nat.eq_zero_or_pos i with rfl | hpos
    · obtain ⟨d, e1, e2⟩ := hr.head
      exact ⟨d, e1, by omega⟩
    · have := congrArg List.length h0
      rw [List.length_take, List.length_nil] at this
      omega
  | append_singleton qs p ih =>
    obtain ⟨u, s, hus, h1, h2⟩ := spells_snoc_inv hq
    have hil : (x.take i).length = i := by rw [List.length_take]; omega
    have hul : u.length + s.length = i := by rw [← hil, hus, List.length_append]
    have hu : u = x.take u.length := by
      have : (x.take i).take u.length = u := by rw [hus]; simp
      rw [List.take_take, Nat.min_eq_left (by omega)] at this
      exact this.symm
    obtain ⟨d', e1, e2⟩ := ih u.length (by omega) (hu ▸ h1)
    rw [cost_append]
    cases p with
    | tok k =>
      obtain ⟨t, ht, hts⟩ := (text_tok h).1 h2
      subst hts
      have hpos := List.length_pos_iff.2 (h.nonempty t (List.mem_iff_getElem?.2 ⟨k, ht⟩))
      obtain ⟨d, g1, g2, g3, -⟩ := hr.row i (by omega) hi
      refine ⟨d, g1, ?_⟩
      have := g3 { cost := d'.cost + 1, idx := .token k } (.inl ⟨k, t, d', rfl, ht, ⟨u, hus.symm⟩, by
        rw [hil, show i - t.string.length = u.length by omega]; exact e1, rfl⟩)
      simp only [cost]
      simp only at this
      omega
    | lit b =>
      have hs : s = [b] := by
        have : some [b] = some s := h2
        exact (Option.some.inj this).symm
      subst hs
      simp only [List.length_cons, List.length_nil] at hul
      obtain ⟨d, g1, g2, g3, -⟩ := hr.row i (by omega) hi
      refine ⟨d, g1, ?_⟩
      have := g3 { cost := d'.cost + tk.set.literal.literalCost, idx := .literal b }
        (.inr ⟨b, u, d', rfl, hus, by rw [hil, show i - 1 = u.length by omega]; exact e1, rfl⟩)
      simp only [cost]
      rw [h.literal] at this
      simp only at this
      omega


/-! ### Going back through the table -/

/-- The piece for an entry of the table. -/
def pieceOf : TokenIdx → List Piece
  | .token k => [.tok k]
  | .literal b => [.lit b]
  | .none => []

theorem neighbours_lit (b : UInt8) (ps : List Piece) : neighbours (.lit b :: ps) = neighbours ps := by
  rw [neighbours]
  all_goals (intros; simp_all)

theorem neighbours_tok_lit (a : Nat) (b : UInt8) (ps : List Piece) :
    neighbours (.tok a :: .lit b :: ps) = neighbours ps := by
  rw [neighbours, neighbours_lit]
  all_goals (intros; simp_all)

theorem neighbours_single (p : Piece) : neighbours [p] = [] := by
  cases p <;> rw [neighbours, neighbours] <;> (intros; simp_all)

/-- The pair that two pieces are. -/
def pairOf : Piece → Piece → List (Nat × Nat)
  | .tok a, .tok b => [(a, b)]
  | _, _ => []

theorem neighbours_cons (p q : Piece) (ps : List Piece) :
    neighbours (p :: q :: ps) = pairOf p q ++ neighbours (q :: ps) := by
  cases p with
  | lit b => rw [neighbours_lit]; rfl
  | tok a =>
    cases q with
    | tok c => rw [neighbours]; rfl
    | lit b => rw [neighbours_tok_lit, neighbours_lit]; rfl

theorem neighbours_snoc (ps : List Piece) (p q : Piece) :
    neighbours (ps ++ [p] ++ [q]) = neighbours (ps ++ [p]) ++ pairOf p q := by
  induction ps with
  | nil =>
    rw [List.nil_append, List.singleton_append, neighbours_cons, neighbours_single, neighbours_single]
    simp
  | cons r ps ih =>
    cases ps with
    | nil =>
      simp only [List.cons_append, List.nil_append] at ih ⊢
      rw [neighbours_cons r p, ih, neighbours_cons r p]
      simp
    | cons s ps =>
      simp only [List.cons_append] at ih ⊢
      rw [neighbours_cons r s, ih, neighbours_cons r s]
      simp

/-- The key of a pair of token numbers. -/
def keyOf (ab : Nat × Nat) : Nat := ab.1 * 65536 + ab.2

theorem pairKey_of {i j : Nat} (hi : i < 65536) (hj : j < 65536) : pairKey i j = .ok (keyOf (i, j)) := by
  have h1 : i <<< 16 = i * 65536 := by rw [Nat.shiftLeft_eq]
  have h2 : i * 65536 % 2 ^ 32 = i * 65536 := Nat.mod_eq_of_lt (by omega)
  simp only [pairKey, h1, h2, keyOf]
  rw [if_pos (by omega)]

/-- `st'` is `st` with the pieces `ps` added; the pairs are those of `ps` and the pieces `nx` after it. -/
structure Adds (st st' : OStats) (ps nx : List Piece) (pairs : Bool) : Prop where
  lc : st'.literalCost = st.literalCost
  scanned : st'.scannedBytes = st.scannedBytes
  tlen : st'.tokenCount.length = st.tokenCount.length
  llen : st'.literalCount.length = st.literalCount.length
  tok : ∀ i, st'.tokenCount.getD i 0 = st.tokenCount.getD i 0 + ps.count (.tok i)
  lit : ∀ b : UInt8, st'.literalCount.getD b.toNat 0 = st.literalCount.getD b.toNat 0 + ps.count (.lit b)
  pair : ∀ k, st'.pairCount k = st.pairCount k +
    if pairs then ((neighbours (ps ++ nx)).map keyOf).count k else 0
  total : ∀ c, st'.tokenCount.sum + c * st'.literalCount.sum =
    st.tokenCount.sum + c * st.literalCount.sum + cost c ps

theorem sum_bump (l : List Nat) (i : Nat) (h : i < l.length) : (l.set i (l.getD i 0 + 1)).sum = l.sum + 1 := by
  induction l generalizing i with
  | nil => simp at h
  | cons a l ih =>
    cases i with
    | zero => simp; omega
    | succ i =>
      have := ih i (by simpa using h)
      simp only [List.set_cons_succ, List.getD_cons_succ, List.sum_cons, this]
      omega

theorem count_piece_tok (ps : List Piece) (i k : Nat) :
    (ps ++ [Piece.tok k]).count (.tok i) = ps.count (.tok i) + if k = i then 1 else 0 := by
  rw [List.count_append, List.count_singleton]
  by_cases h : k = i <;> simp [h]

theorem count_piece_lit (ps : List Piece) (b c : UInt8) :
    (ps ++ [Piece.lit b]).count (.lit c) = ps.count (.lit c) + if b = c then 1 else 0 := by
  rw [List.count_append, List.count_singleton]
  by_cases h : b = c <;> simp [h]

theorem count_piece_tok_lit (ps : List Piece) (k : Nat) (c : UInt8) :
    (ps ++ [Piece.tok k]).count (.lit c) = ps.count (.lit c) := by
  rw [List.count_append, List.count_singleton]; simp

theorem count_piece_lit_tok (ps : List Piece) (b : UInt8) (i : Nat) :
    (ps ++ [Piece.lit b]).count (.tok i) = ps.count (.tok i) := by
  rw [List.count_append, List.count_singleton]; simp

theorem bumpNext_ok (pairs : Bool) (next : TokenIdx) (k : Nat) (m : Nat → Nat) {n : Nat}
    (hbig : pairs = true → n ≤ 65536) (hk : k < n) (hn : ∀ j, next = .token j → j < n) :
    ∃ m', bumpNext pairs next k m = .ok m' ∧ ∀ key, m' key = m key + if pairs then
      ((match next with
        | .token j => [(k, j)]
        | _ => []).map keyOf).count key else 0 := by
  cases pairs with
  | false => exact ⟨m, rfl, fun _ => rfl⟩
  | true =>
    cases next with
    | token j =>
      have h65 := hbig rfl
      have hj := hn j rfl
      refine ⟨bumpPair m (keyOf (k, j)), ?_, ?_⟩
      · simp only [bumpNext, pairKey_of (show k < 65536 by omega) (show j < 65536 by omega), R.ok_bind]
      · intro key
        simp only [if_true, List.map_cons, List.map_nil, List.count_singleton, bumpPair]
        by_cases hkk : key = keyOf (k, j)
        · subst hkk; simp
        · have : (keyOf (k, j) == key) = false := by
            rw [beq_eq_false_iff_ne]; exact fun e => hkk e.symm
          simp [if_neg hkk, this]
    | literal b => exact ⟨m, rfl, fun _ => by simp⟩
    | none => exact ⟨m, rfl, fun _ => by simp⟩

theorem longest_nil (ts : OSet) : Longest ts [] := by
  intro as p bs e
  have := congrArg List.length e
  simp at this

theorem spells_text_unique {ts : OSet} {ps : List Piece} {x y : Bytes} (h1 : Spells ts ps x) (h2 : Spells ts ps y) :
    x = y := by
  induction h1 generalizing y with
  | nil => cases h2; rfl
  | cons hp _ ih =>
    cases h2 with
    | cons hp' hs' =>
      rw [hp] at hp'
      rw [Option.some.inj hp', ih hs']

theorem longest_snoc {ts : OSet} {ps : List Piece} {p : Piece} (h : Longest ts ps)
    (hp : ∀ y, Spells ts (ps ++ [p]) y → ∀ qs q, Cheapest ts y (qs ++ [q]) →
      ∀ s t, text ts p = some s → text ts q = some t → t.length ≤ s.length) : Longest ts (ps ++ [p]) := by
  intro as r bs e
  rcases List.eq_nil_or_concat bs with rfl | ⟨bs', z, rfl⟩
  · obtain ⟨e1, e2⟩ := List.append_inj' e rfl
    cases e2
    subst e1
    exact hp
  · have e' : ps ++ [p] = (as ++ r :: bs') ++ [z] := by rw [e]; simp
    obtain ⟨e1, -⟩ := List.append_inj' e' rfl
    exact h as r bs' e1

theorem longest_step {ts : OSet} {tk : Tokenizer} (h : TkOK ts tk) {x : Bytes} {costs : List DynState}
    (hr : Rows tk x costs) {pos : Nat} (hpos : pos ≤ x.length) {ps : List Piece} {p : Piece} (hlo : Longest ts ps)
    (hsp : Spells ts (ps ++ [p]) (x.take pos)) {d : DynState} (hlong : Long tk (x.take pos) costs d)
    (hco : d.cost = cost ts.literal.literalCost (ps ++ [p])) {s : Bytes} (hs : text ts p = some s)
    (hs0 : 0 < s.length) (hre : reach tk d ≤ s.length) : Longest ts (ps ++ [p]) := by
  refine longest_snoc hlo ?_
  intro y hy qs q hq s' t es et
  rw [hs] at es
  cases es
  have hyx := spells_text_unique hy hsp
  subst hyx
  cases q with
  | lit b =>
    have : t = [b] := (Option.some.inj et).symm
    subst this
    exact hs0
  | tok k =>
    by_contra hc
    obtain ⟨u, t', e1, e2, e3⟩ := spells_snoc_inv hq.spells
    rw [et] at e3
    cases e3
    obtain ⟨w, hw, hws⟩ := (text_tok h).1 et
    subst hws
    have hil : (x.take pos).length = pos := by rw [List.length_take]; omega
    have hul : u.length + w.string.length = pos := by rw [← hil, e1, List.length_append]
    have hu : u = x.take u.length := by
      have : (x.take pos).take u.length = u := by rw [e1]; simp
      rw [List.take_take, Nat.min_eq_left (by omega)] at this
      exact this.symm
    obtain ⟨d', g1, g2⟩ := rows_least h hr u.length (by omega) qs (hu ▸ e2)
    have h5 := hlong k w d' hw ⟨u, e1.symm⟩ (by
      rw [hil, show pos - w.string.length = u.length by omega]; exact g1) (by omega)
    have h6 := hq.least _ hsp
    rw [cost_append] at h6
    simp only [cost] at h6
    omega

theorem traceback_ok {ts : OSet} {tk : Tokenizer} (h : TkOK ts tk) {x : Bytes} {costs : List DynState}
    (hr : Rows tk x costs) (pairs : Bool) (hbig : pairs = true → tk.set.tokens.length ≤ 65536) (f pos : Nat)
    (hf : pos ≤ f) (hpos : pos ≤ x.length) :
    ∃ ps, Spells ts ps (x.take pos) ∧ (∃ d, costs[pos]? = some d ∧ d.cost = cost ts.literal.literalCost ps) ∧
      Longest ts ps ∧
      ∀ (next : TokenIdx) (st : OStats), (∀ j, next = .token j → j < tk.set.tokens.length) →
        st.tokenCount.length = tk.set.tokens.length → st.literalCount.length = 256 →
        ∃ st', traceback tk.set.tokens costs pairs f pos next st = .ok st' ∧ Adds st st' ps (pieceOf next) pairs := by
  induction f generalizing pos with
  | zero =>
    obtain rfl : pos = 0 := by omega
    obtain ⟨d, e1, e2⟩ := hr.head
    refine ⟨[], by simpa using Spells.nil, ⟨d, e1, e2⟩, longest_nil ts, ?_⟩
    intro next st _ _ _
    refine ⟨st, rfl, ⟨rfl, rfl, rfl, rfl, by simp, by simp, ?_, ?_⟩⟩
    · intro k
      have : neighbours ([] ++ pieceOf next) = [] := by
        cases next
        · exact neighbours_single _
        · exact neighbours_single _
        · rfl
      rw [this]; simp
    · intro c; simp [cost]
  | succ f ih =>
    by_cases h0 : pos = 0
    · subst h0
      obtain ⟨ps, g1, g2, hlo, g3⟩ := ih 0 (by omega) (by omega)
      refine ⟨ps, g1, g2, hlo, ?_⟩
      intro next st e1 e2 e3
      obtain ⟨st', q1, q2⟩ := g3 next st e1 e2 e3
      refine ⟨st', ?_, q2⟩
      rw [← q1, traceback, if_pos rfl]
      cases f <;> simp [traceback]
    · obtain ⟨d, e1, e2, -, hlong⟩ := hr.row pos (by omega) hpos
      have hxl : (x.take pos).length = pos := by rw [List.length_take]; omega
      rcases e2 with ⟨k, t, p, c1, c2, c3, c4, c5⟩ | ⟨b, u, p, c1, c2, c3, c4⟩
      · have hne := List.length_pos_iff.2 (h.nonempty t (List.mem_iff_getElem?.2 ⟨k, c2⟩))
        have hle := c3.length_le
        rw [hxl] at hle c4
        have hk : k < tk.set.tokens.length := (List.getElem?_eq_some_iff.1 c2).1
        obtain ⟨ps, g1, ⟨d', g2, g2'⟩, hlo, g3⟩ := ih (pos - t.string.length) (by omega) (by omega)
        rw [g2] at c4
        cases c4
        have hsp : Spells ts (ps ++ [.tok k]) (x.take pos) := by
          obtain ⟨v, hv⟩ := c3
          have hvl : v.length = pos - t.string.length := by
            have := congrArg List.length hv
            rw [List.length_append, hxl] at this
            omega
          have hv' : v = x.take (pos - t.string.length) := by
            have h5 := congrArg (List.take v.length) hv
            rw [List.take_left, List.take_take, Nat.min_eq_left (by omega)] at h5
            rw [h5, hvl]
          rw [← hv, hv']
          exact spells_snoc g1 ((text_tok h).2 ⟨t, c2, rfl⟩)
        have hco : d.cost = cost ts.literal.literalCost (ps ++ [.tok k]) := by
          rw [cost_append, c5, g2']; rfl
        refine ⟨ps ++ [.tok k], hsp, ⟨d, e1, hco⟩, ?_, ?_⟩
        · refine longest_step h hr hpos hlo hsp hlong hco (s := t.string) ((text_tok h).2 ⟨t, c2, rfl⟩) hne ?_
          simp only [reach, c1, c2]
          exact Nat.le_refl _
        · intro next st q1 q2 q3
          obtain ⟨pc, hpc, hpc'⟩ := bumpNext_ok pairs next k st.pairCount (n := tk.set.tokens.length) hbig hk q1
          obtain ⟨st', r1, r2⟩ := g3 (.token k) { st with
              tokenCount := st.tokenCount.set k (st.tokenCount.getD k 0 + 1), pairCount := pc }
            (by intro j hj; cases hj; exact hk) (by simpa using q2) q3
          refine ⟨st', ?_, ⟨r2.lc, r2.scanned, by rw [r2.tlen]; simp, r2.llen, ?_, ?_, ?_, ?_⟩⟩
          · rw [traceback, if_neg h0]
            simp only [getR_of e1, R.ok_bind, c1, addAt_of (show k < st.tokenCount.length by omega), getR_of c2,
              subR_of hle]
            refine Eq.trans ?_ r1
            simp only [hpc, R.ok_bind]
          · intro i
            rw [r2.tok, count_piece_tok]
            simp only [getD_set]
            by_cases hki : k = i
            · subst hki
              rw [if_pos ⟨rfl, by omega⟩, if_pos rfl]; omega
            · rw [if_neg (fun hc => hki hc.1), if_neg hki]; omega
          · intro b
            rw [r2.lit, count_piece_tok_lit]
          · intro key
            rw [r2.pair]
            simp only [hpc' key]
            cases pairs with
            | false => rfl
            | true =>
              simp only [if_true]
              cases next with
              | token n =>
                simp only [pieceOf, neighbours_snoc, pairOf, List.map_append, List.count_append, List.map_cons,
                  List.map_nil]
                omega
              | literal b =>
                simp only [pieceOf, neighbours_snoc, pairOf, List.append_nil, List.map_nil, List.count_nil]
                omega
              | none =>
                simp only [pieceOf, List.append_nil, List.map_nil, List.count_nil]
                omega
          · intro c
            rw [r2.total, cost_append]
            simp only [sum_bump _ _ (show k < st.tokenCount.length by omega), cost]
            omega
      · obtain ⟨ps, g1, ⟨d', g2, g2'⟩, hlo, g3⟩ := ih (pos - 1) (by omega) (by omega)
        rw [hxl, g2] at c3
        cases c3
        have hsp : Spells ts (ps ++ [.lit b]) (x.take pos) := by
          have hvl : u.length = pos - 1 := by
            have := congrArg List.length c2
            rw [List.length_append, hxl, List.length_singleton] at this
            omega
          have hv' : u = x.take (pos - 1) := by
            have h5 := congrArg (List.take u.length) c2
            rw [List.take_left, List.take_take, Nat.min_eq_left (by omega)] at h5
            rw [← h5, hvl]
          rw [c2, hv']
          exact spells_snoc g1 rfl
        have hco : d.cost = cost ts.literal.literalCost (ps ++ [.lit b]) := by
          rw [cost_append, c4, g2', h.literal]; rfl
        refine ⟨ps ++ [.lit b], hsp, ⟨d, e1, hco⟩, ?_, ?_⟩
        · refine longest_step h hr hpos hlo hsp hlong hco (s := [b]) rfl (by simp) ?_
          simp only [reach, c1]
          exact Nat.le_refl _
        · intro next st q1 q2 q3
          have hb : b.toNat < st.literalCount.length := by rw [q3]; exact b.toNat_lt
          obtain ⟨st', r1, r2⟩ := g3 (.literal b) { st with
              literalCount := st.literalCount.set b.toNat (st.literalCount.getD b.toNat 0 + 1) }
            (by intro j hj; cases hj) q2 (by simpa using q3)
          refine ⟨st', ?_, ⟨r2.lc, r2.scanned, r2.tlen, by rw [r2.llen]; simp, ?_, ?_, ?_, ?_⟩⟩
          · rw [traceback, if_neg h0]
            simp only [getR_of e1, R.ok_bind, c1, addAt_of hb]
            exact r1
          · intro i
            rw [r2.tok, count_piece_lit_tok]
          · intro c
            rw [r2.lit, count_piece_lit]
            simp only [getD_set]
            by_cases hbc : b = c
            · subst hbc
              rw [if_pos ⟨rfl, hb⟩, if_pos rfl]; omega
            · rw [if_neg (fun hc => hbc (UInt8.toNat_inj.1 hc.1)), if_neg hbc]; omega
          · intro key
            rw [r2.pair]
            cases next with
            | token n => simp only [pieceOf, neighbours_snoc, pairOf, List.append_nil]
            | literal b' => simp only [pieceOf, neighbours_snoc, pairOf, List.append_nil]
            | none => simp only [pieceOf, List.append_nil]
          · intro c
            rw [r2.total, cost_append]
            simp only [sum_bump _ _ hb, cost, Nat.mul_add]
            omega

theorem spells_left {ts : OSet} {ps qs : List Piece} {x : Bytes} (h : Spells ts (ps ++ qs) x) :
    ∃ u v, x = u ++ v ∧ Spells ts ps u ∧ Spells ts qs v := by
  induction ps generalizing x with
  | nil => exact ⟨[], x, rfl, .nil, h⟩
  | cons p ps ih =>
    cases h with
    | cons hp hs =>
      obtain ⟨u, v, rfl, h1, h2⟩ := ih hs
      exact ⟨_, v, by rw [List.append_assoc], .cons hp h1, h2⟩

/-- The beginning of a cheapest way is a cheapest way. -/
theorem cheapest_left {ts : OSet} {ps qs : List Piece} {x : Bytes} (h : Cheapest ts x (ps ++ qs)) :
    ∃ u, Cheapest ts u ps := by
  obtain ⟨u, v, rfl, h1, h2⟩ := spells_left h.spells
  refine ⟨u, h1, ?_⟩
  intro rs hrs
  have := h.least (rs ++ qs) (spells_append hrs h2)
  rw [cost_append, cost_append] at this
  omega

theorem text_inj {ts : OSet} (hok : SetOK ts) {i j : Nat} {s : Bytes} (h1 : text ts (.tok i) = some s)
    (h2 : text ts (.tok j) = some s) : i = j := by
  rw [text, Option.map_eq_some_iff] at h1 h2
  obtain ⟨a, h1, ha⟩ := h1
  obtain ⟨b, h2, hb⟩ := h2
  have e1 := (hok.map s i).2 ⟨a, h1, ha⟩
  have e2 := (hok.map s j).2 ⟨b, h2, hb⟩
  rw [e1] at e2
  exact Option.some.inj e2

/-- A text has only one such way. -/
theorem way_unique {ts : OSet} (hok : SetOK ts) {x : Bytes} {ps qs : List Piece} (h1 : Cheapest ts x ps)
    (h2 : Longest ts ps) (h3 : Cheapest ts x qs) (h4 : Longest ts qs) : ps = qs := by
  have hlc : 2 ≤ ts.literal.literalCost := by cases ts.literal <;> decide
  have hlong : ∀ {as : List Piece} {z : Piece}, Longest ts (as ++ [z]) → Longest ts as := by
    intro as z h bs p cs e
    exact h bs p (cs ++ [z]) (by rw [e]; simp)
  have hne : ∀ (as : List Piece) (z : Piece), ¬ Spells ts (as ++ [z]) [] := by
    intro as z h
    obtain ⟨u, s, e, _, hz⟩ := spells_snoc_inv h
    have hs : s = [] := (List.append_eq_nil_iff.1 e.symm).2
    subst hs
    cases z with
    | lit b => cases hz
    | tok i =>
      rw [text, Option.map_eq_some_iff] at hz
      obtain ⟨t, ht, ht0⟩ := hz
      exact hok.nonempty t (List.mem_iff_getElem?.2 ⟨i, ht⟩) ht0
  induction ps using List.reverseRecOn generalizing x qs with
  | nil =>
    have hx := h1.spells
    cases hx
    rcases List.eq_nil_or_concat qs with rfl | ⟨qs', q, rfl⟩
    · rfl
    · exact absurd (by simpa using h3.spells) (hne qs' q)
  | append_singleton ps p ih =>
    rcases List.eq_nil_or_concat qs with rfl | ⟨qs', q, rfl⟩
    · have hx := h3.spells
      cases hx
      exact absurd h1.spells (hne ps p)
    · rw [List.concat_eq_append] at *
      obtain ⟨u, s, e1, g1, g2⟩ := spells_snoc_inv h1.spells
      obtain ⟨v, t, e2, k1, k2⟩ := spells_snoc_inv h3.spells
      have a1 := h2 ps p [] rfl x h1.spells qs' q h3 s t g2 k2
      have a2 := h4 qs' q [] rfl x h3.spells ps p h1 t s k2 g2
      rw [e1] at e2
      obtain ⟨rfl, rfl⟩ := List.append_inj' e2 (by omega)
      subst e1
      have hp : Cheapest ts u ps := by
        obtain ⟨w, hw⟩ := cheapest_left h1
        rw [spells_text_unique g1 hw.spells]; exact hw
      have hq : Cheapest ts u qs' := by
        obtain ⟨w, hw⟩ := cheapest_left h3
        rw [spells_text_unique k1 hw.spells]; exact hw
      rw [ih hp (hlong h2) hq (hlong h4)] at h1 ⊢
      congr 1
      have b1 := h1.least _ (spells_snoc k1 k2)
      have b2 := h3.least _ (spells_snoc k1 g2)
      rw [cost_append, cost_append] at b1 b2
      cases p with
      | lit b =>
        cases q with
        | lit c =>
          have : [b] = [c] := (Option.some.inj g2).trans (Option.some.inj k2).symm
          cases this; rfl
        | tok j => simp only [cost] at b1; omega
      | tok i =>
        cases q with
        | lit c => simp only [cost] at b2; omega
        | tok j => rw [text_inj hok g2 k2]

/-! ### Whole texts -/

theorem slice_ok {ts : OSet} {tk : Tokenizer} (h : TkOK ts tk) (pairs : Bool)
    (hbig : pairs = true → ts.tokens.length ≤ 65536) (x : Bytes) :
    ∃ ps, (Cheapest ts x ps ∧ Longest ts ps) ∧ ∀ st : OStats, st.tokenCount.length = ts.tokens.length →
      st.literalCount.length = 256 →
      ∃ st', processSlice tk x pairs st = .ok st' ∧
        Adds { st with scannedBytes := st.scannedBytes + x.length } st' ps [] pairs := by
  have hlen : tk.set.tokens.length = ts.tokens.length := by
    have := congrArg List.length h.strings
    simpa using this
  obtain ⟨m, hm⟩ := h.states
  obtain ⟨state0, hs0, hs0'⟩ := hm.head
  have hr0 : Rows tk [] [{ cost := 0, idx := .none }] :=
    ⟨rfl, ⟨_, rfl, rfl⟩, by intro i h1 h2; simp at h2; omega⟩
  obtain ⟨costs, e1, e2⟩ := sliceLoop_ok h hm x [] _ state0 0 hs0 (by rw [hs0']; exact List.suffix_refl _)
    (by intro u hu _; rw [List.suffix_nil.1 hu]; simp) hr0
  rw [List.nil_append] at e2
  obtain ⟨ps, g1, ⟨d, g2, g2'⟩, hlo, g3⟩ := traceback_ok h e2 pairs (by rw [hlen]; exact hbig) x.length x.length
    (Nat.le_refl _) (Nat.le_refl _)
  rw [List.take_length] at g1
  refine ⟨ps, ⟨⟨g1, ?_⟩, hlo⟩, ?_⟩
  · intro qs hqs
    obtain ⟨d', q1, q2⟩ := rows_least h e2 x.length (Nat.le_refl _) qs (by rwa [List.take_length])
    rw [g2] at q1
    cases q1
    omega
  · intro st s1 s2
    obtain ⟨st', r1, r2⟩ := g3 .none { st with scannedBytes := st.scannedBytes + x.length }
      (by intro j hj; cases hj) (by rw [hlen]; exact s1) s2
    refine ⟨st', ?_, r2⟩
    unfold processSlice
    simp only [getR_of hs0, R.ok_bind, e1]
    exact r1

/-- The way in which the tokenizer writes a text. -/
noncomputable def seg {ts : OSet} {tk : Tokenizer} (h : TkOK ts tk) {pairs : Bool}
    (hbig : pairs = true → ts.tokens.length ≤ 65536) (x : Bytes) : List Piece :=
  Classical.choose (slice_ok h pairs hbig x)

theorem seg_cheapest {ts : OSet} {tk : Tokenizer} (h : TkOK ts tk) {pairs : Bool}
    (hbig : pairs = true → ts.tokens.length ≤ 65536) (x : Bytes) : Cheapest ts x (seg h hbig x) :=
  (Classical.choose_spec (slice_ok h pairs hbig x)).1.1

theorem seg_longest {ts : OSet} {tk : Tokenizer} (h : TkOK ts tk) {pairs : Bool}
    (hbig : pairs = true → ts.tokens.length ≤ 65536) (x : Bytes) : Longest ts (seg h hbig x) :=
  (Classical.choose_spec (slice_ok h pairs hbig x)).1.2

theorem seg_slice {ts : OSet} {tk : Tokenizer} (h : TkOK ts tk) {pairs : Bool}
    (hbig : pairs = true → ts.tokens.length ≤ 65536) (x : Bytes) (st : OStats)
    (h1 : st.tokenCount.length = ts.tokens.length) (h2 : st.literalCount.length = 256) :
    ∃ st', processSlice tk x pairs st = .ok st' ∧
      Adds { st with scannedBytes := st.scannedBytes + x.length } st' (seg h hbig x) [] pairs :=
  (Classical.choose_spec (slice_ok h pairs hbig x)).2 st h1 h2

/-- The statistics of a list of texts. -/
structure Tally (ts : OSet) (pairs : Bool) (f : Bytes → List Piece) (st : OStats) (xs : List Bytes) : Prop where
  lc : st.literalCost = ts.literal.literalCost
  tlen : st.tokenCount.length = ts.tokens.length
  llen : st.literalCount.length = 256
  scanned : st.scannedBytes = (xs.map List.length).sum
  tok : ∀ i, st.tokenCount.getD i 0 = (xs.map (fun x => (f x).count (.tok i))).sum
  lit : ∀ b : UInt8, st.literalCount.getD b.toNat 0 = (xs.map (fun x => (f x).count (.lit b))).sum
  pair : ∀ k, st.pairCount k =
    if pairs then (xs.map (fun x => ((neighbours (f x)).map keyOf).count k)).sum else 0
  total : ∀ c, st.tokenCount.sum + c * st.literalCount.sum = (xs.map (fun x => cost c (f x))).sum

theorem getD_zeros (n i : Nat) : (List.replicate n 0).getD i 0 = 0 := by
  rw [List.getD_eq_getElem?_getD, List.getElem?_replicate]
  split <;> rfl

theorem sum_zeros (n : Nat) : (List.replicate n 0).sum = 0 := by
  induction n with
  | zero => rfl
  | succ n ih => rw [List.replicate_succ, List.sum_cons, ih]

theorem tally_new (ts : OSet) (pairs : Bool) (f : Bytes → List Piece) :
    Tally ts pairs f (OStats.new ts.tokens.length ts.literal.literalCost) [] := by
  refine ⟨rfl, List.length_replicate, List.length_replicate, rfl, ?_, ?_, ?_, ?_⟩
  · intro i; simp only [OStats.new, getD_zeros]; rfl
  · intro b; simp only [OStats.new, getD_zeros]; rfl
  · intro k
    show 0 = _
    split <;> rfl
  · intro c
    simp only [OStats.new, sum_zeros]
    rfl

theorem tally_perm {ts : OSet} {pairs : Bool} {f : Bytes → List Piece} {st : OStats} {xs ys : List Bytes}
    (h : Tally ts pairs f st xs) (hp : xs.Perm ys) : Tally ts pairs f st ys := by
  refine ⟨h.lc, h.tlen, h.llen, ?_, ?_, ?_, ?_, ?_⟩
  · rw [h.scanned]; exact perm_sum (hp.map _)
  · intro i; rw [h.tok]; exact perm_sum (hp.map _)
  · intro i; rw [h.lit]; exact perm_sum (hp.map _)
  · intro k; rw [h.pair, perm_sum (hp.map (fun x => ((neighbours (f x)).map keyOf).count k))]
  · intro c; rw [h.total]; exact perm_sum (hp.map _)

theorem tally_slice {ts : OSet} {tk : Tokenizer} (h : TkOK ts tk) {pairs : Bool}
    (hbig : pairs = true → ts.tokens.length ≤ 65536) {st : OStats} {xs : List Bytes}
    (ht : Tally ts pairs (seg h hbig) st xs) (x : Bytes) :
    ∃ st', processSlice tk x pairs st = .ok st' ∧ Tally ts pairs (seg h hbig) st' (xs ++ [x]) := by
  obtain ⟨st', h1, h2⟩ := seg_slice h hbig x st ht.tlen ht.llen
  refine ⟨st', h1, h2.lc.trans ht.lc, h2.tlen.trans ht.tlen, h2.llen.trans ht.llen, ?_, ?_, ?_, ?_, ?_⟩
  · rw [h2.scanned]
    simp only [ht.scanned, List.map_append, List.sum_append, List.map_cons, List.map_nil, List.sum_cons, List.sum_nil]
    omega
  · intro i
    rw [h2.tok]
    simp only [ht.tok, List.map_append, List.sum_append, List.map_cons, List.map_nil, List.sum_cons, List.sum_nil]
    omega
  · intro b
    rw [h2.lit]
    simp only [ht.lit, List.map_append, List.sum_append, List.map_cons, List.map_nil, List.sum_cons, List.sum_nil]
    omega
  · intro k
    rw [h2.pair]
    simp only [ht.pair, List.append_nil, List.map_append, List.sum_append, List.map_cons, List.map_nil,
      List.sum_cons, List.sum_nil]
    split <;> omega
  · intro c
    rw [h2.total]
    simp only [ht.total, List.map_append, List.sum_append, List.map_cons, List.map_nil, List.sum_cons, List.sum_nil]
    omega

theorem tally_worker {ts : OSet} {tk : Tokenizer} (h : TkOK ts tk) {pairs : Bool}
    (hbig : pairs = true → ts.tokens.length ≤ 65536) (ys : List Bytes) (hne : ∀ y ∈ ys, y ≠ []) {st : OStats}
    {xs : List Bytes} (ht : Tally ts pairs (seg h hbig) st xs) :
    ∃ st', workerLoop tk pairs ys st = .ok st' ∧ Tally ts pairs (seg h hbig) st' (xs ++ ys) := by
  induction ys generalizing st xs with
  | nil => exact ⟨st, rfl, by simpa using ht⟩
  | cons y ys ih =>
    obtain ⟨st1, h1, h2⟩ := tally_slice h hbig ht y
    obtain ⟨st2, h3, h4⟩ := ih (fun z hz => hne z (.tail _ hz)) h2
    refine ⟨st2, ?_, by simpa using h4⟩
    have hy : (!y.isEmpty) = true := by
      have := hne y (.head _)
      cases y with
      | nil => exact absurd rfl this
      | cons _ _ => rfl
    rw [workerLoop, rassert_true hy]
    simp only [R.ok_bind, h1]
    exact h3

theorem addLists_ok (as bs : List Nat) (h : as.length = bs.length) :
    ∃ cs, addLists as bs = .ok cs ∧ cs.length = as.length ∧
      (∀ i, cs.getD i 0 = as.getD i 0 + bs.getD i 0) ∧ cs.sum = as.sum + bs.sum := by
  induction as generalizing bs with
  | nil =>
    obtain rfl : bs = [] := List.eq_nil_of_length_eq_zero h.symm
    exact ⟨[], rfl, rfl, fun i => by simp, by simp⟩
  | cons a as ih =>
    cases bs with
    | nil => simp at h
    | cons b bs =>
      obtain ⟨cs, h1, h2, h3, h4⟩ := ih bs (by simpa using h)
      refine ⟨(a + b) :: cs, by simp only [addLists, h1, R.ok_bind], by simp [h2], ?_, by
        simp only [List.sum_cons, h4]; omega⟩
      intro i
      cases i with
      | zero => simp
      | succ i => simpa using h3 i

theorem tally_add {ts : OSet} {pairs : Bool} {f : Bytes → List Piece} {a b : OStats} {xs ys : List Bytes}
    (ha : Tally ts pairs f a xs) (hb : Tally ts pairs f b ys) :
    ∃ c, a.add b = .ok c ∧ Tally ts pairs f c (xs ++ ys) := by
  obtain ⟨tc, h1, h2, h3, h4⟩ := addLists_ok a.tokenCount b.tokenCount (by rw [ha.tlen, hb.tlen])
  obtain ⟨lc, g1, g2, g3, g4⟩ := addLists_ok a.literalCount b.literalCount (by rw [ha.llen, hb.llen])
  refine ⟨OStats.mk a.literalCost tc (fun k => a.pairCount k + b.pairCount k) lc
      (a.scannedBytes + b.scannedBytes),
    by simp only [OStats.add, h1, g1, R.ok_bind], ha.lc, h2.trans ha.tlen, g2.trans ha.llen, ?_, ?_, ?_, ?_, ?_⟩
  · simp only [ha.scanned, hb.scanned, List.map_append, List.sum_append]
  · intro i
    simp only [h3, ha.tok, hb.tok, List.map_append, List.sum_append]
  · intro i
    simp only [g3, ha.lit, hb.lit, List.map_append, List.sum_append]
  · intro k
    simp only [ha.pair, hb.pair, List.map_append, List.sum_append]
    split <;> rfl
  · intro c
    have e1 := ha.total c
    have e2 := hb.total c
    simp only [h4, g4, List.map_append, List.sum_append, ← e1, ← e2, Nat.mul_add]
    omega

theorem list_ext_getD {as bs : List Nat} (h : as.length = bs.length) (h2 : ∀ i < as.length, as.getD i 0 = bs.getD i 0) :
    as = bs := by
  refine List.ext_getElem h ?_
  intro i h3 h4
  have := h2 i h3
  simpa [List.getD_eq_getElem?_getD, List.getElem?_eq_getElem h3, List.getElem?_eq_getElem h4] using this

theorem tally_unique {ts : OSet} {pairs : Bool} {f : Bytes → List Piece} {a b : OStats} {xs : List Bytes}
    (ha : Tally ts pairs f a xs) (hb : Tally ts pairs f b xs) : a = b := by
  have h1 : a.tokenCount = b.tokenCount :=
    list_ext_getD (by rw [ha.tlen, hb.tlen]) (fun i _ => by rw [ha.tok, hb.tok])
  have h2 : a.literalCount = b.literalCount := by
    refine list_ext_getD (by rw [ha.llen, hb.llen]) (fun i hi => ?_)
    rw [ha.llen] at hi
    have := ha.lit (UInt8.ofNat i)
    have h4 := hb.lit (UInt8.ofNat i)
    have h5 : (UInt8.ofNat i).toNat = i := by rw [UInt8.toNat_ofNat']; exact Nat.mod_eq_of_lt hi
    rw [h5] at this h4
    rw [this, h4]
  have h3 : a.pairCount = b.pairCount := funext fun k => by rw [ha.pair, hb.pair]
  cases a
  cases b
  have h4 := ha.lc.trans hb.lc.symm
  have h5 := ha.scanned.trans hb.scanned.symm
  simp only at h1 h2 h3 h4 h5
  subst h1 h2 h3 h4 h5
  rfl

theorem tally_collect {ts : OSet} {pairs : Bool} {f : Bytes → List Piece} (rs : List OStats) (xss : List (List Bytes))
    (h : List.Forall₂ (fun r xs => Tally ts pairs f r xs) rs xss) {st : OStats} {xs : List Bytes}
    (ht : Tally ts pairs f st xs) : ∃ st', collect rs st = .ok st' ∧ Tally ts pairs f st' (xs ++ xss.flatten) := by
  induction h generalizing st xs with
  | nil => exact ⟨st, rfl, by simpa using ht⟩
  | @cons r ys rs yss h1 h2 ih =>
    obtain ⟨st1, g1, g2⟩ := tally_add ht h1
    obtain ⟨st2, g3, g4⟩ := ih g2
    exact ⟨st2, by simp only [collect, g1, R.ok_bind]; exact g3, by simpa using g4⟩

theorem tally_counted {ts : OSet} {pairs : Bool} {f : Bytes → List Piece} {st : OStats} {xs : List Bytes}
    (h : Tally ts pairs f st xs) (hf : ∀ x, ∃ y, Spells ts (f x) y) (hbig : pairs = true → ts.tokens.length ≤ 65536) :
    Counted st xs (xs.map f) pairs := by
  refine ⟨?_, ?_, ?_, ?_⟩
  · intro i; rw [h.tok, List.map_map]; rfl
  · intro b; rw [h.lit, List.map_map]; rfl
  · intro i j hi hj
    have := h.pair (keyOf (i, j))
    rw [show i * 65536 + j = keyOf (i, j) from rfl, this]
    cases pairs with
    | false => rfl
    | true =>
      simp only [if_true, List.map_map]
      congr 1
      apply List.map_congr_left
      intro x _
      obtain ⟨y, hy⟩ := hf x
      have hlt : ∀ ab ∈ neighbours (f x), ab.1 < 65536 ∧ ab.2 < 65536 := by
        have hall : ∀ k, Piece.tok k ∈ f x → k < 65536 := by
          intro k hk
          have : k < ts.tokens.length := by
            clear h this hi hj
            generalize f x = ps at hy hk
            induction hy with
            | nil => cases hk
            | cons hp _ ih =>
              rcases List.mem_cons.1 hk with rfl | hk
              · simp only [text, Option.map_eq_some_iff] at hp
                obtain ⟨t, ht, -⟩ := hp
                exact (List.getElem?_eq_some_iff.1 ht).1
              · exact ih hk
          have := hbig rfl
          omega
        clear this hy
        generalize f x = ps at hall
        induction ps with
        | nil => intro ab hab; rw [neighbours] at hab; cases hab
        | cons p ps ih =>
          have ih' := ih (fun k hk => hall k (.tail _ hk))
          cases ps with
          | nil => rw [neighbours_single]; intro ab hab; cases hab
          | cons q ps =>
            rw [neighbours_cons]
            intro ab hab
            rcases List.mem_append.1 hab with hab | hab
            · cases p <;> cases q <;> simp only [pairOf, List.mem_singleton, List.not_mem_nil] at hab
              subst hab
              exact ⟨hall _ (.head _), hall _ (.tail _ (.head _))⟩
            · exact ih' ab hab
      clear hy
      show ((neighbours (f x)).map keyOf).count (keyOf (i, j)) = (neighbours (f x)).count (i, j)
      generalize neighbours (f x) = l at hlt
      induction l with
      | nil => rfl
      | cons ab l ih =>
        have ih' := ih (fun z hz => hlt z (.tail _ hz))
        obtain ⟨a, b⟩ := ab
        have := hlt (a, b) (.head _)
        rw [List.map_cons, List.count_cons, List.count_cons, ih']
        congr 1
        by_cases hab : (a, b) = (i, j)
        · rw [hab]; simp
        · have hk : keyOf (a, b) ≠ keyOf (i, j) := by
            intro he
            simp only [keyOf] at he this
            apply hab
            have h1 : a = i := by omega
            have h2 : b = j := by omega
            rw [h1, h2]
          rw [beq_eq_false_iff_ne.2 hab, beq_eq_false_iff_ne.2 hk]
  · rw [h.scanned, List.length_flatten]

/-- Results that arrive in another order. -/
theorem forall2_perm {α β : Type} {P : α → β → Prop} {as bs : List α} {xs : List β} (h : List.Forall₂ P as xs)
    (hp : bs.Perm as) : ∃ ys, ys.Perm xs ∧ List.Forall₂ P bs ys := by
  induction hp generalizing xs with
  | nil => exact ⟨xs, List.Perm.refl _, h⟩
  | cons a _ ih =>
    cases h with
    | cons h1 h2 =>
      obtain ⟨ys, e1, e2⟩ := ih h2
      exact ⟨_ :: ys, e1.cons _, .cons h1 e2⟩
  | swap a b l =>
    cases h with
    | cons h1 h2 =>
      cases h2 with
      | cons h2 h3 => exact ⟨_, .swap _ _ _, .cons h2 (.cons h1 h3)⟩
  | trans _ _ ih1 ih2 =>
    obtain ⟨ys, e1, e2⟩ := ih2 h
    obtain ⟨zs, e3, e4⟩ := ih1 e2
    exact ⟨zs, e3.trans e1, e4⟩

theorem tally_shares {ts : OSet} {tk : Tokenizer} (h : TkOK ts tk) {pairs : Bool}
    (hbig : pairs = true → ts.tokens.length ≤ 65536) (shares : List (List Bytes))
    (hne : ∀ s ∈ shares.flatten, s ≠ []) :
    ∃ results, shares.map (fun ss => workerLoop tk pairs ss
        (OStats.new ts.tokens.length ts.literal.literalCost)) = results.map Except.ok ∧
      List.Forall₂ (fun r ss => Tally ts pairs (seg h hbig) r ss) results shares := by
  induction shares with
  | nil => exact ⟨[], rfl, .nil⟩
  | cons ss shares ih =>
    obtain ⟨rs, e1, e2⟩ := ih (fun s hs => hne s (by rw [List.flatten_cons]; exact List.mem_append_right _ hs))
    obtain ⟨r, e3, e4⟩ := tally_worker h hbig ss
      (fun s hs => hne s (by rw [List.flatten_cons]; exact List.mem_append_left _ hs)) (tally_new ts pairs (seg h hbig))
    refine ⟨r :: rs, ?_, .cons (by simpa using e4) e2⟩
    rw [List.map_cons, List.map_cons, e1, e3]

theorem map_ok_inj {α : Type} {as bs : List α} (h : as.map (Except.ok : α → R α) = bs.map Except.ok) : as = bs := by
  induction as generalizing bs with
  | nil => cases bs <;> simp at h ⊢
  | cons a as ih =>
    cases bs with
    | nil => simp at h
    | cons b bs =>
      rw [List.map_cons, List.map_cons] at h
      injection h with h1 h2
      injection h1 with h1
      rw [h1, ih h2]

/-- Whatever the workers do, the result is that of one worker. -/
theorem file_ok {ts : OSet} {tk : Tokenizer} (hn : Tokenizer.new ts = .ok tk) (h : TkOK ts tk) {pairs : Bool}
    (hbig : pairs = true → ts.tokens.length ≤ 65536) {samples : List Bytes} (hne : ∀ s ∈ samples, s ≠ [])
    {nthreads : Nat} {r : R OStats} (hr : TokenizeFile ts samples pairs nthreads r) :
    ∃ st, r = .ok st ∧ Tally ts pairs (seg h hbig) st samples := by
  cases hr with
  | newPanic h' => rw [hn] at h'; cases h'
  | @run tk' shares results order h1 h2 h3 h4 h5 =>
    rw [hn] at h1
    cases h1
    obtain ⟨results', e1, e2⟩ := tally_shares h hbig shares (fun s hs => hne s (h3.mem_iff.1 hs))
    rw [h4] at e1
    have := map_ok_inj e1
    subst this
    obtain ⟨xss, e3, e4⟩ := forall2_perm e2 h5
    obtain ⟨st, e5, e6⟩ := tally_collect order xss e4 (tally_new ts pairs (seg h hbig))
    refine ⟨st, e5, tally_perm e6 ?_⟩
    rw [List.nil_append]
    exact e3.flatten.trans h3

end Tokens.Old
