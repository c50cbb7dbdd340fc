import Verif.Spec.Chars
import Verif.Proofs.Utf8
import Verif.Proofs.TokenSetOps

/-! Proofs about the tokenizer over characters. -/

namespace Tokens
namespace Chars
open Spec.Chars Input

/-! ### Sets -/

/-- The table of the strings finds exactly the texts of the tokens. -/
structure SetOk (ts : CSet) : Prop where
  sound : ∀ s i, ts.byStr s = some i → ∃ t, ts.tokens[i]? = some t ∧ t.text = some s
  complete : ∀ s, IsToken ts s → ∃ i, ts.byStr s = some i

theorem addEncoding_tokens (ts : CSet) (c : Char) (e : List Nat) : (ts.addEncoding c e).tokens = ts.tokens := by
  unfold CSet.addEncoding; split <;> rfl

theorem addEncoding_byStr (ts : CSet) (c : Char) (e : List Nat) : (ts.addEncoding c e).byStr = ts.byStr := by
  unfold CSet.addEncoding; split <;> rfl

theorem setOk_push {ts ts' : CSet} {t : CToken} {s : Text} (h : SetOk ts) (ht : t.text = some s)
    (h1 : ts'.tokens = ts.tokens ++ [t])
    (h2 : ts'.byStr = fun x => if x = s then some ts.tokens.length else ts.byStr x) : SetOk ts' := by
  constructor
  · intro x i hx
    rw [h2] at hx
    dsimp only at hx
    split at hx
    · rename_i e
      injection hx with hx
      subst hx e
      exact ⟨t, by rw [h1]; simp, ht⟩
    · obtain ⟨u, hu, hu'⟩ := h.sound x i hx
      refine ⟨u, ?_, hu'⟩
      rw [h1, List.getElem?_append_left (List.getElem?_eq_some_iff.1 hu).1]
      exact hu
  · rintro x ⟨u, hu, hu'⟩
    rw [h2]
    dsimp only
    split
    · exact ⟨_, rfl⟩
    · rename_i e
      rw [h1, List.mem_append] at hu
      rcases hu with hu | hu
      · exact h.complete x ⟨u, hu, hu'⟩
      · rw [List.mem_singleton] at hu
        subst hu
        rw [ht] at hu'
        injection hu' with hu'
        exact absurd hu'.symm e

theorem made_ok {ts : CSet} (h : Made ts) : SetOk ts := by
  induction h with
  | new n =>
    constructor
    · intro s i h; cases h
    · rintro s ⟨t, ht, hs⟩
      simp only [CSet.new, List.mem_map] at ht
      obtain ⟨a, _, rfl⟩ := ht
      cases hs
  | char c h ih =>
    refine setOk_push (t := .char c) (s := [c]) ih rfl ?_ ?_
    · unfold CSet.addCharToken; rw [addEncoding_tokens]
    · unfold CSet.addCharToken; rw [addEncoding_byStr]
  | string s h ih => exact setOk_push (t := .str s) (s := s) ih rfl rfl rfl
  | encoding c e h ih =>
    refine ⟨?_, ?_⟩
    · rw [addEncoding_byStr, addEncoding_tokens]; exact ih.sound
    · unfold IsToken; rw [addEncoding_byStr, addEncoding_tokens]; exact ih.complete

theorem isToken_of {ts : CSet} (h : SetOk ts) {s : Text} {i : Nat} (hs : ts.byStr s = some i) : IsToken ts s := by
  obtain ⟨t, ht, hs⟩ := h.sound s i hs
  exact ⟨t, List.mem_of_getElem? ht, hs⟩

theorem maxBytesFrom_ge (l : List CToken) (m : Nat) : m ≤ CSet.maxBytesFrom l m := by
  induction l generalizing m with
  | nil => exact Nat.le_refl _
  | cons t l ih =>
    cases t with
    | ext n => exact ih m
    | char c => exact Nat.le_trans (Nat.le_max_left _ _) (ih _)
    | str s => exact Nat.le_trans (Nat.le_max_left _ _) (ih _)

theorem maxBytesFrom_text {l : List CToken} {m : Nat} {t : CToken} {s : Text} (ht : t ∈ l)
    (hs : t.text = some s) : (utf8Encode s).length ≤ CSet.maxBytesFrom l m := by
  induction l generalizing m with
  | nil => cases ht
  | cons u l ih =>
    rw [List.mem_cons] at ht
    rcases ht with rfl | ht
    · cases t with
      | ext n => cases hs
      | char c =>
        injection hs with hs
        subst hs
        exact Nat.le_trans (Nat.le_max_right _ _) (maxBytesFrom_ge _ _)
      | str x =>
        injection hs with hs
        subst hs
        exact Nat.le_trans (Nat.le_max_right _ _) (maxBytesFrom_ge _ _)
    · cases u with
      | ext n => exact ih ht
      | char c => exact ih ht
      | str s => exact ih ht

theorem char_length (c : Char) : 0 < (String.utf8EncodeChar c).length ∧ (String.utf8EncodeChar c).length ≤ 4 := by
  obtain ⟨l, r, e, _, _, h, _⟩ := char_shape c
  rw [e, List.length_cons]
  omega

theorem encode_pos {s : Text} (h : s ≠ []) : 0 < (utf8Encode s).length := by
  cases s with
  | nil => exact absurd rfl h
  | cons c s =>
    rw [utf8Encode_cons, List.length_append]
    have := (char_length c).1
    omega

theorem says_length {ts : CSet} {p : Piece} {s : Text} (h : Says ts p s) :
    (utf8Encode s).length ≤ ts.maxBytes := by
  cases h with
  | tok hi hs => exact maxBytesFrom_text (List.mem_of_getElem? hi) hs
  | @lit c h =>
    rw [utf8Encode_singleton]
    exact Nat.le_trans (char_length c).2 (maxBytesFrom_ge _ _)

/-! ### Costs -/

/-- The cost of a piece as the code sees it. -/
def price (ts : CSet) : Piece → Nat
  | .tok _ => 1
  | .lit c => ts.charCost c

def pcost (ts : CSet) (ps : List Piece) : Nat := (ps.map (price ts)).sum

theorem pcost_cost {ts : CSet} (h : ShortEncodings ts) (ps : List Piece) : pcost ts ps = cost ts ps := by
  induction ps with
  | nil => rfl
  | cons p ps ih =>
    unfold pcost at ih ⊢
    rw [List.map_cons, List.sum_cons, ih]
    cases p with
    | tok i => rfl
    | lit c =>
      have h1 := h c
      show ts.charCost c + _ = encLength ts c + _
      congr 1
      unfold encLength at h1 ⊢
      unfold CSet.charCost
      split
      · rename_i hc
        rw [if_pos hc] at h1
        exact Nat.mod_eq_of_lt h1
      · rename_i hc
        rw [if_neg hc] at h1
        cases he : ts.hiEnc c with
        | none => rfl
        | some e =>
          rw [he] at h1
          exact Nat.mod_eq_of_lt h1

theorem pcost_snoc (ts : CSet) (ps : List Piece) (p : Piece) : pcost ts (ps ++ [p]) = pcost ts ps + price ts p := by
  unfold pcost
  rw [List.map_append, List.sum_append]
  simp

theorem spells_snoc {ts : CSet} {ps : List Piece} {x s : Text} {p : Piece} (h : Spells ts ps x)
    (hp : Says ts p s) : Spells ts (ps ++ [p]) (x ++ s) := by
  induction h with
  | nil =>
    have := Spells.cons hp .nil
    simpa using this
  | cons h1 h2 ih =>
    rw [List.append_assoc]
    exact .cons h1 ih

theorem spells_snoc_inv {ts : CSet} {ps : List Piece} {p : Piece} {x : Text} (h : Spells ts (ps ++ [p]) x) :
    ∃ y s, x = y ++ s ∧ Spells ts ps y ∧ Says ts p s := by
  induction ps generalizing x with
  | nil =>
    cases h with
    | @cons _ _ s y hp h2 =>
      cases h2
      exact ⟨[], s, by simp, .nil, hp⟩
  | cons q ps ih =>
    cases h with
    | @cons _ _ s y hp h2 =>
      obtain ⟨y', s', rfl, h3, h4⟩ := ih h2
      exact ⟨s ++ y', s', by simp, .cons hp h3, h4⟩

/-! ### The states -/

/-- The piece that a state names. -/
inductive Picks : TokenId → Piece → Prop where
  | tok (i : Nat) : Picks (.token i) (.tok i)
  | lit (c : Char) : Picks (.literal c) (.lit c)

/-- How a state at a boundary was reached. -/
inductive Last (ts : CSet) (states : List St) : Nat → St → Text → Prop where
  | start {st : St} (hc : st.cost = 0) (ht : st.token = .start) : Last ts states 0 st []
  | step {q : Nat} {st prev : St} {x s : Text} {p : Piece} (hprev : states[(utf8Encode x).length]? = some prev)
      (hq : q = (utf8Encode (x ++ s)).length) (hs : s ≠ []) (hp : Says ts p s) (hpick : Picks st.token p)
      (hvalid : prev.token ≠ .invalid) (hcost : st.cost = prev.cost + price ts p) : Last ts states q st (x ++ s)

theorem Last.mono {ts : CSet} {states more : List St} {q : Nat} {st : St} {x : Text}
    (h : Last ts states q st x) : Last ts (states ++ more) q st x := by
  cases h with
  | start a b => exact .start a b
  | step h1 h2 h3 h4 h5 h6 h7 =>
    refine .step ?_ h2 h3 h4 h5 h6 h7
    rw [List.getElem?_append_left (List.getElem?_eq_some_iff.1 h1).1]
    exact h1

/-- A good state at a boundary. -/
structure Good (ts : CSet) (b : Bytes) (states : List St) (q : Nat) (st : St) (x : Text) : Prop where
  text : b.take q = utf8Encode x
  last : Last ts states q st x
  least : ∀ qs, Spells ts qs x → st.cost ≤ pcost ts qs

/-- What holds of every state. -/
def StOk (ts : CSet) (b : Bytes) (states : List St) (q : Nat) (st : St) : Prop :=
  (st.token = .invalid ∧ q ≠ 0 ∧ isInside b q = true) ∨
    (st.token ≠ .invalid ∧ ∃ x, Good ts b states q st x)

def Inv (ts : CSet) (b : Bytes) (states : List St) : Prop :=
  ∀ q st, states[q]? = some st → StOk ts b states q st

theorem inside_iff {b : Bytes} {q : Nat} :
    isInside b q = true ↔ ∃ x, b[q]? = some x ∧ isCharStart x = false := by
  unfold isInside
  cases h : b[q]? with
  | none => simp
  | some x =>
    simp only [Option.some.injEq, exists_eq_left']
    unfold isCharStart
    have h1 : (x < 128) ↔ x.toNat < 128 := by rw [UInt8.lt_iff_toNat_lt]; rfl
    have h2 : (x ≥ 192) ↔ x.toNat ≥ 192 := by rw [ge_iff_le, UInt8.le_iff_toNat_le]; rfl
    simp only [h1, h2, Bool.and_eq_true, decide_eq_true_eq, Bool.or_eq_false_iff, decide_eq_false_iff_not]
    omega

theorem slice_append (b : Bytes) {f pos : Nat} (h : f ≤ pos) :
    b.take pos = b.take f ++ (b.drop f).take (pos - f) := by
  have : pos = f + (pos - f) := by omega
  conv => lhs; rw [this]
  rw [List.take_add]

theorem pieceOf_iff {ts : CSet} {c : Nat} {s : Bytes} {x : St} : pieceOf ts c s = some x ↔
    (∃ t i, s = utf8Encode t ∧ ts.byStr t = some i ∧ x = ⟨c + 1, .token i⟩) ∨
    (∃ d, s = utf8Encode [d] ∧ ts.byStr [d] = none ∧ x = ⟨c + ts.charCost d, .literal d⟩) := by
  unfold pieceOf
  constructor
  · intro h
    split at h
    · cases h
    · rename_i t ht
      rw [utf8Decode_iff] at ht
      split at h
      · rename_i i hi
        injection h with h
        exact .inl ⟨t, i, ht, hi, h.symm⟩
      · rename_i hi
        split at h
        · rename_i d
          injection h with h
          exact .inr ⟨d, ht, hi, h.symm⟩
        · cases h
  · rintro (⟨t, i, rfl, h, rfl⟩ | ⟨d, rfl, h, rfl⟩)
    · rw [utf8Decode_encode]; simp only [h]
    · rw [utf8Decode_encode]; simp only [h]

theorem candidate_iff {ts : CSet} {b : Bytes} {states : List St} {pos f : Nat} {x : St} :
    candidate ts b states pos f = .ok (some x) ↔
      ∃ prev, states[f]? = some prev ∧ prev.token ≠ .invalid ∧
        pieceOf ts prev.cost ((b.drop f).take (pos - f)) = some x := by
  unfold candidate getR
  cases h : states[f]? with
  | none => simp [R.error_bind]
  | some prev =>
    simp only [R.ok_bind, Option.some.injEq, exists_eq_left']
    cases prev.token <;> simp

theorem candidate_ok {ts : CSet} {b : Bytes} {states : List St} {pos f : Nat} (h : f < states.length) :
    ∃ o, candidate ts b states pos f = .ok o := by
  unfold candidate getR
  rw [List.getElem?_eq_getElem h]
  exact ⟨_, rfl⟩

theorem bestOf_spec {ts : CSet} {b : Bytes} {states : List St} {pos : Nat} (fs : List Nat)
    (best : Option St) (hf : ∀ f ∈ fs, f < states.length) :
    ∃ r, bestOf ts b states pos fs best = .ok r ∧
      (∀ x, r = some x → best = some x ∨ ∃ f ∈ fs, candidate ts b states pos f = .ok (some x)) ∧
      (∀ f ∈ fs, ∀ y, candidate ts b states pos f = .ok (some y) → ∃ x, r = some x ∧ x.cost ≤ y.cost) ∧
      (∀ y, best = some y → ∃ x, r = some x ∧ x.cost ≤ y.cost) := by
  induction fs generalizing best with
  | nil =>
    refine ⟨best, rfl, fun x h => .inl h, ?_, fun y h => ⟨y, h, Nat.le_refl _⟩⟩
    intro f hf; cases hf
  | cons f fs ih =>
    obtain ⟨o, ho⟩ := candidate_ok (ts := ts) (b := b) (pos := pos) (hf f (List.mem_cons_self ..))
    unfold bestOf
    rw [ho, R.ok_bind]
    obtain ⟨r, h1, h2, h3, h4⟩ := ih (better o best)
      (fun g hg => hf g (List.mem_cons_of_mem _ hg))
    refine ⟨r, h1, ?_, ?_, ?_⟩
    · intro x hx
      rcases h2 x hx with h | ⟨g, hg, h⟩
      · cases o with
        | none => exact .inl h
        | some y =>
          cases best with
          | none => exact .inr ⟨f, List.mem_cons_self .., by rw [ho]; exact congrArg _ h⟩
          | some z =>
            dsimp only [better] at h
            split at h
            · exact .inr ⟨f, List.mem_cons_self .., by rw [ho]; exact congrArg _ h⟩
            · exact .inl h
      · exact .inr ⟨g, List.mem_cons_of_mem _ hg, h⟩
    · intro g hg y hy
      rw [List.mem_cons] at hg
      rcases hg with rfl | hg
      · rw [ho] at hy
        have hy := Except.ok.inj hy
        subst hy
        cases best with
        | none => exact h4 y rfl
        | some z =>
          dsimp only [better] at h4
          by_cases hz : y.cost < z.cost
          · rw [if_pos hz] at h4
            exact h4 y rfl
          · rw [if_neg hz] at h4
            obtain ⟨x, hx, hx'⟩ := h4 z rfl
            exact ⟨x, hx, by omega⟩
      · exact h3 g hg y hy
    · intro y hy
      subst hy
      cases o with
      | none => exact h4 y rfl
      | some z =>
        dsimp only [better] at h4
        by_cases hz : z.cost < y.cost
        · rw [if_pos hz] at h4
          obtain ⟨x, hx, hx'⟩ := h4 z rfl
          exact ⟨x, hx, by omega⟩
        · rw [if_neg hz] at h4
          exact h4 y rfl

theorem mem_starts {m pos f : Nat} : f ∈ starts m pos ↔ pos - m ≤ f ∧ f < pos := by
  unfold starts
  rw [List.mem_range'_1]
  omega

/-- A cut before a boundary gives a candidate. -/
theorem candidate_of {ts : CSet} {b : Bytes} {states : List St} {pos : Nat} (hok : SetOk ts)
    (hinv : Inv ts b states) (hlen : states.length = pos) (hpos : pos ≤ b.length) {x s : Text} {p : Piece}
    (htake : b.take pos = utf8Encode (x ++ s)) (hs : s ≠ []) (hp : Says ts p s) :
    ∃ f ∈ starts ts.maxBytes pos, ∃ prev y, states[f]? = some prev ∧ candidate ts b states pos f = .ok (some y) ∧
      Good ts b states f prev x ∧ y.cost = prev.cost + price ts p := by
  have hl : pos = (utf8Encode x).length + (utf8Encode s).length := by
    have := congrArg List.length htake
    rw [utf8Encode_append, List.length_append, List.length_take, Nat.min_eq_left hpos] at this
    exact this
  have hsl := encode_pos hs
  have hm := says_length hp
  have hf : (utf8Encode x).length < states.length := by omega
  have htx : b.take (utf8Encode x).length = utf8Encode x := by
    have := congrArg (List.take (utf8Encode x).length) htake
    rw [utf8Encode_append, List.take_append_of_le_length (Nat.le_refl _), List.take_take,
      Nat.min_eq_left (by omega), List.take_length] at this
    exact this
  have hts : (b.drop (utf8Encode x).length).take (pos - (utf8Encode x).length) = utf8Encode s := by
    have := slice_append b (f := (utf8Encode x).length) (pos := pos) (by omega)
    rw [htx, htake, utf8Encode_append] at this
    exact (List.append_cancel_left this).symm
  obtain ⟨prev, hprev⟩ : ∃ prev, states[(utf8Encode x).length]? = some prev :=
    ⟨_, List.getElem?_eq_getElem hf⟩
  have hgood : prev.token ≠ .invalid ∧ Good ts b states (utf8Encode x).length prev x := by
    rcases hinv _ _ hprev with ⟨_, h0, hin⟩ | ⟨hv, x', hg⟩
    · exfalso
      obtain ⟨c, hc, hc'⟩ := inside_iff.1 hin
      have : (utf8Encode s).head? = some c := by
        rw [← hts, List.head?_take, if_neg (by omega), List.head?_drop]
        exact hc
      rw [utf8Encode_head s c this] at hc'
      cases hc'
    · have : x' = x := utf8Encode_inj (by rw [← hg.text, htx])
      subst this
      exact ⟨hv, hg⟩
  refine ⟨(utf8Encode x).length, mem_starts.2 (by omega), prev, ?_⟩
  cases hp with
  | @tok i t _ hi ht =>
    obtain ⟨j, hj⟩ := hok.complete s ⟨t, List.mem_of_getElem? hi, ht⟩
    exact ⟨⟨prev.cost + 1, .token j⟩, hprev,
      candidate_iff.2 ⟨prev, hprev, hgood.1, pieceOf_iff.2 (.inl ⟨s, j, hts, hj, rfl⟩)⟩, hgood.2, rfl⟩
  | @lit c h =>
    have hn : ts.byStr [c] = none := by
      cases hb : ts.byStr [c] with
      | none => rfl
      | some i => exact absurd (isToken_of hok hb) h
    exact ⟨⟨prev.cost + ts.charCost c, .literal c⟩, hprev,
      candidate_iff.2 ⟨prev, hprev, hgood.1, pieceOf_iff.2 (.inr ⟨c, hts, hn, rfl⟩)⟩, hgood.2, rfl⟩

/-- Every candidate comes from a cut. -/
theorem of_candidate {ts : CSet} {b : Bytes} {states : List St} {pos f : Nat} (hok : SetOk ts)
    (hinv : Inv ts b states) (hf : f < pos) (hpos : pos ≤ b.length) {y : St}
    (h : candidate ts b states pos f = .ok (some y)) :
    ∃ z, b.take pos = utf8Encode z ∧ Last ts states pos y z ∧ y.token ≠ .invalid := by
  obtain ⟨prev, hprev, hv, hp⟩ := candidate_iff.1 h
  rcases hinv _ _ hprev with ⟨h1, _⟩ | ⟨_, x, hg⟩
  · exact absurd h1 hv
  have hfl : f = (utf8Encode x).length := by
    rw [← hg.text, List.length_take]
    omega
  have hne : ((b.drop f).take (pos - f)) ≠ [] := by
    intro e
    have := congrArg List.length e
    rw [List.length_take, List.length_drop] at this
    simp only [List.length_nil] at this
    omega
  have hsl := slice_append b (f := f) (pos := pos) (by omega)
  have key : ∀ (s : Text) (p : Piece), (b.drop f).take (pos - f) = utf8Encode s → Says ts p s →
      Picks y.token p → y.cost = prev.cost + price ts p →
      ∃ z, b.take pos = utf8Encode z ∧ Last ts states pos y z := by
    intro s p hs hsay hpick hcost
    have ht : b.take pos = utf8Encode (x ++ s) := by rw [utf8Encode_append, hsl, hg.text, hs]
    refine ⟨x ++ s, ht, .step (prev := prev) (p := p) (by rw [← hfl]; exact hprev) ?_ ?_ hsay hpick hv hcost⟩
    · rw [← ht, List.length_take]; omega
    · rintro rfl; exact hne hs
  rcases pieceOf_iff.1 hp with ⟨t, i, hs, hi, rfl⟩ | ⟨d, hs, hi, rfl⟩
  · obtain ⟨u, hu, hu'⟩ := hok.sound t i hi
    obtain ⟨z, h1, h2⟩ := key t (.tok i) hs (.tok hu hu') (.tok i) rfl
    exact ⟨z, h1, h2, by simp⟩
  · obtain ⟨z, h1, h2⟩ := key [d] (.lit d) hs (.lit (fun hn => by
      obtain ⟨i, hi'⟩ := hok.complete _ hn
      rw [hi] at hi'; cases hi')) (.lit d) rfl
    exact ⟨z, h1, h2, by simp⟩

theorem inv_push {ts : CSet} {b : Bytes} {states : List St} {st : St} (hinv : Inv ts b states)
    (h : StOk ts b (states ++ [st]) states.length st) : Inv ts b (states ++ [st]) := by
  intro q s hs
  by_cases hq : q < states.length
  · rw [List.getElem?_append_left hq] at hs
    rcases hinv q s hs with h1 | ⟨h1, x, h2, h3, h4⟩
    · exact .inl h1
    · exact .inr ⟨h1, x, h2, h3.mono, h4⟩
  · have hl := (List.getElem?_eq_some_iff.1 hs).1
    rw [List.length_append, List.length_singleton] at hl
    have : q = states.length := by omega
    subst this
    simp at hs
    subst hs
    exact h

/-- One position that is not inside a character. -/
theorem best_step {ts : CSet} {b : Bytes} {states : List St} (hok : SetOk ts)
    (hinv : Inv ts b states) (h0 : 0 < states.length) (hpos : states.length ≤ b.length) :
    ∃ r, bestOf ts b states states.length (starts ts.maxBytes states.length) none = .ok r ∧
      (∀ st, r = some st → StOk ts b (states ++ [st]) states.length st) ∧
      (validUtf8 (b.take states.length) = true → ∃ st, r = some st) := by
  obtain ⟨r, h1, h2, h3, -⟩ := bestOf_spec (ts := ts) (b := b) (states := states) (pos := states.length)
    (starts ts.maxBytes states.length) none (fun f hf => (mem_starts.1 hf).2)
  refine ⟨r, h1, ?_, ?_⟩
  · intro st hst
    rcases h2 st hst with h | ⟨f, hf, hc⟩
    · cases h
    obtain ⟨z, hz, hlast, hv⟩ := of_candidate hok hinv (mem_starts.1 hf).2 hpos hc
    refine .inr ⟨hv, z, hz, hlast.mono, ?_⟩
    intro qs hqs
    -- strip the empty pieces at the end
    induction hn : qs.length generalizing qs with
    | zero =>
      rw [List.length_eq_zero_iff] at hn
      subst hn
      cases hqs
      exfalso
      have := congrArg List.length hz
      rw [List.length_take, utf8Encode_nil, List.length_nil] at this
      omega
    | succ n ih =>
      obtain ⟨init, p, rfl⟩ : ∃ init p, qs = init ++ [p] := by
        have : qs ≠ [] := by rintro rfl; cases hn
        exact ⟨qs.dropLast, qs.getLast this, (List.dropLast_append_getLast this).symm⟩
      obtain ⟨x, s, hzs, hi, hp⟩ := spells_snoc_inv hqs
      rw [pcost_snoc]
      rw [List.length_append, List.length_singleton] at hn
      by_cases hs : s = []
      · subst hs
        rw [List.append_nil] at hzs
        subst hzs
        have := ih init hi (by omega)
        omega
      · subst hzs
        obtain ⟨g, hg, prev, y, _, hy, hgood, hcost⟩ := candidate_of hok hinv rfl hpos hz hs hp
        obtain ⟨x', hx', hle⟩ := h3 g hg y hy
        rw [hst] at hx'
        have hx' := Option.some.inj hx'
        subst hx'
        have := hgood.least init hi
        omega
  · intro hv
    obtain ⟨cs, hcs⟩ := validUtf8_iff.1 hv
    have hne : cs ≠ [] := by
      rintro rfl
      have := congrArg List.length hcs
      rw [List.length_take, utf8Encode_nil, List.length_nil] at this
      omega
    have hcs' : b.take states.length = utf8Encode (cs.dropLast ++ [cs.getLast hne]) := by
      rw [List.dropLast_append_getLast hne]; exact hcs
    have hsay : ∃ p, Says ts p [cs.getLast hne] := by
      by_cases ht : IsToken ts [cs.getLast hne]
      · obtain ⟨t, hm, ht⟩ := ht
        obtain ⟨i, hi⟩ := List.getElem?_of_mem hm
        exact ⟨.tok i, .tok hi ht⟩
      · exact ⟨_, .lit ht⟩
    obtain ⟨p, hp⟩ := hsay
    obtain ⟨g, hg, prev, y, _, hy, _, _⟩ := candidate_of hok hinv rfl hpos hcs' (by simp) hp
    obtain ⟨x, hx, _⟩ := h3 g hg y hy
    exact ⟨x, hx⟩

/-- The loop over the positions. -/
theorem positions_spec {ts : CSet} {b : Bytes} (hok : SetOk ts) (n : Nat) (states : List St)
    (hinv : Inv ts b states) (h0 : 0 < states.length) (hn : states.length + n = b.length + 1) :
    (∃ all, positions ts b (List.range' states.length n) states = .ok all ∧ Inv ts b all ∧
      all.length = b.length + 1) ∨
    (positions ts b (List.range' states.length n) states = .error .assertFailed ∧ validUtf8 b = false) := by
  induction n generalizing states with
  | zero => exact .inl ⟨states, rfl, hinv, by omega⟩
  | succ n ih =>
    rw [List.range'_succ]
    unfold positions
    have next : ∀ st, Inv ts b (states ++ [st]) →
        (∃ all, positions ts b (List.range' (states.length + 1) n) (states ++ [st]) = .ok all ∧ Inv ts b all ∧
          all.length = b.length + 1) ∨
        (positions ts b (List.range' (states.length + 1) n) (states ++ [st]) = .error .assertFailed ∧
          validUtf8 b = false) := by
      intro st h
      have := ih (states ++ [st]) h (by simp) (by rw [List.length_append, List.length_singleton]; omega)
      rw [List.length_append, List.length_singleton] at this
      exact this
    cases hin : isInside b states.length with
    | true =>
      rw [if_pos rfl]
      exact next _ (inv_push hinv (.inl ⟨rfl, by omega, hin⟩))
    | false =>
      rw [if_neg (by simp)]
      obtain ⟨r, h1, h2, h3⟩ := best_step hok hinv h0 (by omega)
      rw [h1, R.ok_bind]
      cases r with
      | some st => exact next st (inv_push hinv (h2 st rfl))
      | none =>
        refine .inr ⟨rfl, ?_⟩
        cases hv : validUtf8 b with
        | false => rfl
        | true =>
          exfalso
          have hsplit := hv
          rw [← List.take_append_drop states.length b] at hsplit
          have := (valid_split_iff hsplit).2 (by
            intro x hx
            rw [List.head?_drop] at hx
            cases hc : isCharStart x with
            | true => rfl
            | false =>
              rw [inside_iff.2 ⟨x, hx, hc⟩] at hin
              cases hin)
          obtain ⟨st, hst⟩ := h3 this.1
          cases hst

theorem inv_start (ts : CSet) (b : Bytes) : Inv ts b [{ cost := 0, token := .start }] := by
  intro q st h
  have hq := (List.getElem?_eq_some_iff.1 h).1
  simp only [List.length_singleton] at hq
  have : q = 0 := by omega
  subst this
  simp at h
  subst h
  exact .inr ⟨by simp, [], by simp, .start rfl rfl, fun qs _ => Nat.zero_le _⟩

/-! ### The way back -/

/-- The first token of the pieces, as the code remembers it. -/
def firstTok : List Piece → Option Nat
  | .tok i :: _ => some (i % 65536)
  | _ => none

/-- The pairs of neighbours, as the code counts them. -/
def pairsOf : List Piece → List (Nat × Nat)
  | .tok a :: .tok b :: ps => (a % 65536, b % 65536) :: pairsOf (.tok b :: ps)
  | _ :: ps => pairsOf ps
  | [] => []

/-- The statistics of a list of pieces. -/
structure Tallied (ts : CSet) (st : CStats) (ps : List Piece) : Prop where
  total : st.total = pcost ts ps
  literals : st.literals = ps.countP (isLiteral ts)
  pairs : ∀ i j, st.pairs i j = (pairsOf ps).count (i, j)

theorem tallied_tok {ts : CSet} {st st1 : CStats} {ps : List Piece} {i : Nat} (h : Tallied ts st ps)
    (h1 : CStats.countToken ts st i = .ok st1) :
    Tallied ts (st1.countPair i (firstTok ps)) (.tok i :: ps) := by
  unfold CStats.countToken getR at h1
  cases ht : ts.tokens[i]? with
  | none => rw [ht] at h1; cases h1
  | some t =>
    rw [ht, R.ok_bind] at h1
    have h1 := Except.ok.inj h1
    subst h1
    have hlit : ∀ n, (match t with | .char _ => n + 1 | _ => n) = n + (if isLiteral ts (.tok i) then 1 else 0) := by
      intro n
      have : isLiteral ts (.tok i) = match some t with
          | some (.char _) => true
          | _ => false := by rw [← ht]; rfl
      rw [this]
      cases t <;> rfl
    have htot : st.total + 1 = pcost ts (.tok i :: ps) := by
      rw [h.total]; unfold pcost; rw [List.map_cons, List.sum_cons]; simp only [price]; omega
    have hl : (match t with | .char _ => st.literals + 1 | _ => st.literals) =
        (Piece.tok i :: ps).countP (isLiteral ts) := by
      rw [hlit, h.literals, List.countP_cons]
    cases ps with
    | nil => exact ⟨htot, hl, h.pairs⟩
    | cons p ps =>
      cases p with
      | lit c => exact ⟨htot, hl, h.pairs⟩
      | tok j =>
        refine ⟨htot, hl, ?_⟩
        intro a b
        show (if a = i % 65536 ∧ b = j % 65536 then st.pairs a b + 1 else st.pairs a b) =
          ((i % 65536, j % 65536) :: pairsOf (.tok j :: ps)).count (a, b)
        rw [List.count_cons, h.pairs a b]
        by_cases e : a = i % 65536 ∧ b = j % 65536
        · rw [if_pos e]
          obtain ⟨rfl, rfl⟩ := e
          simp
        · rw [if_neg e, if_neg]
          · rfl
          · intro e'
            rw [beq_iff_eq] at e'
            injection e' with e1 e2
            exact e ⟨e1.symm, e2.symm⟩

theorem tallied_lit {ts : CSet} {st : CStats} {ps : List Piece} {c : Char} (h : Tallied ts st ps) :
    Tallied ts (CStats.countLiteral ts st c) (.lit c :: ps) := by
  refine ⟨?_, ?_, h.pairs⟩
  · show st.total + ts.charCost c = _
    rw [h.total]; unfold pcost; rw [List.map_cons, List.sum_cons]; simp only [price]; omega
  · show st.literals + 1 = _
    rw [h.literals, List.countP_cons]
    rfl

theorem says_bytesLen {ts : CSet} {i : Nat} {s : Text} (h : Says ts (.tok i) s) :
    ∃ t, ts.tokens[i]? = some t ∧ t.bytesLen = .ok (utf8Encode s).length := by
  cases h with
  | @tok _ t _ hi hs =>
    refine ⟨t, hi, ?_⟩
    cases t with
    | ext n => cases hs
    | char c =>
      injection hs with hs
      subst hs
      rw [utf8Encode_singleton]
      rfl
    | str x =>
      injection hs with hs
      subst hs
      rfl

theorem traceback_spec {ts : CSet} {b : Bytes} {states : List St} (hinv : Inv ts b states) (q : Nat) :
    ∀ (fuel : Nat) (s : St) (x : Text) (ps : List Piece) (st : CStats), q ≤ fuel → states[q]? = some s →
      Good ts b states q s x → Tallied ts st ps →
      ∃ st' qs, traceback ts states fuel q (firstTok ps) st = .ok st' ∧ Spells ts qs x ∧ pcost ts qs = s.cost ∧
        Tallied ts st' (qs ++ ps) := by
  induction q using Nat.strongRecOn with
  | _ q ih =>
    intro fuel s x ps st hfuel hs hg ht
    cases hg.last with
    | start hc htok => exact ⟨st, [], by cases fuel <;> rfl, .nil, by rw [hc]; rfl, ht⟩
    | @step _ _ prev x0 t p hprev hq hne hp hpick hv hcost =>
      have hlen := encode_pos hne
      rw [utf8Encode_append, List.length_append] at hq
      obtain ⟨pos, rfl⟩ : ∃ pos, q = pos + 1 := ⟨q - 1, by omega⟩
      obtain ⟨fuel, rfl⟩ : ∃ f, fuel = f + 1 := ⟨fuel - 1, by omega⟩
      have hgp : Good ts b states (utf8Encode x0).length prev x0 := by
        rcases hinv _ _ hprev with ⟨h1, _⟩ | ⟨_, x', h2⟩
        · exact absurd h1 hv
        · have : x' = x0 := by
            apply utf8Encode_inj
            rw [← h2.text]
            have h3 := congrArg (List.take (utf8Encode x0).length) hg.text
            rw [utf8Encode_append, List.take_append_of_le_length (Nat.le_refl _), List.take_take,
              Nat.min_eq_left (by omega), List.take_length] at h3
            exact h3
          subst this
          exact h2
      have hsub : subR (pos + 1) (utf8Encode t).length = .ok (utf8Encode x0).length := by
        unfold subR
        rw [if_pos (by omega)]
        congr 1
        omega
      have hget : getR states (pos + 1) = .ok s := by unfold getR; rw [hs]
      unfold traceback
      rw [hget, R.ok_bind]
      cases s with
      | mk sc stok =>
      cases hpick with
      | tok i =>
        obtain ⟨tk, htk, hbl⟩ := says_bytesLen hp
        have hgt : getR ts.tokens i = .ok tk := by unfold getR; rw [htk]
        have hct : ∃ st1, CStats.countToken ts st i = .ok st1 := by
          unfold CStats.countToken
          rw [hgt, R.ok_bind]
          exact ⟨_, rfl⟩
        obtain ⟨st1, hst1⟩ := hct
        obtain ⟨st', qs, h1, h2, h3, h4⟩ := ih (utf8Encode x0).length (by omega) fuel prev x0 (.tok i :: ps)
          (st1.countPair i (firstTok ps)) (by omega) hprev hgp (tallied_tok ht hst1)
        refine ⟨st', qs ++ [.tok i], ?_, spells_snoc h2 hp, ?_, by rw [List.append_assoc]; exact h4⟩
        · show (do
            let st1 ← CStats.countToken ts st i
            let t ← getR ts.tokens i
            let n ← t.bytesLen
            let pos' ← subR (pos + 1) n
            traceback ts states fuel pos' (some (i % 65536)) (st1.countPair i (firstTok ps))) = _
          rw [hst1, R.ok_bind, hgt, R.ok_bind, hbl, R.ok_bind, hsub, R.ok_bind]
          exact h1
        · rw [pcost_snoc, h3]; exact hcost.symm
      | lit c =>
        have ht1 : t = [c] := by cases hp; rfl
        subst ht1
        obtain ⟨st', qs, h1, h2, h3, h4⟩ := ih (utf8Encode x0).length (by omega) fuel prev x0 (.lit c :: ps)
          (CStats.countLiteral ts st c) (by omega) hprev hgp (tallied_lit ht)
        refine ⟨st', qs ++ [.lit c], ?_, spells_snoc h2 hp, ?_, by rw [List.append_assoc]; exact h4⟩
        · show (do
            let pos' ← subR (pos + 1) (String.utf8EncodeChar c).length
            traceback ts states fuel pos' none (CStats.countLiteral ts st c)) = _
          rw [← utf8Encode_singleton, hsub, R.ok_bind]
          exact h1
        · rw [pcost_snoc, h3]; exact hcost.symm

theorem slice_spec {ts : CSet} (hok : SetOk ts) (b : Bytes) :
    (∃ st ps cs, processSlice ts b = .ok st ∧ b = utf8Encode cs ∧ Spells ts ps cs ∧
      (∀ qs, Spells ts qs cs → pcost ts ps ≤ pcost ts qs) ∧ Tallied ts st ps) ∨
    (processSlice ts b = .error .assertFailed ∧ validUtf8 b = false) := by
  unfold processSlice
  rcases positions_spec (ts := ts) (b := b) hok b.length [{ cost := 0, token := .start }] (inv_start ts b)
    (by simp) (by simp only [List.length_singleton]; omega) with ⟨all, h1, h2, h3⟩ | ⟨h1, h2⟩
  · refine .inl ?_
    rw [List.length_singleton] at h1
    rw [h1, R.ok_bind]
    obtain ⟨s, hs⟩ : ∃ s, all[b.length]? = some s := ⟨_, List.getElem?_eq_getElem (by omega)⟩
    rcases h2 _ _ hs with ⟨_, h0, hin⟩ | ⟨hv, x, hg⟩
    · obtain ⟨c, hc, _⟩ := inside_iff.1 hin
      rw [List.getElem?_eq_none (Nat.le_refl b.length)] at hc
      cases hc
    · obtain ⟨st', qs, h4, h5, h6, h7⟩ := traceback_spec h2 b.length b.length s x [] CStats.empty (Nat.le_refl _)
        hs hg ⟨rfl, rfl, fun _ _ => rfl⟩
      have htx := hg.text
      rw [List.take_length] at htx
      rw [List.append_nil] at h7
      exact ⟨st', qs, x, h4, htx, h5, fun qs' h => by rw [h6]; exact hg.least qs' h, h7⟩
  · refine .inr ⟨?_, h2⟩
    rw [List.length_singleton] at h1
    rw [h1]
    rfl

theorem pairsOf_eq {ts : CSet} {ps : List Piece} {x : Text} (h : Spells ts ps x) (hl : ts.tokens.length ≤ 65536) :
    pairsOf ps = neighbours ps := by
  induction h with
  | nil => rfl
  | @cons p ps s x hp h ih =>
    have hlt : ∀ i s, Says ts (.tok i) s → i % 65536 = i := by
      intro i s hs
      cases hs with
      | tok hi _ =>
        have := (List.getElem?_eq_some_iff.1 hi).1
        exact Nat.mod_eq_of_lt (by omega)
    cases p with
    | lit c => exact ih
    | tok i =>
      cases ps with
      | nil => rfl
      | cons q ps =>
        cases q with
        | lit c => exact ih
        | tok j =>
          cases h with
          | cons hq _ =>
            show (i % 65536, j % 65536) :: pairsOf (.tok j :: ps) = (i, j) :: neighbours (.tok j :: ps)
            rw [hlt i _ hp, hlt j _ hq, ih]

end Chars
end Tokens
