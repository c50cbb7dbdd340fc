import Verif.Spec.Family
import Verif.Proofs.Examples

/-! The families: losslessness, preservation. -/

set_option linter.unusedSimpArgs false
set_option linter.unusedVariables false

namespace Tokens
open Spec TokenSet

theorem tokensOut_cons (ts : TokenSet) (p : Piece) (ps : List Piece) :
    tokensOut ts (p :: ps) = (p.output ts).map (ts.tokens[·]?) ++ tokensOut ts ps := by
  simp [tokensOut, output]

/-- Lossless from unique decodability. -/
theorem lossless_of_unique {ts : TokenSet}
    (h : ∀ ps qs s t, Spells ts ps s → Spells ts qs t → tokensOut ts ps = tokensOut ts qs → s = t) :
    Lossless ts := by
  classical
  refine ⟨fun l => if hx : ∃ ps t, Spells ts ps t ∧ tokensOut ts ps = l then hx.choose_spec.choose else [],
    ?_⟩
  intro ps text hs
  have hx : ∃ qs t, Spells ts qs t ∧ tokensOut ts qs = tokensOut ts ps := ⟨ps, text, hs, rfl⟩
  simp only [dif_pos hx]
  exact h _ _ _ _ hx.choose_spec.choose_spec.1 hs hx.choose_spec.choose_spec.2

/-- What is written for a sequence piece is an entry of `meaning`. -/
theorem seq_meaning {ts : TokenSet} {j : Nat} {s : Bytes} (h : Piece.string ts (.seq j) = some s) :
    (s, (Piece.output ts (.seq j)).map (ts.tokens[·]?)) ∈ meaning ts := by
  rw [Piece.string_seq] at h
  obtain ⟨q, h1, rfl⟩ := h
  refine List.mem_map.2 ⟨q, List.mem_iff_getElem?.2 ⟨j, h1⟩, ?_⟩
  simp [listed, Piece.output, h1]

/-- An entry of the written tokens is an ext token. -/
def IsExt (o : Option Token) : Prop := ∃ d, o = some (Token.ext d)

theorem horner_inj_aux (n : Nat) : ∀ (a b : List Nat) (x y : Nat), a.length = b.length →
    (∀ d ∈ a, d < n) → (∀ d ∈ b, d < n) →
    a.foldl (fun acc d => acc * n + d) x = b.foldl (fun acc d => acc * n + d) y → a = b ∧ x = y := by
  intro a
  induction a with
  | nil => intro b x y hl _ _ h; cases b with
    | nil => exact ⟨rfl, h⟩
    | cons c b => simp at hl
  | cons c a ih =>
    intro b x y hl ha hb h
    cases b with
    | nil => simp at hl
    | cons d b =>
      simp only [List.foldl_cons] at h
      obtain ⟨h1, h2⟩ := ih b _ _ (by simpa using hl) (fun e he => ha e (by simp [he]))
        (fun e he => hb e (by simp [he])) h
      have hc := ha c (by simp)
      have hd := hb d (by simp)
      have e1 : x = y := by
        have hx : (x * n + c) / n = x := by
          rw [Nat.mul_comm, Nat.mul_add_div (by omega), Nat.div_eq_of_lt hc, Nat.add_zero]
        have hy : (y * n + d) / n = y := by
          rw [Nat.mul_comm, Nat.mul_add_div (by omega), Nat.div_eq_of_lt hd, Nat.add_zero]
        rw [← hx, h2, hy]
      subst e1
      exact ⟨by rw [h1]; congr 1; omega, rfl⟩

theorem spells_nil_inv {ts : TokenSet} {t : Bytes} (h : Spells ts [] t) : t = [] := by
  cases h; rfl

theorem spells_cons_inv {ts : TokenSet} {p : Piece} {ps : List Piece} {t : Bytes}
    (h : Spells ts (p :: ps) t) : ∃ s u, p.string ts = some s ∧ Spells ts ps u ∧ t = s ++ u := by
  cases h with
  | cons h1 h2 => exact ⟨_, _, h1, h2, rfl⟩

theorem tok_output {ts : TokenSet} {i : Nat} {s : Bytes} (h : Piece.string ts (.tok i) = some s) :
    (Piece.output ts (.tok i)).map (ts.tokens[·]?) = [some (.str s)] := by
  rw [Piece.string_tok] at h
  simp [Piece.output, h]

theorem bits_unique {ts : TokenSet} (hf : BitsFamily ts) (ps : List Piece) :
    ∀ qs s t, Spells ts ps s → Spells ts qs t → tokensOut ts ps = tokensOut ts qs → s = t := by
  obtain ⟨len, hpar, hcodes⟩ := hf.params
  have hlen : 0 < len := by
    unfold bitsParams at hpar
    split at hpar <;> simp at hpar <;> omega
  -- the first thing written for a piece
  have first : ∀ (p : Piece) (s : Bytes), p.string ts = some s →
      ((p.output ts).map (ts.tokens[·]?) = [some (Token.str s)] ∨
       ∃ (b : UInt8) (ds : List UInt8), s = [b] ∧
        (p.output ts).map (ts.tokens[·]?) = ds.map (fun d => some (Token.ext d)) ∧ ds.length = len ∧
        (∀ d ∈ ds, d.toNat < ts.nExt) ∧ horner ts.nExt (ds.map UInt8.toNat) = b.toNat) := by
    intro p s hp
    cases p with
    | tok i => exact .inl (tok_output hp)
    | seq j =>
      right
      obtain ⟨b, ds, he, h1, h2, h3⟩ := hcodes _ (seq_meaning hp)
      simp only [Prod.mk.injEq] at he
      exact ⟨b, ds, he.1, he.2, h1, h2, h3⟩
  have nonnil : ∀ (p : Piece) (s : Bytes), p.string ts = some s → (p.output ts).map (ts.tokens[·]?) ≠ [] := by
    intro p s hp
    rcases first p s hp with h | ⟨b, ds, _, h, hl, _⟩
    · rw [h]; simp
    · rw [h]
      intro hc
      simp at hc
      rw [hc] at hl
      simp at hl
      omega
  induction ps with
  | nil =>
    intro qs s t h1 h2 h
    rw [spells_nil_inv h1]
    cases qs with
    | nil => rw [spells_nil_inv h2]
    | cons q qs =>
      obtain ⟨s', u, hq, _, _⟩ := spells_cons_inv h2
      rw [tokensOut_cons] at h
      have := nonnil q s' hq
      simp [tokensOut, output] at h
      exact absurd (by simpa using h.1) this
  | cons p ps ih =>
    intro qs s t h1 h2 h
    obtain ⟨x, u, hp, hps, rfl⟩ := spells_cons_inv h1
    cases qs with
    | nil =>
      rw [tokensOut_cons] at h
      have := nonnil p x hp
      simp [tokensOut, output] at h
      exact absurd (by simpa using h.1) this
    | cons q qs =>
      obtain ⟨y, v, hq, hqs, rfl⟩ := spells_cons_inv h2
      rw [tokensOut_cons, tokensOut_cons] at h
      rcases first p x hp with hp' | ⟨b, ds, rfl, hp', hl, hd, hh⟩ <;>
        rcases first q y hq with hq' | ⟨c, es, rfl, hq', hl', hd', hh'⟩ <;> rw [hp', hq'] at h
      · simp only [List.cons_append, List.nil_append, List.cons.injEq, Option.some.injEq,
          Token.str.injEq] at h
        rw [h.1, ih qs u v hps hqs h.2]
      · cases es with
        | nil => simp at hl'; omega
        | cons e es => simp at h
      · cases ds with
        | nil => simp at hl; omega
        | cons e es => simp at h
      · obtain ⟨e1, e2⟩ := List.append_inj h (by simp [hl, hl'])
        have e3 : ds = es := by
          refine (List.map_inj_right (f := fun d => some (Token.ext d)) ?_).1 e1
          intro a b hab
          simpa using hab
        subst e3
        rw [hh] at hh'
        rw [UInt8.toNat_inj.1 hh', ih qs u v hps hqs e2]

theorem bytes_unique {ts : TokenSet} (hns : ts.sequences = []) (ps : List Piece) :
    ∀ qs s t, Spells ts ps s → Spells ts qs t → tokensOut ts ps = tokensOut ts qs → s = t := by
  have first : ∀ (p : Piece) (s : Bytes), p.string ts = some s →
      (p.output ts).map (ts.tokens[·]?) = [some (.str s)] := by
    intro p s hp
    cases p with
    | tok i => exact tok_output hp
    | seq j =>
      rw [Piece.string_seq, hns] at hp
      simp at hp
  induction ps with
  | nil =>
    intro qs s t h1 h2 h
    rw [spells_nil_inv h1]
    cases qs with
    | nil => rw [spells_nil_inv h2]
    | cons q qs =>
      obtain ⟨s', u, hq, _, _⟩ := spells_cons_inv h2
      rw [tokensOut_cons, first q s' hq] at h
      simp [tokensOut, output] at h
  | cons p ps ih =>
    intro qs s t h1 h2 h
    obtain ⟨x, u, hp, hps, rfl⟩ := spells_cons_inv h1
    rw [tokensOut_cons, first p x hp] at h
    cases qs with
    | nil => simp [tokensOut, output] at h
    | cons q qs =>
      obtain ⟨y, v, hq, hqs, rfl⟩ := spells_cons_inv h2
      rw [tokensOut_cons, first q y hq] at h
      simp only [List.cons_append, List.nil_append, List.cons.injEq, Option.some.injEq,
          Token.str.injEq] at h
      rw [h.1, ih qs u v hps hqs h.2]

/-- Two runs of ext tokens that end where something else starts are equal. -/
theorem ext_run_inj (a b : List UInt8) (x y : List (Option Token))
    (hx : ∀ o ∈ x.head?, ¬ IsExt o) (hy : ∀ o ∈ y.head?, ¬ IsExt o)
    (h : a.map (fun d => some (Token.ext d)) ++ x = b.map (fun d => some (Token.ext d)) ++ y) :
    a = b ∧ x = y := by
  induction a generalizing b with
  | nil =>
    cases b with
    | nil => exact ⟨rfl, h⟩
    | cons d b =>
      simp at h
      exact absurd ⟨d, rfl⟩ (hx _ (by rw [h]; rfl))
  | cons d a ih =>
    cases b with
    | nil =>
      simp at h
      exact absurd ⟨d, rfl⟩ (hy _ (by rw [← h]; rfl))
    | cons e b =>
      simp only [List.map_cons, List.cons_append, List.cons.injEq, Option.some.injEq,
        Token.ext.injEq] at h
      obtain ⟨h1, h2⟩ := ih b h.2
      exact ⟨by rw [h.1, h1], h2⟩

theorem huff_unique {ts : TokenSet} (hf : HuffFamily ts) (ps : List Piece) :
    ∀ qs s t, Spells ts ps s → Spells ts qs t → tokensOut ts ps = tokensOut ts qs → s = t := by
  -- what is written for a piece: a string token, then ext tokens; it determines the string
  have first : ∀ (p : Piece) (s : Bytes), p.string ts = some s → ∃ (x : Bytes) (ds : List UInt8),
      (p.output ts).map (ts.tokens[·]?) = some (.str x) :: ds.map (fun d => some (Token.ext d)) ∧
      (ds = [] → s = x) ∧
      (ds ≠ [] → (s, some (.str x) :: ds.map (fun d => some (Token.ext d))) ∈ meaning ts) := by
    intro p s hp
    cases p with
    | tok i => exact ⟨s, [], by rw [tok_output hp]; rfl, fun _ => rfl, fun h => absurd rfl h⟩
    | seq j =>
      have hm := seq_meaning hp
      obtain ⟨b, c, ds, hne, he⟩ := hf.codes _ hm
      simp only [Prod.mk.injEq] at he
      refine ⟨[c], ds, he.2, fun h => absurd h hne, fun _ => ?_⟩
      rw [← he.2]
      exact hm
  have det : ∀ l s t, (s, l) ∈ meaning ts → (t, l) ∈ meaning ts → s = t := by
    intro l s t h1 h2
    have hnd := hf.separate
    obtain ⟨i, hi, e1⟩ := List.mem_iff_getElem.1 h1
    obtain ⟨j, hj, e2⟩ := List.mem_iff_getElem.1 h2
    have : i = j := by
      have hi' : i < ((meaning ts).map Prod.snd).length := by simpa using hi
      have hj' : j < ((meaning ts).map Prod.snd).length := by simpa using hj
      refine (List.getElem_inj hnd (h₀ := hi') (h₁ := hj')).1 ?_
      simp [e1, e2]
    subst this
    rw [e1] at e2
    simpa using e2
  have head : ∀ ps t, Spells ts ps t → ∀ o ∈ (tokensOut ts ps).head?, ¬ IsExt o := by
    intro ps t h o ho
    cases ps with
    | nil => simp [tokensOut, output] at ho
    | cons p ps =>
      obtain ⟨x, u, hp, _, _⟩ := spells_cons_inv h
      obtain ⟨y, ds, h1, _, _⟩ := first p x hp
      rw [tokensOut_cons, h1] at ho
      simp at ho
      subst ho
      rintro ⟨d, hd⟩
      simp at hd
  induction ps with
  | nil =>
    intro qs s t h1 h2 h
    rw [spells_nil_inv h1]
    cases qs with
    | nil => rw [spells_nil_inv h2]
    | cons q qs =>
      obtain ⟨s', u, hq, _, _⟩ := spells_cons_inv h2
      obtain ⟨x, ds, e, _, _⟩ := first q s' hq
      rw [tokensOut_cons, e] at h
      simp [tokensOut, output] at h
  | cons p ps ih =>
    intro qs s t h1 h2 h
    obtain ⟨x, u, hp, hps, rfl⟩ := spells_cons_inv h1
    obtain ⟨x', ds, e1, c1, d1⟩ := first p x hp
    rw [tokensOut_cons, e1] at h
    cases qs with
    | nil => simp [tokensOut, output] at h
    | cons q qs =>
      obtain ⟨y, v, hq, hqs, rfl⟩ := spells_cons_inv h2
      obtain ⟨y', es, e2, c2, d2⟩ := first q y hq
      rw [tokensOut_cons, e2] at h
      simp only [List.cons_append, List.cons.injEq, Option.some.injEq, Token.str.injEq] at h
      obtain ⟨h3, h4⟩ := ext_run_inj ds es _ _ (head ps u hps) (head qs v hqs) h.2
      have hxy : x = y := by
        obtain ⟨h5, _⟩ := h
        subst h3
        subst h5
        by_cases hd : ds = []
        · rw [c1 hd, c2 hd]
        · exact det _ _ _ (d1 hd) (d2 hd)
      rw [hxy, ih qs u v hps hqs h4]

theorem family_lossless {ts : TokenSet} (h : Family ts) : Lossless ts := by
  apply lossless_of_unique
  rcases h with h | h | h
  · exact fun ps => bits_unique h ps
  · exact fun ps => bytes_unique h.noSeq ps
  · exact fun ps => huff_unique h ps

/-- A usable set with the header of a family set and a part of its sequences is in the family. -/
structure Shrinks (b a : TokenSet) : Prop where
  nExt : b.nExt = a.nExt
  tokenType : b.tokenType = a.tokenType
  part : ∃ l, l.Sublist (meaning a) ∧ (meaning b).Perm l

theorem Shrinks.mem {b a : TokenSet} (h : Shrinks b a) {e} (he : e ∈ meaning b) : e ∈ meaning a := by
  obtain ⟨l, h1, h2⟩ := h.part
  exact h1.mem (h2.mem_iff.1 he)

theorem bits_of {b a : TokenSet} (h : BitsFamily a) (hu : Usable b) (hs : Shrinks b a) :
    BitsFamily b := by
  obtain ⟨len, h1, h2⟩ := h.params
  refine ⟨hu, len, by rw [hs.nExt, hs.tokenType]; exact h1, ?_⟩
  intro e he
  rw [hs.nExt]
  exact h2 e (hs.mem he)

theorem bytes_of {b a : TokenSet} (h : BytesFamily a) (hu : Usable b) (hs : Shrinks b a) :
    BytesFamily b := by
  refine ⟨hu, by rw [hs.tokenType]; exact h.type, by rw [hs.nExt]; exact h.noExt, ?_⟩
  have : meaning b = [] := by
    rw [List.eq_nil_iff_forall_not_mem]
    intro e he
    have := hs.mem he
    simp [meaning, h.noSeq] at this
  simpa [meaning] using this

theorem huff_of {b a : TokenSet} (h : HuffFamily a) (hu : Usable b) (hs : Shrinks b a) :
    HuffFamily b := by
  refine ⟨hu, by rw [hs.tokenType]; exact h.type, fun e he => h.codes e (hs.mem he), ?_,
    fun e he => h.short e (hs.mem he)⟩
  obtain ⟨l, h1, h2⟩ := hs.part
  exact (h2.map Prod.snd).nodup_iff.2 ((h1.map Prod.snd).nodup h.separate)

theorem usable_sameSet {b a : TokenSet} (h : Usable a) (hs : SameSet b a) (hr : SeqsInRange b) :
    Usable b where
  accepted := tokenizable_perm (pieceStrings_sameSet hs).symm h.accepted
  inRange := hr
  distinct := hs.tokens.nodup_iff.2 h.distinct
  few := by rw [hs.header.nExt]; exact h.few
  exts := by intro n; rw [hs.header.nExt, hs.tokens.mem_iff]; exact h.exts n

theorem shrinks_sameSet {b a : TokenSet} (hs : SameSet b a) : Shrinks b a :=
  ⟨hs.header.nExt, hs.header.tokenType, _, List.Sublist.refl _, hs.sequences⟩

theorem usable_remove {ts ts' : TokenSet} {idx : Nat} {s : Bytes} (hu : Usable ts)
    (htok : ts.tokens[idx]? = some (.str s)) (hlong : 1 < s.length)
    (h : ts.removeToken idx = .ok ts') : Usable ts' := by
  obtain ⟨hh, hp, hm, hr, _⟩ := removeToken_spec hu.inRange h
  refine ⟨tokenizable_remove hu.inRange hu.accepted htok hlong h, hr, ?_, by rw [hh.nExt]; exact hu.few, ?_⟩
  · exact hp.nodup_iff.2 ((List.eraseIdx_sublist _ _).nodup hu.distinct)
  · intro n
    rw [hh.nExt, hp.mem_iff, ← hu.exts n]
    constructor
    · exact fun h => (List.eraseIdx_sublist _ _).mem h
    · intro hn
      obtain ⟨i, hi, e⟩ := List.mem_iff_getElem.1 hn
      refine List.mem_eraseIdx_iff_getElem.2 ⟨i, hi, ?_, e⟩
      rintro rfl
      rw [List.getElem?_eq_getElem hi, e] at htok
      simp at htok

theorem shrinks_remove {ts ts' : TokenSet} {idx : Nat} (hr : SeqsInRange ts)
    (h : ts.removeToken idx = .ok ts') : Shrinks ts' ts := by
  obtain ⟨hh, _, hm, _, _⟩ := removeToken_spec hr h
  exact ⟨hh.nExt, hh.tokenType, _, List.Sublist.refl _, by rw [hm]⟩

theorem usable_add {ts ts' : TokenSet} {s : Bytes} {i : Nat} (hu : Usable ts)
    (hnew : Token.str s ∉ ts.tokens) (h : ts.addToken s = .ok (ts', i)) : Usable ts' := by
  have h1 := tokenizable_addToken hu.accepted hnew h
  have h2 := seqsInRange_addToken hu.inRange h
  by_cases hs : s = []
  · subst hs; simp [addToken_nil] at h
  rw [addToken_eq ts s hs] at h
  simp only [Except.ok.injEq, Prod.mk.injEq] at h
  obtain ⟨rfl, _⟩ := h
  refine ⟨h1, h2, ?_, hu.few, ?_⟩
  · rw [List.nodup_append]
    refine ⟨hu.distinct, by simp, ?_⟩
    intro a ha b hb
    simp at hb
    subst hb
    rintro rfl
    exact hnew ha
  · intro n
    simp only [List.mem_append, List.mem_singleton, reduceCtorEq, or_false]
    exact hu.exts n

theorem shrinks_add {ts ts' : TokenSet} {s : Bytes} {i : Nat} (hr : SeqsInRange ts)
    (h : ts.addToken s = .ok (ts', i)) : Shrinks ts' ts := by
  by_cases hs : s = []
  · subst hs; simp [addToken_nil] at h
  rw [addToken_eq ts s hs] at h
  simp only [Except.ok.injEq, Prod.mk.injEq] at h
  obtain ⟨rfl, _⟩ := h
  refine ⟨rfl, rfl, (ts.sequences.filter (fun q => q.string != s)).map
    (fun q => (q.string, listed ts q)), List.Sublist.map _ List.filter_sublist, ?_⟩
  unfold meaning
  rw [List.map_congr_left]
  intro q hq
  simp only [listed, Prod.mk.injEq, true_and]
  apply List.map_congr_left
  intro i hi
  exact List.getElem?_append_left (hr q (List.mem_filter.1 hq).1 i hi)

theorem Family.usable {ts : TokenSet} (h : Family ts) : Usable ts := by
  rcases h with h | h | h <;> exact h.toUsable

theorem family_of {b a : TokenSet} (h : Family a) (hu : Usable b) (hs : Shrinks b a) : Family b := by
  rcases h with h | h | h
  · exact .inl (bits_of h hu hs)
  · exact .inr (.inl (bytes_of h hu hs))
  · exact .inr (.inr (huff_of h hu hs))

/-! ### The starting sets -/

theorem exts_extTokens {n : Nat} (hn : n < 256) (d : UInt8) :
    Token.ext d ∈ extTokens n ↔ d.toNat < n := by
  unfold extTokens
  simp only [List.mem_map, List.mem_range, Token.ext.injEq]
  constructor
  · rintro ⟨i, hi, rfl⟩
    rw [UInt8.toNat_ofNat_of_lt' (show i < 256 by omega)]
    exact hi
  · intro h
    exact ⟨d.toNat, h, by simp⟩

theorem bitsSet_usable {n : Nat} (hn : n < 256) (ty : TokenType) {code : Nat → List Nat} (p : Processing)
    (split : Bool) (h : ∀ c < 256, ∀ d ∈ code c, d < n) : Usable (bitsSet n ty code p split) where
  accepted := bitsSet_tokenizable ..
  inRange := bitsSet_inRange _ _ _ h
  distinct := by
    show (extTokens n).Nodup
    unfold extTokens List.Nodup
    rw [List.pairwise_map]
    refine List.Pairwise.imp_of_mem ?_ (List.nodup_range (n := n))
    intro a b ha hb hne hab
    rw [List.mem_range] at ha hb
    have h0 : UInt8.ofNat a = UInt8.ofNat b := by simpa using hab
    have := congrArg UInt8.toNat h0
    rw [UInt8.toNat_ofNat_of_lt' (show a < 256 by omega), UInt8.toNat_ofNat_of_lt' (show b < 256 by omega)] at this
    exact hne this
  few := hn
  exts := exts_extTokens hn

theorem bitsSet_meaning {n : Nat} (hn : n < 256) (ty : TokenType) {code : Nat → List Nat} (p : Processing)
    (split : Bool) (h : ∀ c < 256, ∀ d ∈ code c, d < n) :
    meaning (bitsSet n ty code p split) = (List.range 256).map (fun c =>
      ([UInt8.ofNat c], ((code c).map UInt8.ofNat).map (fun d => some (Token.ext d)))) := by
  have hb : (bitsSet n ty code p split).sequences = (List.range 256).map
    (fun c => { string := [UInt8.ofNat c], tokens := code c }) := rfl
  unfold meaning
  rw [hb, List.map_map]
  apply List.map_congr_left
  intro c hc
  simp only [Function.comp_apply, listed, Prod.mk.injEq, true_and, List.map_map]
  apply List.map_congr_left
  intro d hd
  have := h c (List.mem_range.1 hc) d hd
  show (extTokens n)[d]? = _
  unfold extTokens
  rw [List.getElem?_map, List.getElem?_range this]
  rfl

theorem bitsSet_family {n len : Nat} (hn : n < 256) (ty : TokenType) {code : Nat → List Nat}
    (p : Processing) (split : Bool) (hp : bitsParams ty = some (n, len))
    (h : ∀ c < 256, (code c).length = len ∧ (∀ d ∈ code c, d < n) ∧ horner n (code c) = c) :
    BitsFamily (bitsSet n ty code p split) := by
  refine ⟨bitsSet_usable hn ty p split (fun c hc => (h c hc).2.1), len, hp, ?_⟩
  rw [bitsSet_meaning hn ty p split (fun c hc => (h c hc).2.1)]
  intro e he
  obtain ⟨c, hc, rfl⟩ := List.mem_map.1 he
  have hc' := List.mem_range.1 hc
  obtain ⟨h1, h2, h3⟩ := h c hc'
  have e1 : ((code c).map UInt8.ofNat).map UInt8.toNat = code c := by
    rw [List.map_map]
    conv_rhs => rw [← List.map_id (code c)]
    apply List.map_congr_left
    intro d hd
    have := h2 d hd
    simp only [Function.comp_apply, id_eq]
    exact UInt8.toNat_ofNat_of_lt' (show d < 256 by omega)
  refine ⟨UInt8.ofNat c, (code c).map UInt8.ofNat, rfl, by simpa using h1, ?_, ?_⟩
  · intro d hd
    obtain ⟨x, hx, rfl⟩ := List.mem_map.1 hd
    have := h2 x hx
    rw [UInt8.toNat_ofNat_of_lt' (show x < 256 by omega)]
    exact this
  · rw [UInt8.toNat_ofNat_of_lt' (show c < 256 by omega)]
    show horner n _ = c
    rw [e1]
    exact h3

theorem bytesSet_family (p : Processing) : BytesFamily (bytesSet p) where
  accepted := bytesSet_tokenizable p
  inRange := bytesSet_inRange p
  distinct := by
    show (byteStrings.map Token.str).Nodup
    rw [List.Nodup, List.pairwise_map]
    exact byteStrings_nodup.imp (fun hne hab => hne (by simpa using hab))
  few := (by decide : (0 : Nat) < 256)
  exts := by
    intro n
    show Token.ext n ∈ byteStrings.map Token.str ↔ n.toNat < 0
    simp
  type := rfl
  noExt := rfl
  noSeq := rfl

end Tokens
