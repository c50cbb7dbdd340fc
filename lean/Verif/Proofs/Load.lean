import Verif.Props.Json
import Verif.Proofs.Regular
import Verif.Spec.Loaded

/-! What `from_json` returns, whatever it is given. -/

set_option linter.unusedSimpArgs false
set_option linter.unusedVariables false

namespace Tokens
open Spec TokenSet

theorem ok_bind_inv {α β : Type} {x : R α} {f : α → R β} {b : β} (h : (x >>= f) = .ok b) :
    ∃ a, x = .ok a ∧ f a = .ok b := by
  cases x with
  | error e => cases h
  | ok a => exact ⟨a, rfl, h⟩

theorem unwrapR_inv {α : Type} {x : Option α} {a : α} (h : unwrapR x = .ok a) : x = some a := by
  cases x with
  | none => cases h
  | some b => exact congrArg some (Except.ok.inj h)

theorem rassert_inv {b : Bool} {u : Unit} (h : rassert b = .ok u) : b = true := by
  cases b with
  | true => rfl
  | false => cases h

theorem asU8_mod (n : Int) : ((Json.asU8 n).toNat : Int) = n % 256 := by
  unfold Json.asU8
  rw [UInt8.toNat_ofNat']
  omega

theorem asI64_iff {j : Json} {n : Int} : j.asI64 = some n ↔ j = .num n ∧ -2 ^ 63 ≤ n ∧ n < 2 ^ 63 := by
  cases j with
  | num k =>
    simp only [Json.asI64]
    split
    · rename_i hk
      constructor
      · intro h
        have := Option.some.inj h
        subst this
        exact ⟨rfl, hk⟩
      · rintro ⟨h, _⟩
        exact congrArg some (Json.num.inj h)
    · rename_i hk
      constructor
      · intro h; cases h
      · rintro ⟨h, h'⟩
        rw [Json.num.inj h] at hk
        exact absurd h' hk
  | _ =>
    constructor
    · intro h; cases h
    · rintro ⟨h, _⟩; cases h

theorem asU64_iff {j : Json} {n : Int} : j.asU64 = some n ↔ j = .num n ∧ 0 ≤ n ∧ n < 2 ^ 64 := by
  cases j with
  | num k =>
    simp only [Json.asU64]
    split
    · rename_i hk
      constructor
      · intro h
        have := Option.some.inj h
        subst this
        exact ⟨rfl, hk⟩
      · rintro ⟨h, _⟩
        exact congrArg some (Json.num.inj h)
    · rename_i hk
      constructor
      · intro h; cases h
      · rintro ⟨h, h'⟩
        rw [Json.num.inj h] at hk
        exact absurd h' hk
  | _ =>
    constructor
    · intro h; cases h
    · rintro ⟨h, _⟩; cases h

theorem parseByteArray_iff {l : List Json} {b : Bytes} :
    parseByteArray l = .ok b ↔ List.Forall₂ ByteNumber l b := by
  constructor
  · intro h
    induction l generalizing b with
    | nil =>
      have := Except.ok.inj h
      subst this
      exact .nil
    | cons j js ih =>
      obtain ⟨n, h1, h⟩ := ok_bind_inv h
      obtain ⟨r, h2, h⟩ := ok_bind_inv h
      have := Except.ok.inj h
      subst this
      refine .cons ?_ (ih h2)
      obtain ⟨e1, e2, e3⟩ := asI64_iff.1 (unwrapR_inv h1)
      exact ⟨_, e1, e2, e3, asU8_mod _⟩
  · intro h
    induction h with
    | nil => rfl
    | @cons a b l₁ l₂ hd tl ih =>
      obtain ⟨n, e1, e2, e3, e4⟩ := hd
      have e : Json.asU8 n = b := UInt8.toNat_inj.1 (by have := asU8_mod n; omega)
      rw [parseByteArray, asI64_iff.2 ⟨e1, e2, e3⟩, unwrapR_some, R.ok_bind, ih, R.ok_bind, e]

theorem parseToken_iff {j : Json} {t : Token} : parseToken j = .ok t ↔ TokenOf j t := by
  constructor
  · intro h
    cases j with
    | str s =>
      have := Except.ok.inj h
      subst this
      exact .str (.str s)
    | arr l =>
      obtain ⟨b, h1, h⟩ := ok_bind_inv h
      have := Except.ok.inj h
      subst this
      exact .str (.arr (parseByteArray_iff.1 h1))
    | num n =>
      obtain ⟨b, h1, h⟩ := ok_bind_inv h
      have := Except.ok.inj h
      subst this
      obtain ⟨e1, e2, e3⟩ := asU64_iff.1 (unwrapR_inv h1)
      have := Json.num.inj e1
      subst this
      obtain ⟨k, rfl⟩ := Int.eq_ofNat_of_zero_le e2
      exact .ext (by omega) (by have := asU8_mod k; omega)
    | float n =>
      obtain ⟨b, h1, h⟩ := ok_bind_inv h
      cases h1
    | null => cases h
    | bool b => cases h
    | obj l => cases h
  · intro h
    cases h with
    | str h =>
      cases h with
      | str s => rfl
      | arr h => rw [parseToken, parseByteArray_iff.2 h, R.ok_bind]
    | ext h hb =>
      rename_i n b
      rw [parseToken, asU64_iff.2 ⟨rfl, by omega, by omega⟩, unwrapR_some, R.ok_bind]
      have e : Json.asU8 (n : Int) = b := UInt8.toNat_inj.1 (by have := asU8_mod n; omega)
      rw [e]

theorem elementText_isNumber {j : Json} {s : Bytes} (h : ElementText j s) : j.isNumber = false := by
  cases h <;> rfl

theorem loadTokens_iff {l : List Json} {ts ts' : TokenSet} : loadTokens ts l = .ok ts' ↔
    ∃ strs : List Bytes, List.Forall₂ ElementText (l.filter (fun j => !j.isNumber)) strs ∧
      (∀ j ∈ l, j.isNumber = true → ∃ n : Nat, n < 2 ^ 64 ∧ j = .num n) ∧
      (∀ s ∈ strs, s ≠ []) ∧ ts' = { ts with
        tokens := ts.tokens ++ strs.map Token.str,
        sequences := ts.sequences.filter (fun q => decide (q.string ∉ strs)) } := by
  induction l generalizing ts with
  | nil =>
    constructor
    · intro h
      have := Except.ok.inj h
      subst this
      refine ⟨[], .nil, by simp, by simp, ?_⟩
      rw [List.filter_eq_self.2 (by simp)]
      simp
    · rintro ⟨strs, h1, _, _, rfl⟩
      cases h1
      rw [List.filter_eq_self.2 (by simp)]
      simp [loadTokens]
  | cons j js ih =>
    constructor
    · intro h
      obtain ⟨t, h1, h⟩ := ok_bind_inv h
      have ht := parseToken_iff.1 h1
      cases ht with
      | str e1 =>
        rename_i s
        obtain ⟨⟨ts1, i⟩, h2, h⟩ := ok_bind_inv h
        obtain ⟨strs, g1, g2, g3, g4⟩ := ih.1 h
        have e2 := elementText_isNumber e1
        have hne : s ≠ [] := by
          rintro rfl
          simp [TokenSet.addToken, rassert, bind, Except.bind] at h2
        rw [addToken_eq ts s hne] at h2
        have := (Prod.mk.inj (Except.ok.inj h2)).1
        subst this
        refine ⟨s :: strs, ?_, ?_, ?_, ?_⟩
        · rw [List.filter_cons_of_pos (by simp [e2])]
          exact .cons e1 g1
        · intro x hx hn
          rcases List.mem_cons.1 hx with rfl | hx
          · rw [e2] at hn; cases hn
          · exact g2 x hx hn
        · intro x hx
          rcases List.mem_cons.1 hx with rfl | hx
          · exact hne
          · exact g3 x hx
        · rw [g4]
          simp only [List.filter_filter, List.map_cons, List.append_assoc, List.singleton_append]
          congr 1
          apply List.filter_congr
          intro q _
          by_cases hq : q.string = s <;> by_cases hq' : q.string ∈ strs <;> simp [hq, hq']
      | ext e1 e2 =>
        obtain ⟨strs, g1, g2, g⟩ := ih.1 h
        refine ⟨strs, ?_, ?_, g⟩
        · rw [List.filter_cons_of_neg (by simp [Json.isNumber])]
          exact g1
        · intro x hx hn
          rcases List.mem_cons.1 hx with rfl | hx
          · exact ⟨_, e1, rfl⟩
          · exact g2 x hx hn
    · rintro ⟨strs, h1, h2, h3, rfl⟩
      by_cases hj : j.isNumber = true
      · obtain ⟨n, hn, rfl⟩ := h2 j (by simp) hj
        rw [List.filter_cons_of_neg (by simp [Json.isNumber])] at h1
        have ht : parseToken (.num n) = .ok (.ext (UInt8.ofNat n)) :=
          parseToken_iff.2 (.ext hn (by rw [UInt8.toNat_ofNat']))
        simp only [loadTokens, ht, R.ok_bind]
        exact ih.2 ⟨strs, h1, fun x hx => h2 x (by simp [hx]), h3, rfl⟩
      · rw [List.filter_cons_of_pos (by simp [hj])] at h1
        cases h1 with
        | cons e1 g1 =>
          rename_i s strs
          have hne : s ≠ [] := h3 s (by simp)
          simp only [loadTokens, parseToken_iff.2 (.str e1), R.ok_bind, addToken_eq ts s hne]
          refine ih.2 ⟨strs, g1, fun x hx => h2 x (by simp [hx]), fun x hx => h3 x (by simp [hx]), ?_⟩
          simp only [List.filter_filter, List.map_cons, List.append_assoc, List.singleton_append]
          congr 1
          apply List.filter_congr
          intro q _
          by_cases hq : q.string = s <;> by_cases hq' : q.string ∈ strs <;> simp [hq, hq']

theorem findIdx_iff {tokens : List Token} {t : Token} {i : Nat} :
    tokens.findIdx? (fun x => x == t) = some i ↔ tokens[i]? = some t ∧ ∀ k < i, tokens[k]? ≠ some t := by
  rw [List.findIdx?_eq_some_iff_getElem]
  constructor
  · rintro ⟨h, h1, h2⟩
    refine ⟨by rw [List.getElem?_eq_getElem h]; exact congrArg some (by simpa using h1), ?_⟩
    intro k hk e
    have := h2 k hk
    rw [List.getElem?_eq_getElem (by omega)] at e
    rw [Option.some.inj e] at this
    simp at this
  · rintro ⟨h1, h2⟩
    obtain ⟨h, e⟩ := List.getElem?_eq_some_iff.1 h1
    refine ⟨h, by simp [e], ?_⟩
    intro k hk
    have := h2 k hk
    rw [List.getElem?_eq_getElem (by omega)] at this
    simpa using this

theorem loadListed_iff {tokens : List Token} {l : List Json} {is : List Nat} :
    loadListed tokens l = .ok is ↔ List.Forall₂ (PlaceOf tokens) l is := by
  constructor
  · intro h
    induction l generalizing is with
    | nil =>
      have := Except.ok.inj h
      subst this
      exact .nil
    | cons j js ih =>
      obtain ⟨t, h1, h⟩ := ok_bind_inv h
      obtain ⟨i, h2, h⟩ := ok_bind_inv h
      obtain ⟨r, h3, h⟩ := ok_bind_inv h
      have := Except.ok.inj h
      subst this
      exact .cons ⟨t, parseToken_iff.1 h1, findIdx_iff.1 (unwrapR_inv h2)⟩ (ih h3)
  · intro h
    induction h with
    | nil => rfl
    | cons hd tl ih =>
      obtain ⟨t, h1, h2⟩ := hd
      rw [loadListed, parseToken_iff.2 h1, R.ok_bind, findIdx_iff.2 h2, unwrapR_some, R.ok_bind, ih, R.ok_bind]

theorem index_asArray_iff {v : Json} {key : String} {l : List Json} :
    (v.index key).asArray = some l ↔ v.get? key = some (.arr l) := by
  have hk : ∀ j : Json, j.asArray = some l → j = .arr l := by
    intro j hj
    cases j with
    | arr l' => exact congrArg _ (Option.some.inj hj)
    | _ => cases hj
  unfold Json.index
  cases hv : v.get? key with
  | none =>
    constructor
    · intro h; cases h
    · intro h; cases h
  | some j =>
    refine ⟨fun h => congrArg some (hk _ h), fun h => ?_⟩
    rw [Option.some.inj h]
    rfl

theorem index_asStr_iff {v : Json} {key : String} {s : Text} :
    (v.index key).asStr = some s ↔ v.get? key = some (.str s) := by
  have hk : ∀ j : Json, j.asStr = some s → j = .str s := by
    intro j hj
    cases j with
    | str l' => exact congrArg _ (Option.some.inj hj)
    | _ => cases hj
  unfold Json.index
  cases hv : v.get? key with
  | none =>
    constructor
    · intro h; cases h
    · intro h; cases h
  | some j =>
    refine ⟨fun h => congrArg some (hk _ h), fun h => ?_⟩
    rw [Option.some.inj h]
    rfl

theorem index_token {j : Json} {key : String} {t : Token} :
    TokenOf (j.index key) t ↔ ∃ s, j.get? key = some s ∧ TokenOf s t := by
  unfold Json.index
  cases hv : j.get? key with
  | none =>
    constructor
    · intro h
      cases h with
      | str h => cases h
    · rintro ⟨s, h, _⟩; cases h
  | some s =>
    constructor
    · intro h; exact ⟨s, rfl, h⟩
    · rintro ⟨s', h, h'⟩
      rw [Option.some.inj h]
      exact h'

theorem loadSeqs_iff {l : List Json} {ts ts' : TokenSet} : loadSeqs ts l = .ok ts' ↔
    ∃ qs, List.Forall₂ (SequenceOf ts.tokens) l qs ∧ ts' = { ts with sequences := ts.sequences ++ qs } := by
  induction l generalizing ts with
  | nil =>
    constructor
    · intro h
      have := Except.ok.inj h
      subst this
      exact ⟨[], .nil, by simp⟩
    · rintro ⟨qs, h, rfl⟩
      cases h
      simp [loadSeqs]
  | cons j js ih =>
    constructor
    · intro h
      obtain ⟨t, h1, h⟩ := ok_bind_inv h
      obtain ⟨sj, e1, e2⟩ := index_token.1 (parseToken_iff.1 h1)
      cases t with
      | str s =>
        obtain ⟨l, h2, h⟩ := ok_bind_inv h
        obtain ⟨is, h3, h⟩ := ok_bind_inv h
        obtain ⟨qs, g1, g2⟩ := ih.1 h
        refine ⟨⟨s, is⟩ :: qs, .cons ⟨sj, l, e1, index_asArray_iff.1 (unwrapR_inv h2), ?_, loadListed_iff.1 h3⟩ g1, ?_⟩
        · cases e2; assumption
        · rw [g2]; simp [addSequence]
      | ext n => cases h
    · rintro ⟨qs, h, rfl⟩
      cases h with
      | cons hd tl =>
        rename_i q qs
        obtain ⟨sj, l, e1, e2, e3, e4⟩ := hd
        have e5 : parseToken (j.index "string") = .ok (.str q.string) :=
          parseToken_iff.2 (index_token.2 ⟨sj, e1, .str e3⟩)
        simp only [loadSeqs, e5, R.ok_bind, index_asArray_iff.2 e2, unwrapR_some, loadListed_iff.2 e4]
        exact ih.2 ⟨qs, tl, by simp [addSequence]⟩

theorem code1_digits : ∀ c < 256, (digitLoop 1 1 8 c).reverse = digitsOf 2 8 c := by decide +kernel
theorem code2_digits : ∀ c < 256, (digitLoop 3 2 4 c).reverse = digitsOf 4 4 c := by decide +kernel
theorem code4_digits : ∀ c < 256, [c >>> 4, c &&& 15] = digitsOf 16 2 c := by decide +kernel

theorem bitsSet_builtIn {n len : Nat} {ty : TokenType} {code : Nat → List Nat} {p : Processing} {b : Bool}
    (hp : bitsParams ty = some (n, len)) (h : ∀ c < 256, code c = digitsOf n len c) :
    bitsSet n ty code p b = ⟨n, ty, p, b, (List.range n).map (fun i => Token.ext (UInt8.ofNat i)), builtIn ty⟩ := by
  have e : builtIn ty = (List.range 256).map (fun c => ⟨[UInt8.ofNat c], digitsOf n len c⟩) := by
    simp only [builtIn, hp]
  unfold bitsSet
  rw [e]
  congr 1
  apply List.map_congr_left
  intro c hc
  rw [h c (List.mem_range.1 hc)]

theorem startSet_iff {ty : TokenType} {n : Nat} {p : Processing} {b : Bool} {ts : TokenSet} :
    startSet ty n p b = .ok ts ↔ n < 256 ∧ (∀ k, requiredExts ty = some k → n = k) ∧
      ts = ⟨n, ty, p, b, (List.range n).map (fun i => Token.ext (UInt8.ofNat i)), builtIn ty⟩ := by
  have hfix : ∀ (k : Nat) (x : R TokenSet), k < 256 → requiredExts ty = some k →
      (x = .ok ⟨k, ty, p, b, (List.range k).map (fun i => Token.ext (UInt8.ofNat i)), builtIn ty⟩) →
      ((do rassert (decide (n = k)); x) = .ok ts ↔ n < 256 ∧ (∀ k, requiredExts ty = some k → n = k) ∧
      ts = ⟨n, ty, p, b, (List.range n).map (fun i => Token.ext (UInt8.ofNat i)), builtIn ty⟩) := by
    intro k x hk hr hx
    constructor
    · intro h
      obtain ⟨_, h1, h'⟩ := ok_bind_inv h
      have hn := of_decide_eq_true (rassert_inv h1)
      subst hn
      rw [hx] at h'
      refine ⟨hk, ?_, (Except.ok.inj h').symm⟩
      intro k' hk'
      rw [hr] at hk'
      exact Option.some.inj hk'
    · rintro ⟨h1, h2, rfl⟩
      have := h2 k hr
      subst this
      rw [rassert_true (by simp), R.ok_bind, hx]
  cases ty with
  | bits1 =>
    exact hfix 2 _ (by decide) rfl (by rw [newBits1_eq, bitsSet_builtIn (len := 8) rfl code1_digits])
  | bits2 =>
    exact hfix 4 _ (by decide) rfl (by rw [newBits2_eq, bitsSet_builtIn (len := 4) rfl code2_digits])
  | bits4 =>
    exact hfix 16 _ (by decide) rfl (by rw [newBits4_eq, bitsSet_builtIn (len := 2) rfl code4_digits])
  | bytes => exact hfix 0 _ (by decide) rfl rfl
  | bytesHuff =>
    constructor
    · intro h
      obtain ⟨_, h1, h⟩ := ok_bind_inv h
      have hn := of_decide_eq_true (rassert_inv h1)
      exact ⟨hn, (fun k (hk : none = some k) => nomatch hk), (Except.ok.inj h).symm⟩
    · rintro ⟨h1, h2, rfl⟩
      show TokenSet.new n p .bytesHuff b = _
      rw [TokenSet.new, rassert_true (by simp [h1]), R.ok_bind]
      rfl

theorem parseProcessing_iff {v : Json} {p : Processing} : parseProcessing v = .ok p ↔ ProcessingOf v p := by
  unfold parseProcessing ProcessingOf
  cases hv : (v.index "processing").asStr with
  | none =>
    constructor
    · intro h; cases h
    rintro ⟨name, h, _⟩
    rw [index_asStr_iff.2 h] at hv
    cases hv
  | some s =>
    have hg := index_asStr_iff.1 hv
    constructor
    · intro h
      dsimp only at h
      split at h
      · rename_i e; subst e; cases h; exact ⟨"raw", hg, by simp⟩
      · split at h
        · rename_i e; subst e; cases h; exact ⟨"capswords", hg, by simp⟩
        · cases h
    · rintro ⟨name, h, hm⟩
      rw [hg] at h
      have := Json.str.inj (Option.some.inj h)
      subst this
      simp only [List.mem_cons, Prod.mk.injEq, List.not_mem_nil, or_false] at hm
      rcases hm with ⟨rfl, rfl⟩ | ⟨rfl, rfl⟩ <;> rfl

theorem get_index_num {v : Json} {key : String} {n : Int} (h : v.get? key = some (.num n)) :
    v.index key = .num n := by
  unfold Json.index
  rw [h]
  rfl

theorem parseType_iff {v : Json} {ty : TokenType} : parseType v = .ok ty ↔ TypeOf v ty := by
  unfold parseType TypeOf
  cases hv : (v.index "type").asStr with
  | none =>
    constructor
    · intro h; cases h
    rintro ⟨name, h, _⟩
    rw [index_asStr_iff.2 h] at hv
    cases hv
  | some s =>
    have hg := index_asStr_iff.1 hv
    constructor
    · intro h
      dsimp only at h
      split at h
      · rename_i e
        subst e
        obtain ⟨n, h1, h⟩ := ok_bind_inv h
        obtain ⟨e1, _⟩ := asI64_iff.1 (unwrapR_inv h1)
        have e2 : v.get? "fallback_bits" = some (.num n) := by
          unfold Json.index at e1
          cases hx : v.get? "fallback_bits" with
          | none => rw [hx] at e1; cases e1
          | some j => rw [hx] at e1; exact congrArg some e1
        refine ⟨"fallback_bits", hg, .inr ⟨rfl, n, e2, ?_⟩⟩
        split at h
        · rename_i e; subst e; cases h; simp
        · split at h
          · rename_i e; subst e; cases h; simp
          · split at h
            · rename_i e; subst e; cases h; simp
            · cases h
      · split at h
        · rename_i e; subst e; cases h; exact ⟨"all_tokens", hg, .inl (by simp)⟩
        · split at h
          · rename_i e; subst e; cases h; exact ⟨"bits1", hg, .inl (by simp)⟩
          · split at h
            · rename_i e; subst e; cases h; exact ⟨"bits2", hg, .inl (by simp)⟩
            · split at h
              · rename_i e; subst e; cases h; exact ⟨"bits4", hg, .inl (by simp)⟩
              · split at h
                · rename_i e; subst e; cases h; exact ⟨"bytes", hg, .inl (by simp)⟩
                · split at h
                  · rename_i e; subst e; cases h; exact ⟨"byteshuff", hg, .inl (by simp)⟩
                  · cases h
    · rintro ⟨name, h, hm⟩
      rw [hg] at h
      have := Json.str.inj (Option.some.inj h)
      subst this
      rcases hm with hm | ⟨rfl, n, h2, hm⟩
      · simp only [List.mem_cons, Prod.mk.injEq, List.not_mem_nil, or_false] at hm
        rcases hm with ⟨rfl, rfl⟩ | ⟨rfl, rfl⟩ | ⟨rfl, rfl⟩ | ⟨rfl, rfl⟩ | ⟨rfl, rfl⟩ | ⟨rfl, rfl⟩ <;> rfl
      · simp only [List.mem_cons, Prod.mk.injEq, List.not_mem_nil, or_false] at hm
        have e := get_index_num h2
        dsimp only
        rw [if_pos rfl, e]
        rcases hm with ⟨rfl, rfl⟩ | ⟨rfl, rfl⟩ | ⟨rfl, rfl⟩
        · rw [asI64_iff.2 ⟨rfl, by omega, by omega⟩]; rfl
        · rw [asI64_iff.2 ⟨rfl, by omega, by omega⟩]; rfl
        · rw [asI64_iff.2 ⟨rfl, by omega, by omega⟩]; rfl

theorem parseSplit_iff {v : Json} {b : Bool} : parseSplit v = .ok b ↔
    (v.get? "split_paragraph" = some (.bool b) ∨ v.get? "split_paragraph" = none ∧ b = false) := by
  unfold parseSplit
  cases hv : v.get? "split_paragraph" with
  | none =>
    constructor
    · intro h; cases h; exact .inr ⟨rfl, rfl⟩
    · rintro (h | ⟨_, rfl⟩)
      · cases h
      · rfl
  | some j =>
    cases j with
    | bool b' =>
      constructor
      · intro h; cases h; exact .inl rfl
      · rintro (h | ⟨h, _⟩)
        · cases h; rfl
        · cases h
    | _ =>
      constructor
      · intro h; cases h
      · rintro (h | ⟨h, _⟩) <;> cases h

theorem strTokens_front (n : Nat) (strs : List Bytes) :
    ((List.range n).map (fun i => Token.ext (UInt8.ofNat i)) ++ strs.map Token.str).filterMap tokenText = strs := by
  have : ∀ l : List Bytes, (l.map Token.str).filterMap tokenText = l := by
    intro l
    induction l with
    | nil => rfl
    | cons x l ih =>
      have ht : tokenText (Token.str x) = some x := rfl
      rw [List.map_cons, List.filterMap_cons_some ht, ih]
  have hx : ∀ l : List Nat, (l.map (fun i => Token.ext (UInt8.ofNat i))).filterMap tokenText = [] := by
    intro l
    induction l with
    | nil => rfl
    | cons x l ih =>
      have ht : tokenText (Token.ext (UInt8.ofNat x)) = none := rfl
      rw [List.map_cons, List.filterMap_cons_none ht, ih]
  rw [List.filterMap_append, this, hx]
  rfl

theorem asObject_get {v : Json} {key : String} {j : Json} (h : v.get? key = some j) :
    ∃ obj, v.asObject = some obj ∧ ∀ k : String, obj.lookup k.toList = v.get? k := by
  cases v with
  | obj l => exact ⟨l, rfl, fun _ => rfl⟩
  | _ => cases h

/-- `from_json` accepts exactly the values that stand for a set, and returns this set. -/
theorem fromJson_iff {v : Json} {ts : TokenSet} : fromJson v = .ok ts ↔ LoadedFrom v ts := by
  constructor
  · intro h
    unfold fromJson at h
    obtain ⟨toks, h1, h⟩ := ok_bind_inv h
    obtain ⟨p, h2, h⟩ := ok_bind_inv h
    obtain ⟨ty, h3, h⟩ := ok_bind_inv h
    obtain ⟨b, h4, h⟩ := ok_bind_inv h
    obtain ⟨ts0, h5, h⟩ := ok_bind_inv h
    obtain ⟨ts1, h6, h⟩ := ok_bind_inv h
    obtain ⟨obj, h7, h⟩ := ok_bind_inv h
    have hg := index_asArray_iff.1 (unwrapR_inv h1)
    obtain ⟨obj', o1, o2⟩ := asObject_get hg
    have : obj = obj' := by
      have := unwrapR_inv h7
      rw [o1] at this
      exact (Option.some.inj this).symm
    subst this
    obtain ⟨a1, a2, a3⟩ := startSet_iff.1 h5
    obtain ⟨strs, b1, b2, b3, b4⟩ := loadTokens_iff.1 h6
    have key : ∃ listed, ts = { ts1 with sequences := ts1.sequences ++ listed } ∧
        (v.get? "sequences" = none ∧ listed = [] ∨
        ∃ l, v.get? "sequences" = some (.arr l) ∧ List.Forall₂ (SequenceOf ts1.tokens) l listed) := by
      rw [o2] at h
      split at h
      · obtain ⟨seqs, h8, h⟩ := ok_bind_inv h
        obtain ⟨qs, c1, c2⟩ := loadSeqs_iff.1 h
        exact ⟨qs, c2, .inr ⟨seqs, index_asArray_iff.1 (unwrapR_inv h8), c1⟩⟩
      · rename_i hs
        have := Except.ok.inj h
        subst this
        refine ⟨[], by simp, .inl ⟨?_, rfl⟩⟩
        cases hx : v.get? "sequences" with
        | none => rfl
        | some j => rw [hx] at hs; exact absurd rfl hs
    obtain ⟨listed, c1, c2⟩ := key
    subst a3
    subst b4
    have hstr : strTokens ts = strs := by
      rw [c1]
      exact strTokens_front _ _
    have htok : ts.tokens = (List.range ts.nExt).map (fun i => Token.ext (UInt8.ofNat i)) ++ strs.map Token.str := by
      rw [c1]
    have hty : ts.tokenType = ty := by rw [c1]
    refine ⟨⟨toks, hg, ?_, b2, ?_⟩, ?_, ?_, ?_, ?_, ?_, ?_, ?_, ⟨listed, ?_, ?_⟩⟩
    · rw [c1]
    · rw [hstr]; exact b1
    · rw [hstr]; exact htok
    · rw [c1]; exact a1
    · rw [c1]; exact a2
    · rw [hstr]; exact b3
    · rw [hty]; exact parseType_iff.1 h3
    · rw [c1]; exact parseProcessing_iff.1 h2
    · rw [c1]; exact parseSplit_iff.1 h4
    · rw [hstr, hty, c1]
    · rw [c1]; exact c2
  · rintro ⟨⟨toks, a1, a2, a3, a4⟩, b1, b2, b3, b4, b5, b6, b7, listed, c1, c2⟩
    obtain ⟨obj, o1, o2⟩ := asObject_get a1
    rw [a2] at b3 b2
    have hs := (startSet_iff (p := ts.processing) (b := ts.splitParagraphs)).2 ⟨b2, b3, rfl⟩
    have hl := (loadTokens_iff (ts := ⟨(toks.filter Json.isNumber).length,
      ts.tokenType, ts.processing, ts.splitParagraphs,
      (List.range (toks.filter Json.isNumber).length).map (fun i => Token.ext (UInt8.ofNat i)), builtIn ts.tokenType⟩)).2
      ⟨strTokens ts, a4, a3, b4, rfl⟩
    unfold fromJson
    simp only [index_asArray_iff.2 a1, unwrapR_some, R.ok_bind, parseProcessing_iff.2 b6, parseType_iff.2 b5,
      parseSplit_iff.2 b7, hs, hl, o1, o2]
    have hts : ts = { ts with
        nExt := (toks.filter Json.isNumber).length,
        tokens := (List.range (toks.filter Json.isNumber).length).map (fun i => Token.ext (UInt8.ofNat i)) ++
          (strTokens ts).map Token.str,
        sequences := (builtIn ts.tokenType).filter (fun q => decide (q.string ∉ strTokens ts)) ++ listed } := by
      rw [← c1, ← a2, ← b1]
    rcases c2 with ⟨c2, rfl⟩ | ⟨l, c2, c3⟩
    · rw [c2]
      simp only [Option.isSome_none, Bool.false_eq_true, if_false]
      rw [List.append_nil] at hts
      exact congrArg _ hts.symm
    · rw [c2]
      simp only [Option.isSome_some, if_true, index_asArray_iff.2 c2, unwrapR_some, R.ok_bind]
      refine loadSeqs_iff.2 ⟨listed, ?_, ?_⟩
      · rw [← a2, ← b1]; exact c3
      · exact hts

theorem digitsOf_lt {n : Nat} (hn : 0 < n) : ∀ (len c : Nat), ∀ d ∈ digitsOf n len c, d < n
  | 0, _, d, hd => by simp [digitsOf] at hd
  | len + 1, c, d, hd => by
    rcases List.mem_append.1 hd with hd | hd
    · exact digitsOf_lt hn len _ d hd
    · rw [List.mem_singleton] at hd
      rw [hd]
      exact Nat.mod_lt _ hn

theorem _root_.Tokens.Spec.LoadedFrom.inRange {v : Json} {ts : TokenSet} (h : LoadedFrom v ts) : SeqsInRange ts := by
  obtain ⟨listed, e1, e2⟩ := h.sequences
  intro q hq i hi
  rw [e1] at hq
  rcases List.mem_append.1 hq with hq | hq
  · have hq := (List.mem_filter.1 hq).1
    unfold builtIn at hq
    split at hq
    · rename_i n len hp
      obtain ⟨c, _, rfl⟩ := List.mem_map.1 hq
      have hn : requiredExts ts.tokenType = some n ∧ 0 < n := by
        cases hty : ts.tokenType <;> rw [hty] at hp <;> cases hp <;> exact ⟨rfl, by decide⟩
      have hlt := digitsOf_lt hn.2 _ _ i hi
      have := h.required n hn.1
      rw [h.order, List.length_append, List.length_map, List.length_range]
      omega
    · cases hq
  · rcases e2 with ⟨_, rfl⟩ | ⟨l, _, e2⟩
    · cases hq
    · have : ∀ (l : List Json) (qs : List Sequence), List.Forall₂ (SequenceOf ts.tokens) l qs → q ∈ qs →
          i < ts.tokens.length := by
        intro l qs hf
        induction hf with
        | nil => intro h; cases h
        | cons hd tl ih =>
          intro hq
          rcases List.mem_cons.1 hq with rfl | hq
          · obtain ⟨s, l', _, _, _, hp⟩ := hd
            have : ∀ (l' : List Json) (is : List Nat), List.Forall₂ (PlaceOf ts.tokens) l' is → i ∈ is →
                i < ts.tokens.length := by
              intro l' is hf
              induction hf with
              | nil => intro h; cases h
              | cons hd tl ih =>
                intro hi
                rcases List.mem_cons.1 hi with rfl | hi
                · obtain ⟨t, _, ht, _⟩ := hd
                  exact (List.getElem?_eq_some_iff.1 ht).1
                · exact ih hi
            exact this _ _ hp hi
          · exact ih hq
      exact this _ _ e2 hq

theorem fromJson_loaded {v : Json} {ts : TokenSet} (h : fromJson v = .ok ts) : LoadedFrom v ts :=
  fromJson_iff.1 h

end Tokens
