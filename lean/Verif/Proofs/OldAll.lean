import Verif.Spec.OldAll
import Verif.Proofs.OldSmall
import Verif.Proofs.Json2

/-! The JSON of the first generation and `optimize_all`. -/

set_option linter.unusedVariables false

namespace Tokens.Old
open Tokens Spec.Old

/-! ### The mandatory tokens -/

theorem addAllMandatory_tokens (l : List Bytes) : ∀ {ts ts' : OSet}, ts.addAllMandatory l = .ok ts' →
    ts'.tokens = ts.tokens ++ l.map (fun s => { string := s, isMandatory := true, suffix := .none }) ∧
      ts'.literal = ts.literal := by
  induction l with
  | nil =>
    intro ts ts' h
    obtain rfl := Except.ok.inj h
    exact ⟨by simp, rfl⟩
  | cons s l ih =>
    intro ts ts' h
    rw [OSet.addAllMandatory, OSet.addMandatory] at h
    cases hn : (ts.byString s).isNone with
    | false => rw [hn] at h; cases h
    | true =>
      rw [hn, rassert_true rfl] at h
      simp only [R.ok_bind] at h
      obtain ⟨h1, h2⟩ := ih h
      refine ⟨?_, h2⟩
      rw [h1]
      simp

theorem filter_mandatory (l : List Bytes) :
    (l.map (fun s => ({ string := s, isMandatory := true, suffix := .none } : OToken))).filter OToken.isMandatory =
      l.map (fun s => { string := s, isMandatory := true, suffix := .none }) := by
  rw [List.filter_eq_self]
  intro t ht
  obtain ⟨s, _, rfl⟩ := List.mem_map.1 ht
  rfl

theorem new_strings {le : LiteralEncoding} {ts : OSet} (h : OSet.new le = .ok ts) :
    strings ts = OSet.mandatory le ∧ fixed ts = OSet.mandatory le ∧ ts.literal = le := by
  obtain ⟨h1, h2⟩ := addAllMandatory_tokens _ h
  rw [List.nil_append] at h1
  have e : ∀ l : List Bytes, (l.map (fun s => ({ string := s, isMandatory := true, suffix := .none } : OToken))).map
      OToken.string = l := by
    intro l
    rw [List.map_map]
    exact List.map_id _
  refine ⟨?_, ?_, h2⟩
  · rw [strings, h1, e]
  · rw [fixed, h1, filter_mandatory, e]

theorem made_fixed {ts : OSet} (h : Made ts) : fixed ts = OSet.mandatory ts.literal := by
  induction h with
  | new h => obtain ⟨-, h2, h3⟩ := new_strings h; rw [h2, h3]
  | @add ts ts' s hm hs h ih =>
    by_cases hin : s ∈ strings ts
    · by_cases hf : s ∈ fixed ts
      · have : ts' = ts := by
          unfold OSet.addToken at h
          cases hb : ts.byString s with
          | none => exact absurd hin ((byString_none (made_ok hm)).1 hb)
          | some k =>
            rw [hb] at h
            obtain ⟨t, ht, _⟩ := ((made_ok hm).map s k).1 hb
            simp only [getR_of ht, R.ok_bind] at h
            cases hmd : t.isMandatory with
            | false => rw [hmd] at h; cases h
            | true => rw [hmd, rassert_true rfl] at h; exact (Except.ok.inj h).symm
        rw [this]; exact ih
      · rw [addToken_old (made_ok hm) hin hf] at h; cases h
    · obtain ⟨ts1, h1, h2, h3, h4, h5⟩ := addToken_new (made_ok hm) hin
      rw [h1] at h
      obtain rfl := Except.ok.inj h
      rw [h4, h5, ih]
  | @remove ts ts' s hm h ih =>
    by_cases hin : s ∈ strings ts
    · by_cases hf : s ∈ fixed ts
      · rw [removeToken_fixed (made_ok hm) hf] at h; cases h
      · obtain ⟨ts1, h1, h2, h3, h4, h5⟩ := removeToken_some (made_ok hm) hin hf
        rw [h1] at h
        obtain rfl := Except.ok.inj h
        rw [h3, h4, ih]
    · exfalso
      unfold OSet.removeToken at h
      rw [(byString_none (made_ok hm)).2 hin] at h
      cases h

theorem addToken_fixed {ts : OSet} (h : SetOK ts) {s : Bytes} (hf : s ∈ fixed ts) : ts.addToken s = .ok ts := by
  obtain ⟨t, ht, rfl⟩ := List.mem_map.1 hf
  obtain ⟨ht1, ht2⟩ := List.mem_filter.1 ht
  obtain ⟨k, hk⟩ := List.mem_iff_getElem?.1 ht1
  have hm := (h.map t.string k).2 ⟨t, hk, rfl⟩
  unfold OSet.addToken
  rw [hm]
  simp only [getR_of hk, R.ok_bind, ht2, rassert_true rfl]

/-! ### JSON -/

theorem asUpTo_nat {max k : Nat} (h : k ≤ max) : asUpTo max (.num (k : Int)) = some k := by
  show (if 0 ≤ (k : Int) ∧ (k : Int) ≤ max then some (k : Int).toNat else none) = some k
  rw [if_pos ⟨Int.natCast_nonneg k, Int.ofNat_le.2 h⟩]
  rfl

theorem bytesOf_map (b : Bytes) : bytesOf (b.map (fun x => .num (x.toNat : Int))) = .ok b := by
  induction b with
  | nil => rfl
  | cons x xs ih =>
    have h : x.toNat < 256 := x.toNat_lt
    have e : asUpTo 255 (.num (x.toNat : Int)) = some x.toNat := asUpTo_nat (by omega)
    rw [List.map_cons, bytesOf, e, ih]
    simp only [unwrapR_some, R.ok_bind, UInt8.ofNat_toNat]

theorem readToken_bytes (le : LiteralEncoding) (ts : OSet) (b : Bytes) :
    readToken le ts (bytesToJson b) = ts.addToken b := by
  unfold bytesToJson
  split
  · next s h => rw [readToken, ← utf8Decode_iff.1 h]
  · rw [bytesAsArray, readToken, bytesOf_map]
    rfl

theorem readTokens_strings (le : LiteralEncoding) (l : List Bytes) : ∀ {ts : OSet}, Made ts → l.Nodup →
    (∀ s ∈ l, (s ∈ strings ts → s ∈ fixed ts) ∧ s ≠ []) →
    ∃ ts', readTokens le ts (l.map bytesToJson) = .ok ts' ∧ Made ts' ∧
      strings ts' = strings ts ++ l.filter (fun s => decide (s ∉ fixed ts)) ∧ fixed ts' = fixed ts ∧
      ts'.literal = ts.literal := by
  induction l with
  | nil => intro ts h _ _; exact ⟨ts, rfl, h, by simp, rfl, rfl⟩
  | cons s l ih =>
    intro ts h hn hs
    rw [List.nodup_cons] at hn
    obtain ⟨hs1, hs2⟩ := hs s (by simp)
    rw [List.map_cons, readTokens, readToken_bytes]
    by_cases hf : s ∈ fixed ts
    · rw [addToken_fixed (made_ok h) hf]
      obtain ⟨ts', g1, g2, g3, g4, g5⟩ := ih h hn.2 (fun x hx => hs x (by simp [hx]))
      refine ⟨ts', g1, g2, ?_, g4, g5⟩
      rw [g3, List.filter_cons, if_neg (by simpa using hf)]
    · obtain ⟨ts1, h1, h2, h3, h4, h5⟩ := addToken_new (made_ok h) (fun hc => hf (hs1 hc))
      obtain ⟨ts2, g1, g2, g3, g4, g5⟩ := ih (.add h hs2 h1) hn.2 (fun x hx => by
        refine ⟨?_, (hs x (by simp [hx])).2⟩
        rw [h3, h4, List.mem_append, List.mem_singleton]
        rintro (hc | rfl)
        · exact (hs x (by simp [hx])).1 hc
        · exact absurd hx hn.1)
      refine ⟨ts2, ?_, g2, ?_, g4.trans h4, g5.trans h5⟩
      · rw [h1]; exact g1
      · rw [g3, h3, h4, List.filter_cons, if_pos (by simpa using hf)]
        simp

theorem readTokens_numbers (le : LiteralEncoding) (js : List Json) : ∀ (l : List Nat), (∀ k ∈ l, k < le.reservedTokens) →
    ∀ {ts : OSet}, readTokens le ts (l.map natJson ++ js) = readTokens le ts js
  | [], _, ts => rfl
  | k :: l, h, ts => by
    have hk := h k (by simp)
    have hr : le.reservedTokens ≤ 16 := by cases le <;> decide
    have e : asUpTo (2 ^ 64 - 1) (.num (k : Int)) = some k := asUpTo_nat (by omega)
    rw [List.map_cons, List.cons_append, readTokens]
    show (readToken le ts (.num (k : Int)) >>= fun ts' => readTokens le ts' (l.map natJson ++ js)) = _
    rw [readToken, e, unwrapR_some]
    simp only [R.ok_bind, rassert_true (decide_eq_true hk)]
    exact readTokens_numbers le js l (fun x hx => h x (by simp [hx]))

theorem literalOf_file (fl : OFloats) (size : Nat) (p : Text) (ts : OSet) (st : OStats) :
    literalOf (fileJson fl size p ts st) = .ok (reload ts.literal) := by
  have key : ∀ (le : LiteralEncoding) (a b : Json), literalOf (.obj ([(kTokens, a), (kStats, b)] ++ literalJson le st ++
      [(kProcessing, .str p)])) = .ok (reload le) := by
    intro le a b
    cases le <;> rfl
  exact key _ _ _

theorem tokens_file (fl : OFloats) (size : Nat) (p : Text) (ts : OSet) (st : OStats) :
    membersOf (member (fileJson fl size p ts st) kTokens) = tokensJson ts := rfl

theorem reload_reserved (le : LiteralEncoding) : (reload le).reservedTokens = le.reservedTokens := by cases le <;> rfl
theorem reload_mandatory (le : LiteralEncoding) : OSet.mandatory (reload le) = OSet.mandatory le := by cases le <;> rfl

/-- What is read from a file is the set that was written, in another order. -/
theorem roundtrip {ts : OSet} (h : Made ts) (fl : OFloats) (size : Nat) (p : Text) (st : OStats) :
    ∃ ts', OSet.fromJson (fileJson fl size p ts st) = .ok ts' ∧ Made ts' ∧ (strings ts').Perm (strings ts) ∧
      fixed ts' = fixed ts ∧ ts'.literal = reload ts.literal := by
  obtain ⟨ts0, h1, h2, h3⟩ := new_ok (reload ts.literal)
  obtain ⟨n1, n2, n3⟩ := new_strings h1
  rw [reload_mandatory] at n1 n2
  have hfx := made_fixed h
  have hp : ((ts.tokens.map OToken.string).mergeSort bytesLe).Perm (strings ts) := List.mergeSort_perm _ _
  have hnd := strings_nodup (made_ok h)
  have hmem : ∀ s, s ∈ fixed ts0 ↔ s ∈ fixed ts := by intro s; rw [n2, hfx]
  obtain ⟨ts', g1, g2, g3, g4, g5⟩ := readTokens_strings (reload ts.literal)
    ((ts.tokens.map OToken.string).mergeSort bytesLe) (.new h1) (hp.nodup_iff.2 hnd) (by
      intro s hs
      refine ⟨fun hc => ?_, strings_ne (made_ok h) s (hp.mem_iff.1 hs)⟩
      rw [n1] at hc
      rw [n2]
      exact hc)
  refine ⟨ts', ?_, g2, ?_, ?_, g5.trans n3⟩
  · unfold OSet.fromJson
    rw [literalOf_file, R.ok_bind, h1, R.ok_bind, tokens_file, tokensJson, readTokens_numbers]
    · exact g1
    · intro k hk
      rw [reload_reserved]
      exact List.mem_range.1 hk
  · rw [g3, n1, ← hfx]
    refine (List.perm_ext_iff_of_nodup ?_ hnd).2 ?_
    · rw [List.nodup_append]
      refine ⟨?_, (hp.nodup_iff.2 hnd).filter _, ?_⟩
      · rw [hfx]; exact mandatory_nodup _
      · intro a ha b hb e
        subst e
        have := (List.mem_filter.1 hb).2
        simp only [decide_eq_true_eq] at this
        exact this ((hmem a).2 ha)
    · intro s
      rw [List.mem_append, List.mem_filter, hp.mem_iff]
      simp only [decide_eq_true_eq, hmem]
      constructor
      · rintro (h1 | h1)
        · exact fixed_sub h1
        · exact h1.1
      · intro h1
        by_cases hs : s ∈ fixed ts
        · exact .inl hs
        · exact .inr ⟨h1, hs⟩
  · rw [g4, n2, hfx]

/-! ### The numbers of `optimize_all` -/

theorem halve_ok {n : Nat} (hn : 2 ≤ n) : ∀ (fuel block : Nat), 0 < block → block ≤ fuel →
    ∃ b k, halve n fuel block = .ok b ∧ 0 < b ∧ b * b < n ∧ b = block / 2 ^ k ∧ ∀ i < k, n ≤ block / 2 ^ i * (block / 2 ^ i) := by
  intro fuel
  induction fuel with
  | zero => intro block h1 h2; omega
  | succ fuel ih =>
    intro block h1 h2
    rw [halve]
    by_cases hb : block * block ≥ n
    · rw [if_pos hb]
      have h2' : 2 ≤ block := by
        by_contra hc
        have : block = 1 := by omega
        subst this
        omega
      obtain ⟨b, k, e, g1, g2, g3, g4⟩ := ih (block / 2) (by omega) (by omega)
      refine ⟨b, k + 1, e, g1, g2, ?_, ?_⟩
      · rw [g3, Nat.div_div_eq_div_mul, Nat.pow_succ, Nat.mul_comm]
      · intro i hi
        cases i with
        | zero => simpa using hb
        | succ i =>
          have := g4 i (by omega)
          rwa [Nat.div_div_eq_div_mul, ← Nat.pow_succ'] at this
    · rw [if_neg hb]
      exact ⟨block, 0, rfl, h1, by omega, by simp, by intro i hi; omega⟩

theorem blockFor_ok {n fuel : Nat} (hn : 2 ≤ n) (hf : n ≤ fuel) :
    ∃ b k, blockFor fuel n = .ok b ∧ 0 < b ∧ b * b < n ∧ b = n / 2 / 2 ^ k ∧
      ∀ i < k, n ≤ n / 2 / 2 ^ i * (n / 2 / 2 ^ i) :=
  halve_ok hn fuel (n / 2) (by omega) (by omega)

theorem blockFor_one (fuel : Nat) : blockFor fuel 1 = .ok 0 := by cases fuel <;> rfl

theorem blockFor_zero (fuel : Nat) : blockFor fuel 0 = .error .fuel := by
  unfold blockFor
  show halve 0 fuel 0 = _
  induction fuel with
  | zero => rfl
  | succ fuel ih => rw [halve, if_pos (by omega)]; exact ih

theorem loadPrev_some {has : Nat → Bool} {m : Nat} : ∀ {n : Nat}, loadPrev has n = some m →
    ∃ k, m = n / 2 ^ k ∧ has m = true ∧ ∀ i < k, has (n / 2 ^ i) = false ∧ 2 < n / 2 ^ i := by
  intro n
  induction n using Nat.strongRecOn with
  | _ n ih =>
    intro h
    rw [loadPrev] at h
    by_cases hh : has n = true
    · rw [if_pos hh] at h
      obtain rfl := Option.some.inj h
      exact ⟨0, by simp, hh, by intro i hi; omega⟩
    · rw [if_neg hh] at h
      by_cases h2 : n > 2
      · rw [dif_pos h2] at h
        obtain ⟨k, e, g1, g2⟩ := ih (n / 2) (by omega) h
        refine ⟨k + 1, ?_, g1, ?_⟩
        · rw [e, Nat.div_div_eq_div_mul, Nat.pow_succ, Nat.mul_comm]
        · intro i hi
          cases i with
          | zero => exact ⟨by simpa using hh, by simpa using h2⟩
          | succ i =>
            have := g2 i (by omega)
            rwa [Nat.div_div_eq_div_mul, ← Nat.pow_succ'] at this
      · rw [dif_neg h2] at h; cases h

theorem loadPrev_none {has : Nat → Bool} : ∀ {n : Nat}, loadPrev has n = none →
    ∀ k, (∀ i < k, 2 < n / 2 ^ i) → has (n / 2 ^ k) = false := by
  intro n
  induction n using Nat.strongRecOn with
  | _ n ih =>
    intro h k hk
    rw [loadPrev] at h
    by_cases hh : has n = true
    · rw [if_pos hh] at h; cases h
    · rw [if_neg hh] at h
      cases k with
      | zero => simpa using hh
      | succ k =>
        have h2 : n > 2 := by simpa using hk 0 (by omega)
        rw [dif_pos h2] at h
        have := ih (n / 2) (by omega) h k (by
          intro i hi
          have := hk (i + 1) (by omega)
          rwa [Nat.div_div_eq_div_mul, ← Nat.pow_succ'])
        rwa [Nat.div_div_eq_div_mul, ← Nat.pow_succ'] at this

theorem loadPrev_self {has : Nat → Bool} {n : Nat} (h : has n = true) : loadPrev has n = some n := by
  rw [loadPrev, if_pos h]

theorem loadPrev_half {has : Nat → Bool} {n : Nat} (h0 : has n = false) (h2 : 2 < n) (h : has (n / 2) = true) :
    loadPrev has n = some (n / 2) := by
  rw [loadPrev, if_neg (by simp [h0]), dif_pos h2, loadPrev_self h]

/-! ### Files -/

theorem new_dist8 : ∃ ts, OSet.new .dist8 = .ok ts ∧ FileSet 1 ts ∧ strings ts = [] := by
  refine ⟨_, rfl, ⟨.new (le := .dist8) rfl, ?_, rfl, rfl⟩, rfl⟩
  intro s hs
  cases hs

theorem noZero_perm {ts ts' : OSet} (h : (strings ts').Perm (strings ts)) (hz : NoZero ts) : NoZero ts' :=
  fun s hs => hz s (h.mem_iff.1 hs)

theorem ntokens_perm {ts ts' : OSet} (h : (strings ts').Perm (strings ts)) (hl : ts'.literal = ts.literal) :
    ts'.ntokens = ts.ntokens := by
  unfold OSet.ntokens
  rw [← length_strings, ← length_strings, h.length_eq, hl]

/-- What is read from a good file. -/
theorem read_file {m : Nat} {v : Json} {ts : OSet} (hh : Holds v ts) (hf : FileSet m ts) :
    ∃ ts', OSet.fromJson v = .ok ts' ∧ FileSet m ts' ∧ (strings ts').Perm (strings ts) := by
  obtain ⟨fl, size, p, st, rfl⟩ := hh
  obtain ⟨ts', h1, h2, h3, h4, h5⟩ := roundtrip hf.made fl size p st
  have hl : ts'.literal = .dist8 := by rw [h5, hf.literal]; rfl
  exact ⟨ts', h1, ⟨h2, noZero_perm h3 hf.noZero, hl, (ntokens_perm h3 (hl.trans hf.literal.symm)).trans hf.size⟩, h3⟩

/-- Two sets with the same file cost the same. -/
theorem atLeast_of {v : Json} {ts' : OSet} (hr : OSet.fromJson v = .ok ts') (hl : ts'.literal = .dist8) {xs : List Bytes}
    {c : Nat} (hc : c ≤ tot ts' xs) : AtLeast v xs c := by
  rintro ts c' ⟨fl, size, p, st, rfl⟩ hm hl' hc'
  obtain ⟨ts2, h1, h2, h3, h4, h5⟩ := roundtrip hm fl size p st
  rw [hr] at h1
  obtain rfl := Except.ok.inj h1
  rw [isCost_iff.1 hc', ← tot_perm h3.symm (hl.trans hl'.symm) xs]
  exact hc

theorem starting {files : OFiles} (hf : GoodFiles files) {n : Nat} (hn : 0 < n) (xs : List Bytes) :
    ∃ ts m, startingSet files n = .ok ts ∧ FileSet m ts ∧ m ≤ n ∧ (n = 1 → m = 1) ∧
      (∀ v c, files n = some v → c ≤ tot ts xs → AtLeast v xs c) ∧
      (files n = none → 2 < n → ∀ v c, files (n / 2) = some v → c ≤ tot ts xs → AtLeast v xs c) := by
  cases hl : loadPrev (fun m => (files m).isSome) n with
  | none =>
    obtain ⟨ts, h1, h2, h3⟩ := new_dist8
    refine ⟨ts, 1, by rw [startingSet, hl]; exact h1, h2, hn, fun _ => rfl, ?_, ?_⟩
    · intro v c hv
      have := loadPrev_none hl 0 (by intro i hi; omega)
      rw [Nat.pow_zero, Nat.div_one, hv] at this
      cases this
    · intro h0 h2 v c hv
      have := loadPrev_none hl 1 (by
        intro i hi
        obtain rfl : i = 0 := by omega
        simpa using h2)
      rw [Nat.pow_one, hv] at this
      cases this
  | some m =>
    obtain ⟨k, hk, hhas, hbef⟩ := loadPrev_some hl
    cases hv : files m with
    | none => rw [hv] at hhas; cases hhas
    | some v =>
      obtain ⟨ts0, h1, h2⟩ := hf m v hv
      obtain ⟨ts, g1, g2, g3⟩ := read_file h1 h2
      refine ⟨ts, m, ?_, g2, ?_, ?_, ?_, ?_⟩
      · rw [startingSet, hl]
        simp only [hv, unwrapR_some, R.ok_bind]
        exact g1
      · rw [hk]; exact Nat.div_le_self _ _
      · rintro rfl
        cases k with
        | zero => simpa using hk
        | succ k => have := (hbef 0 (by omega)).2; simp at this
      · intro v' c hv' hc
        have : loadPrev (fun m => (files m).isSome) n = some n := loadPrev_self (by rw [hv']; rfl)
        rw [hl] at this
        obtain rfl := Option.some.inj this
        rw [hv] at hv'
        obtain rfl := Option.some.inj hv'
        exact atLeast_of g1 g2.literal hc
      · intro h0 h2 v' c hv' hc
        have : loadPrev (fun m => (files m).isSome) n = some (n / 2) := loadPrev_half (by rw [h0]; rfl) h2 (by rw [hv']; rfl)
        rw [hl] at this
        obtain rfl := Option.some.inj this
        rw [hv] at hv'
        obtain rfl := Option.some.inj hv'
        exact atLeast_of g1 g2.literal hc

theorem saves_other (fl : OFloats) (size : Nat) (p : Text) (n : Nat) : ∀ (saved : List (OSet × OStats)) (files : OFiles) {m : Nat},
    m ≠ n → files.saves fl size p n saved m = files m
  | [], _, _, _ => rfl
  | q :: saved, files, m, h => by
    unfold OFiles.saves
    rw [List.foldl_cons]
    refine (saves_other fl size p n saved _ h).trans ?_
    exact if_neg h

theorem saves_nil (fl : OFloats) (size : Nat) (p : Text) (files : OFiles) (n : Nat) : files.saves fl size p n [] = files := rfl

theorem saves_self (fl : OFloats) (size : Nat) (p : Text) (n : Nat) (saved : List (OSet × OStats)) (files : OFiles)
    (h : saved ≠ []) : ∃ q ∈ saved, files.saves fl size p n saved n = some (fileJson fl size p q.1 q.2) ∧
      saved.getLast? = some q := by
  have e := List.dropLast_append_getLast h
  refine ⟨saved.getLast h, List.getLast_mem h, ?_, List.getLast?_eq_some_getLast h⟩
  generalize saved.getLast h = q at e
  generalize saved.dropLast = l at e
  rw [← e]
  unfold OFiles.saves
  rw [List.foldl_append, List.foldl_cons, List.foldl_nil]
  simp

/-! ### The whole -/

/-- What one call of `optimize_token_set` does. -/
theorem one_size {j : Job} (he : Usable j.env) (hsmall : j.env.mid.flatten.length < 2 ^ 32) (hmax : j.maxTokens ≤ 65536)
    (hfuel : j.maxTokens ≤ j.fuel) {n b m : Nat} (hn : n ≤ j.maxTokens) (hb : blockFor j.fuel n = .ok b) {ts : OSet}
    (hts : FileSet m ts) (hm : m ≤ n) (h1 : n = 1 → m = 1) (h0 : 0 < n) :
    (optimizeTokenSet j.fuel ts n b).wp j.env .dist8 [] (fun r sv' =>
      SavedOk j.env .dist8 n (tot ts j.env.slow) sv' ∧ (sv' = [] → ∃ e, r = .error e) ∧ (r = .ok () → Final j.env n sv') ∧ Outcome j.env n r) := by
  have hs := hts.size
  have hmx : max n ts.ntokens = n := by omega
  have hlen := length_le_ntokens ts
  have := wp_optimizeTokenSet (lit := .dist8) he hsmall (ntokens := n) (block := b) (by omega) (ts := ts) (by
    intro hlt
    have h2 : 2 ≤ n := by omega
    obtain ⟨b', k, e, hb', -⟩ := blockFor_ok (fuel := j.fuel) h2 (by omega)
    rw [hb] at e
    obtain rfl := Except.ok.inj e
    exact hb') ⟨hts.made, hts.noZero, hts.literal⟩ (by rw [made_fixed hts.made, hts.literal]; rfl) (by omega)
    (fuel := j.fuel) (by omega)
  rw [hmx] at this
  exact this

theorem blockFor_some {fuel n : Nat} (h0 : 0 < n) (hf : n ≤ fuel) : ∃ b, blockFor fuel n = .ok b := by
  by_cases h : n = 1
  · subst h; exact ⟨0, blockFor_one fuel⟩
  · obtain ⟨b, _, e, -⟩ := blockFor_ok (fuel := fuel) (n := n) (by omega) hf
    exact ⟨b, e⟩

theorem skips_iff {raw : Bool} {n : Nat} (h0 : 0 < n) : skips raw n = false ↔ ¬ (raw = true ∧ 1024 ≤ n) := by
  have : LiteralEncoding.dist8.reservedTokens = 1 := rfl
  unfold skips
  rw [this, decide_eq_false (show ¬ 1 > n by omega), Bool.false_or]
  cases raw <;> simp

theorem size_self {j : Job} {n : Nat} (h0 : 0 < n) (h : n ≤ j.maxTokens) (hs : skips j.raw n = false) : Size j n n :=
  ⟨⟨0, by simp⟩, h, (skips_iff h0).1 hs⟩

theorem _root_.Tokens.Spec.Old.Size.double {j : Job} {n m : Nat} (h : Size j (n * 2) m) : Size j n m := by
  obtain ⟨⟨k, hk⟩, h1, h2⟩ := h
  exact ⟨⟨k + 1, by rw [hk, Nat.pow_succ, Nat.mul_assoc, Nat.mul_comm 2]⟩, h1, h2⟩

theorem allOutcome_double {j : Job} {n : Nat} : ∀ {r : R Unit}, AllOutcome j (n * 2) r → AllOutcome j n r
  | .ok _, h => h
  | .error .fuel, h => h
  | .error .assertFailed, ⟨m, h1, h2⟩ => ⟨m, h1.double, h2⟩
  | .error .unwrapNone, ⟨m, h1, h2⟩ => ⟨m, h1.double, h2⟩

theorem allOutcome_of {j : Job} {n : Nat} (hs : Size j n n) : ∀ {r : R Unit}, Outcome j.env n r → AllOutcome j n r
  | .ok _, h => h
  | .error .fuel, h => h
  | .error .assertFailed, h => ⟨n, hs, h⟩
  | .error .unwrapNone, h => ⟨n, hs, h⟩

theorem size_cases {j : Job} {n m : Nat} (h : Size j n m) : m = n ∨ Size j (n * 2) m := by
  obtain ⟨⟨k, hk⟩, h1, h2⟩ := h
  cases k with
  | zero => exact .inl (by simpa using hk)
  | succ k => exact .inr ⟨⟨k, by rw [hk, Nat.pow_succ, Nat.mul_assoc, Nat.mul_comm 2]⟩, h1, h2⟩

theorem size_le {j : Job} {n m : Nat} (h : Size j n m) : n ≤ m := by
  obtain ⟨⟨k, hk⟩, h1, h2⟩ := h
  rw [hk]
  exact Nat.le_mul_of_pos_right _ (Nat.pos_of_ne_zero (by simp))

theorem written_good {j : Job} {files files' : OFiles} {m : Nat} (h : Written j files files' m) {v : Json}
    (hv : files' m = some v) : ∃ ts, Holds v ts ∧ FileSet m ts := by
  obtain ⟨ts, st, e, h1, -⟩ := h.new
  rw [hv] at e
  exact ⟨ts, ⟨_, _, _, _, Option.some.inj e⟩, h1⟩

/-- What was saved for one number of tokens. -/
theorem written_one {j : Job} {n : Nat} (h0 : 0 < n) {files : OFiles} {ts : OSet}
    (hold : ∀ v c, files n = some v → c ≤ tot ts j.env.slow → AtLeast v j.env.slow c)
    (hhalf : files n = none → 2 < n → ∀ v c, files (n / 2) = some v → c ≤ tot ts j.env.slow → AtLeast v j.env.slow c)
    {saved : List (OSet × OStats)} (hs : SavedOk j.env .dist8 n (tot ts j.env.slow) saved) (hne : saved ≠ []) :
    Written j files (files.saves j.fl j.size j.processing n saved) n := by
  obtain ⟨q, hq, e, -⟩ := saves_self j.fl j.size j.processing n saved files hne
  obtain ⟨g1, g2, g3, g4, g5⟩ := hs.each q hq
  have ht := hs.top q hq
  refine ⟨q.1, q.2, e, ⟨g1, g2, g3, g4⟩, g5, fun v hv => hold v _ hv ht, ?_⟩
  intro h1 h2 v hv
  rw [saves_other _ _ _ _ _ _ (show n / 2 ≠ n by omega)] at hv
  exact hhalf h1 h2 v _ hv ht

theorem all_ok {j : Job} (he : Usable j.env) (hsmall : j.env.mid.flatten.length < 2 ^ 32) (hmax : j.maxTokens ≤ 65536)
    (hfuel : j.maxTokens ≤ j.fuel) {n : Nat} {files files' : OFiles} {r : R Unit} (h : OptimizeAll j n files r files')
    (h0 : 0 < n) (hf : GoodFiles files) :
    (∀ m, m < n → files' m = files m) ∧ (∀ m, files' m = files m ∨ (Size j n m ∧ Written j files files' m)) ∧
      (r = .ok () → ∀ m, Size j n m → Written j files files' m ∧ Settled j files' m) ∧ AllOutcome j n r := by
  have key : ∀ {n : Nat} {files : OFiles} {ts : OSet} {r : R Unit} {w : World} {b : Nat}, n ≤ j.maxTokens → 0 < n →
      GoodFiles files → blockFor j.fuel n = .ok b → skips j.raw n = false → startingSet files n = .ok ts →
      Run j.env (optimizeTokenSet j.fuel ts n b) World.start r w →
      (w.saved = [] ∨ Written j files (files.saves j.fl j.size j.processing n w.saved) n) ∧
        (w.saved = [] → ∃ e, r = .error e) ∧
        (r = .ok () → Settled j (files.saves j.fl j.size j.processing n w.saved) n) ∧ AllOutcome j n r := by
    intro n files ts r w b hn h0 hf hb hs hl hr
    obtain ⟨ts', m, g1, g2, g3, g4, g5, g6⟩ := starting hf h0 j.env.slow
    rw [hl] at g1
    obtain rfl := Except.ok.inj g1
    obtain ⟨⟨k1, k2, k3⟩, -⟩ := wp_sound he hr (one_size he hsmall hmax hfuel hn hb g2 g3 g4 h0) (worldOk_start _ _)
    refine ⟨?_, k2, ?_, allOutcome_of (size_self h0 hn hs) k3.2⟩
    rotate_left
    · intro hok
      obtain ⟨t, t', before, after, tried, cut, removed, added, last, a1, a2, a3, a4, a5, a6, a7⟩ := k3.1 hok
      have hne : w.saved ≠ [] := by
        intro hc
        rw [hc] at a6
        cases a6
      obtain ⟨q, hq, e, e'⟩ := saves_self j.fl j.size j.processing n w.saved files hne
      rw [a6] at e'
      obtain rfl := Option.some.inj e'
      exact ⟨last.1, last.2, e, t, t', before, after, tried, cut, removed, added, last, a1, a2, a3, a4, a5, rfl, a7⟩
    by_cases hne : w.saved = []
    · exact .inl hne
    · exact .inr (written_one h0 g5 g6 k1 hne)
  have hgood : ∀ {n : Nat} {files : OFiles} {w : World}, GoodFiles files →
      (w.saved = [] ∨ Written j files (files.saves j.fl j.size j.processing n w.saved) n) →
      GoodFiles (files.saves j.fl j.size j.processing n w.saved) := by
    intro n files w hf hw m v hv
    rcases hw with hw | hw
    · rw [hw] at hv
      exact hf m v hv
    · by_cases hmn : m = n
      · subst hmn
        exact written_good hw hv
      · rw [saves_other _ _ _ _ _ _ hmn] at hv
        exact hf m v hv
  induction h with
  | @done n files h =>
    refine ⟨fun _ _ => rfl, fun _ => .inl rfl, ?_, trivial⟩
    intro _ m hm
    have h1 := size_le hm
    have h2 := hm.max
    omega
  | @block n files e h hb =>
    obtain ⟨b, e'⟩ := blockFor_some (fuel := j.fuel) h0 (by omega)
    rw [hb] at e'; cases e'
  | @skip n b files files' r h hb hs _ ih =>
    obtain ⟨i1, i2, i3, i4⟩ := ih (by omega) hf
    refine ⟨fun m hm => i1 m (by omega), ?_, ?_, allOutcome_double i4⟩
    · intro m
      rcases i2 m with h | ⟨h1, h2⟩
      · exact .inl h
      · exact .inr ⟨h1.double, h2⟩
    · intro hr m hm
      rcases size_cases hm with rfl | h'
      · rw [(skips_iff h0).2 hm.use] at hs; cases hs
      · exact i3 hr m h'
  | @load n b files e h hb hs hl =>
    obtain ⟨ts, m, g1, -⟩ := starting hf h0 []
    rw [hl] at g1; cases g1
  | @fail n b files ts e w h hb hs hl ho =>
    obtain ⟨k1, k2, -, k3⟩ := key h h0 hf hb hs hl ho
    refine ⟨fun m hm => saves_other _ _ _ _ _ _ (by omega), ?_, (by intro h; cases h), k3⟩
    intro m
    by_cases hmn : m = n
    · subst hmn
      rcases k1 with k1 | k1
      · rw [k1]; exact .inl rfl
      · exact .inr ⟨size_self h0 h hs, k1⟩
    · exact .inl (saves_other _ _ _ _ _ _ hmn)
  | @next n b files files' ts r w h hb hs hl ho _ ih =>
    obtain ⟨k1, k2, k3, -⟩ := key h h0 hf hb hs hl ho
    obtain ⟨i1, i2, i3, i4⟩ := ih (by omega) (hgood hf k1)
    have hw1 : Written j files (files.saves j.fl j.size j.processing n w.saved) n := by
      rcases k1 with k1 | k1
      · obtain ⟨e, he⟩ := k2 k1; cases he
      · exact k1
    have hwn : Written j files files' n := by
      obtain ⟨ts', st, e, g1, g2, g3, g4⟩ := hw1.new
      refine ⟨ts', st, (i1 n (by omega)).trans e, g1, g2, g3, ?_⟩
      intro a1 a2 v hv
      rw [i1 (n / 2) (by omega)] at hv
      exact g4 a1 a2 v hv
    have hlift : ∀ m, Size j (n * 2) m → Written j (files.saves j.fl j.size j.processing n w.saved) files' m →
        Written j files files' m := by
      intro m hm hw
      have hne : m ≠ n := by
        have := size_le hm
        omega
      obtain ⟨ts', st, e, g1, g2, g3, g4⟩ := hw.new
      rw [saves_other _ _ _ _ _ _ hne] at g3 g4
      exact ⟨ts', st, e, g1, g2, g3, g4⟩
    refine ⟨?_, ?_, ?_, allOutcome_double i4⟩
    · intro m hm
      rw [i1 m (by omega)]
      exact saves_other _ _ _ _ _ _ (by omega)
    · intro m
      by_cases hmn : m = n
      · subst hmn
        exact .inr ⟨size_self h0 h hs, hwn⟩
      · rcases i2 m with h | ⟨h1, h2⟩
        · rw [h]
          exact .inl (saves_other _ _ _ _ _ _ hmn)
        · exact .inr ⟨h1.double, hlift m h1 h2⟩
    · intro hr m hm
      rcases size_cases hm with rfl | h'
      · obtain ⟨ts', st, e, hfin⟩ := k3 rfl
        exact ⟨hwn, ts', st, (i1 m (by omega)).trans e, hfin⟩
      · exact ⟨hlift m h' (i3 hr m h').1, (i3 hr m h').2⟩

theorem all_good {j : Job} {n : Nat} {files files' : OFiles} (hf : GoodFiles files)
    (h : ∀ m, files' m = files m ∨ (Size j n m ∧ Written j files files' m)) : GoodFiles files' := by
  intro m v hv
  rcases h m with h | ⟨-, h⟩
  · exact hf m v (by rw [← h]; exact hv)
  · exact written_good h hv

theorem all_exists {j : Job} (he : Usable j.env) (hsmall : j.env.mid.flatten.length < 2 ^ 32) (hmax : j.maxTokens ≤ 65536)
    (hfuel : j.maxTokens ≤ j.fuel) : ∀ (d : Nat) {n : Nat} {files : OFiles}, j.maxTokens + 1 - n ≤ d → 0 < n →
    GoodFiles files → ∃ r files', OptimizeAll j n files r files' := by
  intro d
  induction d with
  | zero => intro n files hd h0 hf; exact ⟨_, _, .done (by omega)⟩
  | succ d ih =>
    intro n files hd h0 hf
    by_cases hn : n ≤ j.maxTokens
    · obtain ⟨b, hb⟩ := blockFor_some (fuel := j.fuel) h0 (by omega)
      cases hs : skips j.raw n with
      | true =>
        obtain ⟨r, files', h⟩ := ih (n := n * 2) (files := files) (by omega) (by omega) hf
        exact ⟨r, files', .skip hn hb hs h⟩
      | false =>
        obtain ⟨ts, m, g1, g2, g3, g4, g5, g6⟩ := starting hf h0 []
        have hwp := one_size he hsmall hmax hfuel hn hb g2 g3 g4 h0
        obtain ⟨r, w, hr⟩ := wp_total he _ (w := World.start) hwp (worldOk_start _ _)
        cases r with
        | error e => exact ⟨_, _, .fail hn hb hs g1 hr⟩
        | ok u =>
          cases u
          obtain ⟨⟨k1, k2, k3⟩, -⟩ := wp_sound he hr hwp (worldOk_start _ _)
          have hf' : GoodFiles (files.saves j.fl j.size j.processing n w.saved) := by
            intro m' v hv
            by_cases hmn : m' = n
            · subst hmn
              have hne : w.saved ≠ [] := by
                intro hc
                obtain ⟨e, he'⟩ := k2 hc
                cases he'
              obtain ⟨q, hq, e, -⟩ := saves_self j.fl j.size j.processing m' w.saved files hne
              obtain ⟨a1, a2, a3, a4, a5⟩ := k1.each q hq
              rw [hv] at e
              exact ⟨q.1, ⟨_, _, _, _, Option.some.inj e⟩, a1, a2, a3, a4⟩
            · rw [saves_other _ _ _ _ _ _ hmn] at hv
              exact hf m' v hv
          obtain ⟨r', files', h⟩ := ih (n := n * 2) (by omega) (by omega) hf'
          exact ⟨r', files', .next hn hb hs g1 hr h⟩
    · exact ⟨_, _, .done (by omega)⟩

end Tokens.Old
