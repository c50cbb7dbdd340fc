import Verif.Proofs.Json2
import Verif.Proofs.Accounting

/-! Loading what was saved; the cache. -/

set_option linter.unusedSimpArgs false
set_option linter.unusedVariables false

namespace Tokens
open Spec TokenSet

theorem loadTokens_eq (ts : TokenSet) (toks : List Token) :
    loadTokens ts (toks.map Token.toJson) = ts.addTokens (toks.filterMap tokenText) := by
  induction toks generalizing ts with
  | nil => rfl
  | cons t toks ih =>
    rw [List.map_cons, loadTokens, parseToken_toJson]
    simp only [R.ok_bind]
    cases t with
    | ext n => rw [List.filterMap_cons_none rfl]; exact ih ts
    | str s =>
      rw [List.filterMap_cons_some (show tokenText (.str s) = some s from rfl), addTokens]
      simp only
      cases ts.addToken s with
      | error e => rfl
      | ok r => simp only [R.ok_bind]; exact ih r.1

theorem isNumber_toJson (t : Token) : t.toJson.isNumber = (tokenText t).isNone := by
  cases t with
  | ext n => rfl
  | str b =>
    simp only [Token.toJson, tokenText, Option.isNone_some]
    unfold bytesToJson
    split <;> rfl

theorem countNumbers (toks : List Token) :
    ((toks.map Token.toJson).filter Json.isNumber).length = extCount toks := by
  induction toks with
  | nil => rfl
  | cons t toks ih =>
    rw [List.map_cons, List.filter_cons, isNumber_toJson]
    cases t with
    | ext n => simpa [tokenText, extCount] using ih
    | str b => simpa [tokenText, extCount] using ih

theorem findIdx_getD {tokens : List Token} (hnd : tokens.Nodup) {i : Nat} (hi : i < tokens.length) :
    tokens.findIdx? (fun x => x == tokens.getD i (.ext 0)) = some i := by
  rw [List.findIdx?_eq_some_iff_getElem]
  refine ⟨hi, ?_, ?_⟩
  · simp [List.getD_eq_getElem?_getD, List.getElem?_eq_getElem hi]
  · intro j hj
    simp only [List.getD_eq_getElem?_getD, List.getElem?_eq_getElem hi, Option.getD_some, beq_iff_eq]
    intro h
    have := List.getElem_inj hnd |>.1 h
    omega

theorem loadListed_ok {tokens : List Token} (hnd : tokens.Nodup) (l : List Nat)
    (h : ∀ i ∈ l, i < tokens.length) :
    loadListed tokens ((listedOf tokens l).map Token.toJson) = .ok l := by
  induction l with
  | nil => rfl
  | cons i l ih =>
    have ih := ih (fun j hj => h j (by simp [hj]))
    simp only [listedOf, List.map_cons] at ih ⊢
    rw [loadListed, parseToken_toJson]
    simp only [R.ok_bind]
    rw [findIdx_getD hnd (h i (by simp))]
    simp only [unwrapR, R.ok_bind]
    rw [ih]
    rfl

theorem loadSeqs_ok (ts : TokenSet) (hnd : ts.tokens.Nodup) (l : List Sequence)
    (h : ∀ q ∈ l, ∀ i ∈ q.tokens, i < ts.tokens.length) :
    loadSeqs ts (l.map (seqJson ts.tokens)) = .ok { ts with sequences := ts.sequences ++ l } := by
  induction l generalizing ts with
  | nil => simp [loadSeqs]
  | cons q l ih =>
    rw [List.map_cons, loadSeqs]
    have h1 : (seqJson ts.tokens q).index "string" = bytesToJson q.string := rfl
    have h2 : (seqJson ts.tokens q).index "tokens" =
      .arr ((listedOf ts.tokens q.tokens).map Token.toJson) := rfl
    rw [h1, h2, parseToken_bytesToJson]
    simp only [R.ok_bind, Json.asArray, unwrapR]
    rw [loadListed_ok hnd q.tokens (h q (by simp))]
    simp only [R.ok_bind]
    have := ih (ts.addSequence q.string q.tokens) hnd (fun x hx => h x (by simp [hx]))
    simp only [TokenSet.addSequence] at this ⊢
    rw [this]
    simp

theorem nodup_extTokens {n : Nat} (h : n < 256) : (extTokens n).Nodup := by
  unfold extTokens List.Nodup
  rw [List.pairwise_map]
  refine List.Pairwise.imp_of_mem ?_ (List.nodup_range (n := n))
  intro a b ha hb hne hab
  rw [List.mem_range] at ha hb
  have h0 : UInt8.ofNat a = UInt8.ofNat b := by simpa using hab
  have := congrArg UInt8.toNat h0
  rw [UInt8.toNat_ofNat_of_lt' (show a < 256 by omega), UInt8.toNat_ofNat_of_lt' (show b < 256 by omega)] at this
  exact hne this

theorem extCount_append (a b : List Token) : extCount (a ++ b) = extCount a + extCount b := by
  induction a with
  | nil => simp [extCount]
  | cons x a ih => cases x <;> simp only [List.cons_append, extCount, ih] <;> omega

theorem extCount_str (l : List Bytes) : extCount (l.map Token.str) = 0 := by
  induction l with
  | nil => rfl
  | cons s l ih => simpa [extCount] using ih

theorem extCount_extTokens (n : Nat) : extCount (extTokens n) = n := by
  have key : ∀ l : List Nat, extCount (l.map (fun i => Token.ext (UInt8.ofNat i))) = l.length := by
    intro l
    induction l with
    | nil => rfl
    | cons x l ih => simp [extCount, ih]
  have := key (List.range n)
  rwa [List.length_range] at this

theorem regular_tokens_nodup {ts : TokenSet} (h : Regular ts) : ts.tokens.Nodup := by
  rw [h.tokens, List.nodup_append]
  refine ⟨nodup_extTokens h.few, ?_, ?_⟩
  · rw [List.Nodup, List.pairwise_map]
    exact h.distinct.imp (fun hne hab => hne (by simpa using hab))
  · intro a ha b hb
    obtain ⟨i, _, rfl⟩ := List.mem_map.1 ha
    obtain ⟨s, _, rfl⟩ := List.mem_map.1 hb
    simp

theorem regular_extCount {ts : TokenSet} (h : Regular ts) : extCount ts.tokens = ts.nExt := by
  rw [h.tokens, extCount_append, extCount_str]
  exact extCount_extTokens _

theorem regular_identified {ts : TokenSet} (h : Regular ts) : Identified ts :=
  ⟨regular_tokens_nodup h, (regular_extCount h).symm, h.long⟩

/-- The set loading starts from: the byte encodings that the constructor of the type puts in. -/
def defaultSeqs : TokenType → List Sequence
  | .bits1 => (List.range 256).map (fun c => ⟨[UInt8.ofNat c], (digitLoop 1 1 8 c).reverse⟩)
  | .bits2 => (List.range 256).map (fun c => ⟨[UInt8.ofNat c], (digitLoop 3 2 4 c).reverse⟩)
  | .bits4 => (List.range 256).map (fun c => ⟨[UInt8.ofNat c], [c >>> 4, c &&& 15]⟩)
  | .bytes => []
  | .bytesHuff => []

theorem startSet_eq {ty : TokenType} {n : Nat} (p : Processing) (split : Bool) (hn : n < 256)
    (hreq : ∀ m, requiredExts ty = some m → n = m) :
    startSet ty n p split = .ok ⟨n, ty, p, split, extTokens n, defaultSeqs ty⟩ := by
  cases ty with
  | bits1 => have := hreq 2 rfl; subst this; rw [startSet]; simp only [decide_true, rassert_true, R.ok_bind]; exact newBits1_eq p split
  | bits2 => have := hreq 4 rfl; subst this; rw [startSet]; simp only [decide_true, rassert_true, R.ok_bind]; exact newBits2_eq p split
  | bits4 => have := hreq 16 rfl; subst this; rw [startSet]; simp only [decide_true, rassert_true, R.ok_bind]; exact newBits4_eq p split
  | bytes => have := hreq 0 rfl; subst this; rfl
  | bytesHuff =>
    rw [startSet, TokenSet.new, decide_eq_true hn]
    rfl

/-- What loading a saved regular set gives. -/
theorem fromJson_jsonOf {ts : TokenSet} (h : Regular ts) :
    fromJson (jsonOf ts) = .ok { ts with
      splitParagraphs := false,
      sequences := (defaultSeqs ts.tokenType).filter (fun q => !(strTokens ts).contains q.string) ++
        ts.sequences } := by
  have hf : ts.sequences.filter (fun q => decide (q.tokens.length > 1)) = ts.sequences :=
    List.filter_eq_self.2 (fun q hq => by have := h.long q hq; simp; omega)
  obtain ⟨nExt, ty, p, split, toks, seqs⟩ := ts
  -- fields of the JSON value
  have e1 : (jsonOf ⟨nExt, ty, p, split, toks, seqs⟩).index "tokens" = .arr (toks.map Token.toJson) := by
    unfold jsonOf; split <;> rfl
  have e2 : parseProcessing (jsonOf ⟨nExt, ty, p, split, toks, seqs⟩) = .ok p := by
    have : (jsonOf ⟨nExt, ty, p, split, toks, seqs⟩).index "processing" = .str p.text := by
      unfold jsonOf; split <;> rfl
    unfold parseProcessing
    rw [this]
    cases p <;> rfl
  have e3 : parseType (jsonOf ⟨nExt, ty, p, split, toks, seqs⟩) = .ok ty := by
    have : (jsonOf ⟨nExt, ty, p, split, toks, seqs⟩).index "type" = .str ty.text := by
      unfold jsonOf; split <;> rfl
    unfold parseType
    rw [this]
    cases ty <;> rfl
  have e4 : parseSplit (jsonOf ⟨nExt, ty, p, split, toks, seqs⟩) = .ok false := by
    have : (jsonOf ⟨nExt, ty, p, split, toks, seqs⟩).get? "split_paragraph" = none := by
      unfold jsonOf; split <;> rfl
    unfold parseSplit
    rw [this]
  have hnd := regular_tokens_nodup h
  have hext := regular_extCount h
  have htoks := h.tokens
  have hne := h.nonempty
  have hr := h.inRange
  simp only at hf hnd hext htoks hr
  unfold fromJson
  rw [e1]
  simp only [Json.asArray, unwrapR, R.ok_bind]
  rw [e2]; simp only [R.ok_bind]
  rw [e3]; simp only [R.ok_bind]
  rw [e4]; simp only [R.ok_bind]
  rw [countNumbers, hext, startSet_eq p false h.few h.required]
  simp only [R.ok_bind]
  rw [loadTokens_eq, addTokens_eq _ _ (by exact hne)]
  simp only [R.ok_bind]
  have htk : extTokens nExt ++ (toks.filterMap tokenText).map Token.str = toks := htoks.symm
  rw [htk]
  by_cases hs : seqs.isEmpty = true
  · have e5 : jsonOf ⟨nExt, ty, p, split, toks, seqs⟩ = .obj [("processing".toList, .str p.text),
        ("split_paragraphs".toList, .bool split), ("tokens".toList, .arr (toks.map Token.toJson)),
        ("type".toList, .str ty.text)] := by
      unfold jsonOf; simp only; rw [hf, if_pos hs]; rfl
    rw [e5]
    simp only [Json.asObject, unwrapR, R.ok_bind]
    rw [if_neg (by intro hc; exact absurd hc (by
      rw [show List.lookup "sequences".toList [("processing".toList, Json.str p.text),
        ("split_paragraphs".toList, Json.bool split), ("tokens".toList, Json.arr (toks.map Token.toJson)),
        ("type".toList, Json.str ty.text)] = none from rfl]; simp))]
    rw [List.isEmpty_iff.1 hs]
    simp [strTokens]
  · have e5 : jsonOf ⟨nExt, ty, p, split, toks, seqs⟩ = .obj [("processing".toList, .str p.text),
        ("sequences".toList, .arr (seqs.map (seqJson toks))),
        ("split_paragraphs".toList, .bool split), ("tokens".toList, .arr (toks.map Token.toJson)),
        ("type".toList, .str ty.text)] := by
      unfold jsonOf; simp only; rw [hf, if_neg hs]; rfl
    rw [e5]
    simp only [Json.asObject, unwrapR, R.ok_bind]
    have e6 : List.lookup "sequences".toList [("processing".toList, Json.str p.text),
        ("sequences".toList, Json.arr (seqs.map (seqJson toks))),
        ("split_paragraphs".toList, Json.bool split), ("tokens".toList, Json.arr (toks.map Token.toJson)),
        ("type".toList, Json.str ty.text)] = some (Json.arr (seqs.map (seqJson toks))) := rfl
    have e7 : Json.index (.obj [("processing".toList, Json.str p.text),
        ("sequences".toList, Json.arr (seqs.map (seqJson toks))),
        ("split_paragraphs".toList, Json.bool split), ("tokens".toList, Json.arr (toks.map Token.toJson)),
        ("type".toList, Json.str ty.text)]) "sequences" = Json.arr (seqs.map (seqJson toks)) := rfl
    rw [e6, if_pos (Option.isSome_some)]
    show (do
      let seqs ← unwrapR (some (seqs.map (seqJson toks)))
      _ : R TokenSet) = _
    simp only [unwrapR, R.ok_bind]
    exact loadSeqs_ok ⟨nExt, ty, p, false, toks, _⟩ hnd seqs hr

/-! ### statistics files -/

/-- Loading ignores the "stats" member. -/
theorem fromJson_stats (l1 l2 : List (Text × Json)) (x : Json) :
    fromJson (.obj (l1 ++ ("stats".toList, x) :: l2)) = fromJson (.obj (l1 ++ l2)) := by
  have hl : ∀ k : Text, (k == "stats".toList) = false →
      (l1 ++ ("stats".toList, x) :: l2).lookup k = (l1 ++ l2).lookup k := by
    intro k hk
    rw [List.lookup_append, List.lookup_append, List.lookup_cons, hk]
  have hi : ∀ k : String, (k.toList == "stats".toList) = false →
      (Json.obj (l1 ++ ("stats".toList, x) :: l2)).index k = (Json.obj (l1 ++ l2)).index k := by
    intro k hk
    show (List.lookup _ _).getD _ = (List.lookup _ _).getD _
    rw [hl _ hk]
  unfold fromJson parseProcessing parseType parseSplit
  have hg : (Json.obj (l1 ++ ("stats".toList, x) :: l2)).get? "split_paragraph" =
      (Json.obj (l1 ++ l2)).get? "split_paragraph" := by
    unfold Json.get?
    exact hl _ rfl
  rw [hi "tokens" rfl, hi "processing" rfl, hi "type" rfl, hi "fallback_bits" rfl, hg, hi "sequences" rfl]
  simp only [Json.asObject, unwrapR, R.ok_bind, hl _ (show ("sequences".toList == "stats".toList) = false from rfl)]

/-! ### the cache -/

open Batch

/-- What a cache entry must be. -/
def CacheOk (sampler : SamplerData) (n : Option Nat) (nthreads : Nat) (c : Cache) : Prop :=
  ∀ key st, c key = some st → ∃ ts full, Identified ts ∧ SeqsInRange ts ∧ getKey ts = .ok key ∧
    TokenizeFile ts sampler n nthreads full ∧ st = { full with pairCounts := [] }

theorem cacheOk_insert {sampler : SamplerData} {n : Option Nat} {nthreads : Nat} {c : Cache}
    (h : CacheOk sampler n nthreads c) {ts : TokenSet} {key : Text} {full : TokenStats}
    (h1 : Identified ts) (h2 : SeqsInRange ts) (h3 : getKey ts = .ok key)
    (h4 : TokenizeFile ts sampler n nthreads full) :
    CacheOk sampler n nthreads (Cache.insert c key { full with pairCounts := [] }) := by
  intro k st hk
  unfold Cache.insert at hk
  split at hk
  · next e =>
    subst e
    simp at hk
    exact ⟨ts, full, h1, h2, h3, h4, hk.symm⟩
  · exact h k st hk

theorem sort_inRange {ts ts' : TokenSet} (h : ts.sort = .ok ts') : SeqsInRange ts' :=
  (sort_sameSet h).2.2.2

theorem history_ok {sampler : SamplerData} {n : Option Nat} {nthreads : Nat} {l : List TokenSet}
    {c : Cache} (h : History sampler n nthreads l c) (hl : ∀ ts ∈ l, Identified ts) :
    CacheOk sampler n nthreads c := by
  induction h with
  | new => intro k st h; simp at h
  | stats _ hg ih =>
    have ih := ih (fun ts hts => hl ts (by simp [hts]))
    cases hg with
    | hit => exact ih
    | miss hs hk hc ht =>
      exact cacheOk_insert ih (identified_sort (hl _ (by simp)) hs) (sort_inRange hs) hk ht
  | pairs _ hg ih =>
    have ih := ih (fun ts hts => hl ts (by simp [hts]))
    cases hg with
    | mk hs ht hk =>
      exact cacheOk_insert ih (identified_sort (hl _ (by simp)) hs) (sort_inRange hs) hk ht

namespace Example

theorem grown_sorted_accepted {ts' : TokenSet} (h : grown.sort = .ok ts') :
    ∃ tk, FragmentTokenizer.new ts' = .ok tk := by
  have := tokenizable_perm (pieceStrings_sameSet (sort_sameSet h).1).symm grown_ok.1
  have h2 := FragmentTokenizer.new_ok_of this
  exact h2.imp fun _ h => h.1

theorem grown_strTokens :
    strTokens grown = [[97], [97, 98], [97, 98, 99], [98, 99, 100]] := by
  have h : strTokens grown = (extTokens 16).filterMap tokenText ++
      [[97], [97, 98], [97, 98, 99], [98, 99, 100]] := by
    unfold strTokens
    rw [show grown.tokens = extTokens 16 ++
      [.str [97], .str [97, 98], .str [97, 98, 99], .str [98, 99, 100]] from rfl, List.filterMap_append]
    rfl
  rw [h, extTokens_text]
  rfl

theorem bits4_seqs_long : ∀ q ∈ bits4.sequences, q.tokens.length = 2 := by
  intro q hq
  simp only [bits4, bitsSet, List.mem_map] at hq
  obtain ⟨c, _, rfl⟩ := hq
  rfl

theorem grown_regular : Regular grown where
  tokens := by rw [grown_strTokens]; rfl
  few := by decide
  required := by intro n h; have h16 : some 16 = some n := h; injection h16
  distinct := by rw [grown_strTokens]; decide
  nonempty := by rw [grown_strTokens]; decide
  inRange := grown_ok.2
  long := by
    intro q hq
    have := bits4_seqs_long q (List.mem_filter.1 hq).1
    omega

theorem grown_identified : Identified grown := regular_identified grown_regular

/-- A small set of type `byteshuff`. -/
def smallHuff : TokenSet :=
  ⟨2, .bytesHuff, .capsWords, true, [.ext 0, .ext 1, .str [97], .str [0xC3], .str [97, 98]],
    [⟨[99], [3, 0]⟩, ⟨[100], [3, 1, 0]⟩]⟩

theorem smallHuff_regular : Regular smallHuff where
  tokens := by decide
  few := by decide
  required := by intro n h; simp [smallHuff, requiredExts] at h
  distinct := by decide
  nonempty := by decide
  inRange := by unfold SeqsInRange; decide
  long := by decide

end Example
end Tokens
