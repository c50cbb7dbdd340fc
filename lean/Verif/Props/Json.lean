import Verif.Proofs.Json3
import Verif.Props.Batch

/-!
# Properties C10, C11, C17 - C19: cache and saved token sets

Read together with `Verif/Spec/Saved.lean`.
-/

namespace Tokens.Props
open Tokens Spec TokenSet Batch

/-- **C10** (`get_stats`).  After any history of calls on one cache, the result of `get_stats` is
exactly what tokenizing the sorted set sequentially from scratch gives, without the pair counts. -/
theorem C10_get_stats_transparent (sampler : SamplerData) (n : Option Nat) (nthreads : Nat)
    (hN : 0 < nthreads) (l : List TokenSet) (c c' : Cache) (hl : ∀ t ∈ l, Identified t)
    (hh : History sampler n nthreads l c) (ts : TokenSet) (hts : Identified ts) (st : TokenStats)
    (hg : GetStats sampler n nthreads c ts c' st) :
    ∃ ts' full, ts.sort = .ok ts' ∧ tokenizeFileSync ts' sampler.samples n = .ok full ∧
      st = full.cloneWithoutPairs := by
  cases hg with
  | hit hs hk hc =>
    obtain ⟨t, full, h1, h2, h3, h4, h5⟩ := history_ok hh hl _ st hc
    have := getKey_inj (identified_sort hts hs) h1 (sort_inRange hs) h2 hk h3
    subst this
    exact ⟨_, full, hs, C07_tokenize_file _ h2 _ n nthreads hN _ h4, h5⟩
  | miss hs hk hc ht =>
    exact ⟨_, _, hs, C07_tokenize_file _ (sort_inRange hs) _ n nthreads hN _ ht, rfl⟩

/-- **C10** (`get_stats_with_pairs`).  Likewise, with the pair counts. -/
theorem C10_get_stats_with_pairs_transparent (sampler : SamplerData) (n : Option Nat) (nthreads : Nat)
    (hN : 0 < nthreads) (c c' : Cache) (ts : TokenSet) (st : TokenStats)
    (hg : GetStatsWithPairs sampler n nthreads c ts c' st) :
    ∃ ts', ts.sort = .ok ts' ∧ tokenizeFileSync ts' sampler.samples n = .ok st := by
  cases hg with
  | mk hs ht hk =>
    exact ⟨_, hs, C07_tokenize_file _ (sort_inRange hs) _ n nthreads hN _ ht⟩

/-- **C10** (the calls return).  For data small enough for the sequential path and a set whose
sorted form is accepted by the tokenizer, both calls return. -/
theorem C10_calls_return (sampler : SamplerData) (hsmall : sampler.totalSize < 2 ^ 25)
    (n : Option Nat) (nthreads : Nat) (c : Cache) (ts ts' : TokenSet) (hs : ts.sort = .ok ts')
    (hacc : ∃ tk, FragmentTokenizer.new ts' = .ok tk) :
    (∃ c' st, GetStats sampler n nthreads c ts c' st) ∧
    ∃ c' st, GetStatsWithPairs sampler n nthreads c ts c' st := by
  have hr := sort_inRange hs
  obtain ⟨tk, hn⟩ := hacc
  obtain ⟨d, hw⟩ := exists_work hn hr
  obtain ⟨st, h1, _⟩ := sync_ok hn hw sampler.samples n
  have ht : TokenizeFile ts' sampler n nthreads st := .sync (by simpa using hsmall) h1
  have hk : getKey ts' = .ok (jsonOf ts').render := by
    unfold getKey; rw [toJson_eq ts' hr]; rfl
  refine ⟨?_, _, _, .mk hs ht hk⟩
  cases hc : c (jsonOf ts').render with
  | none => exact ⟨_, _, .miss hs hk hc ht⟩
  | some st' => exact ⟨_, _, .hit hs hk hc⟩

-- a history of two calls exists, for a set with long tokens and sequences
example : ∃ c, History ⟨[[97, 98], [99]], 3⟩ none 4 [Example.grown, Example.grown] c ∧
    Identified Example.grown := by
  obtain ⟨ts', hs⟩ := (sort_ok_iff Example.grown).2 Example.grown_ok.2
  have hacc : ∃ tk, FragmentTokenizer.new ts' = .ok tk := Example.grown_sorted_accepted hs
  obtain ⟨⟨c1, st1, h1⟩, _⟩ := C10_calls_return ⟨[[97, 98], [99]], 3⟩ (by decide) none 4
    (fun _ => none) Example.grown ts' hs hacc
  obtain ⟨_, c2, st2, h2⟩ := C10_calls_return ⟨[[97, 98], [99]], 3⟩ (by decide) none 4
    c1 Example.grown ts' hs hacc
  exact ⟨c2, .pairs (.stats .new h1) h2, Example.grown_identified⟩

/-- **C11**.  Two token sets with the same cache key are the same set. -/
theorem C11_key_injective (a b : TokenSet) (ha : Identified a) (hb : Identified b) (k : Text)
    (h1 : getKey a = .ok k) (h2 : getKey b = .ok k) (ra : SeqsInRange a) (rb : SeqsInRange b) :
    a = b := getKey_inj ha hb ra rb h1 h2

-- the hypotheses are met by sets with long tokens and sequences, and there is a key
example : Identified Example.smallHuff ∧ SeqsInRange Example.smallHuff ∧
    ∃ k, getKey Example.smallHuff = .ok k :=
  ⟨regular_identified Example.smallHuff_regular, Example.smallHuff_regular.inRange,
    _, by unfold getKey; rw [toJson_eq _ Example.smallHuff_regular.inRange]; rfl⟩

/-- **C11** (limit).  Sequences of one token are not written, so two different sets can have the same
key; that is why `Identified` asks for two. -/
theorem C11_short_sequences_collide :
    ∃ a b : TokenSet, a ≠ b ∧ SeqsInRange a ∧ SeqsInRange b ∧ a.tokens.Nodup ∧
      ∃ k, getKey a = .ok k ∧ getKey b = .ok k :=
  ⟨⟨1, .bytesHuff, .raw, true, [.ext 0], [⟨[97], [0]⟩]⟩, ⟨1, .bytesHuff, .raw, true, [.ext 0], []⟩,
    by decide, by simp [SeqsInRange], by simp [SeqsInRange], by simp, _, rfl, rfl⟩

/-- **C18**.  Every token is read back as it was written. -/
theorem C18_token_roundtrip (t : Token) : parseToken t.toJson = .ok t := parseToken_toJson t

/-- **C18**.  Different tokens are written differently, also in the file. -/
theorem C18_token_injective (a b : Token) (h : a.toJson.render = b.toJson.render) : a = b :=
  toJson_inj (Json.render_inj (token_plain a) (token_plain b) h)

-- a string, invalid UTF-8, and an ext token
example : (Token.str [34, 0xC3, 0xA9]).toJson.render = "\"\\\"é\"".toList ∧
    (Token.str [0xA9]).toJson.render = "[169]".toList ∧ (Token.ext 7).toJson.render = "7".toList := by
  decide +kernel

/-- **C19**.  Names are equal exactly for equal number of tokens, processing and type. -/
theorem C19_name_iff (a b : TokenSet) :
    a.name = b.name ↔
      a.tokens.length = b.tokens.length ∧ a.processing = b.processing ∧ a.tokenType = b.tokenType := by
  constructor
  · exact name_inj
  · rintro ⟨h1, h2, h3⟩
    unfold TokenSet.name ntokens
    rw [h1, h2, h3]

example : (⟨2, .bytesHuff, .capsWords, true, [.ext 0, .ext 1], []⟩ : TokenSet).name =
    "tokens2_capswords_byteshuff".toList := by decide

/-- **C17** (the part that holds).  Loading a saved set of type `bytes` or `byteshuff`, or one in
which every byte has its own token, gives back everything except the paragraph flag, which becomes
`false`.  Missing: the flag (`C17_fails_flag`) and the other bits sets (`C17_fails_bits`). -/
theorem C17_roundtrip_partial (ts : TokenSet) (h : Regular ts)
    (hty : ts.tokenType = .bytes ∨ ts.tokenType = .bytesHuff ∨ ∀ b : UInt8, Token.str [b] ∈ ts.tokens) :
    ∃ v, ts.toJson = .ok v ∧ fromJson v = .ok { ts with splitParagraphs := false } := by
  refine ⟨jsonOf ts, toJson_eq ts h.inRange, ?_⟩
  rw [fromJson_jsonOf h]
  have : (defaultSeqs ts.tokenType).filter (fun q => !(strTokens ts).contains q.string) = [] := by
    rcases hty with hty | hty | hty
    · rw [hty]; rfl
    · rw [hty]; rfl
    · rw [List.filter_eq_nil_iff]
      intro q hq
      have : ∃ b, q.string = [b] := by
        cases ht : ts.tokenType <;> rw [ht] at hq
        · obtain ⟨c, _, rfl⟩ := List.mem_map.1 hq; exact ⟨_, rfl⟩
        · obtain ⟨c, _, rfl⟩ := List.mem_map.1 hq; exact ⟨_, rfl⟩
        · obtain ⟨c, _, rfl⟩ := List.mem_map.1 hq; exact ⟨_, rfl⟩
        · exact absurd hq (List.not_mem_nil)
        · exact absurd hq (List.not_mem_nil)
      obtain ⟨b, hb⟩ := this
      rw [hb]
      simpa using mem_strTokens.2 (hty b)
  rw [this]
  rfl

example : Regular Example.smallHuff ∧ Example.smallHuff.tokenType = .bytesHuff :=
  ⟨Example.smallHuff_regular, rfl⟩

/-- **C17** is violated for the flag: a saved set with the flag set never loads back as it was. -/
theorem C17_fails_flag (ts ts' : TokenSet) (h : Regular ts) (hflag : ts.splitParagraphs = true)
    (v : Json) (hv : ts.toJson = .ok v) (hl : fromJson v = .ok ts') : ts' ≠ ts := by
  rw [toJson_eq ts h.inRange] at hv
  simp at hv
  subst hv
  rw [fromJson_jsonOf h] at hl
  simp at hl
  rintro rfl
  have := congrArg TokenSet.splitParagraphs hl
  rw [hflag] at this
  simp at this

example : ∃ v ts', Regular Example.smallHuff ∧ Example.smallHuff.splitParagraphs = true ∧
    Example.smallHuff.toJson = .ok v ∧ fromJson v = .ok ts' :=
  ⟨_, _, Example.smallHuff_regular, rfl, toJson_eq _ Example.smallHuff_regular.inRange,
    fromJson_jsonOf Example.smallHuff_regular⟩

/-- **C17** is violated for bits sets: if the set is accepted by the tokenizer and some byte has no
token of its own, the loaded set is rejected by the tokenizer. -/
theorem C17_fails_bits (ts : TokenSet) (h : Regular ts)
    (hty : ts.tokenType = .bits1 ∨ ts.tokenType = .bits2 ∨ ts.tokenType = .bits4)
    (tk : FragmentTokenizer) (hacc : FragmentTokenizer.new ts = .ok tk)
    (b : UInt8) (hb : Token.str [b] ∉ ts.tokens) :
    ∃ v ts', ts.toJson = .ok v ∧ fromJson v = .ok ts' ∧ ∃ e, FragmentTokenizer.new ts' = .error e := by
  refine ⟨jsonOf ts, _, toJson_eq ts h.inRange, fromJson_jsonOf h, ?_⟩
  obtain ⟨_, ht⟩ := FragmentTokenizer.ok_of_new hacc
  have hbs : [b] ∉ strTokens ts := fun hc => hb (mem_strTokens.1 hc)
  have hin : [b] ∈ ts.sequences.map (·.string) := by
    have := ht.bytes b
    unfold pieceStrings at this
    rcases List.mem_append.1 this with h | h
    · exact absurd h hbs
    · exact h
  have hdef : ∃ q ∈ defaultSeqs ts.tokenType, q.string = [b] := by
    have hb' : b.toNat < 256 := b.toNat_lt
    rcases hty with hty | hty | hty <;> rw [hty] <;>
      exact ⟨_, List.mem_map.2 ⟨b.toNat, List.mem_range.2 hb', rfl⟩, by simp⟩
  cases hn : FragmentTokenizer.new { ts with
      splitParagraphs := false,
      sequences := (defaultSeqs ts.tokenType).filter (fun q => !(strTokens ts).contains q.string) ++
        ts.sequences } with
  | error e => exact ⟨e, rfl⟩
  | ok tk' =>
    exfalso
    obtain ⟨_, ht'⟩ := FragmentTokenizer.ok_of_new hn
    have hnd := ht'.nodup
    unfold pieceStrings at hnd
    have hnd := (List.nodup_append.1 hnd).2.1
    simp only [List.map_append] at hnd
    have := (List.nodup_append.1 hnd).2.2
    obtain ⟨q, hq, hqs⟩ := hdef
    refine this [b] ?_ [b] hin rfl
    refine List.mem_map.2 ⟨q, List.mem_filter.2 ⟨hq, ?_⟩, hqs⟩
    rw [hqs]
    simpa using hbs

-- `TokenSet::new_bits4` with four tokens added is such a set
example : Regular Example.grown ∧ Example.grown.tokenType = .bits4 ∧
    (∃ tk, FragmentTokenizer.new Example.grown = .ok tk) ∧ Token.str [98] ∉ Example.grown.tokens :=
  ⟨Example.grown_regular, rfl, (FragmentTokenizer.new_ok_of Example.grown_ok.1).imp fun _ h => h.1,
    fun h => by
      have := mem_strTokens.2 h
      rw [Example.grown_strTokens] at this
      revert this
      decide⟩

/-- **C17** (statistics files).  The file written for statistics loads as the file written for the
token set alone. -/
theorem C17_stats_file (ratio : Nat → Nat → Json) (st : TokenStats) (hr : SeqsInRange st.tokenSet) :
    ∃ v w, st.toJson ratio = .ok v ∧ st.tokenSet.toJson = .ok w ∧ fromJson v = fromJson w := by
  obtain ⟨l, hl⟩ : ∃ l, jsonOf st.tokenSet = .obj l := ⟨_, rfl⟩
  have hj : st.tokenSet.toJson = .ok (.obj l) := by rw [toJson_eq _ hr, hl]
  have hs : ∃ v, st.toJson ratio = .ok v ∧ ∃ x, v = .obj (l.takeWhile (fun kv => kv.1 != "tokens".toList) ++
      ("stats".toList, x) :: l.dropWhile (fun kv => kv.1 != "tokens".toList)) := by
    unfold TokenStats.toJson
    rw [hj]
    exact ⟨_, rfl, _, rfl⟩
  obtain ⟨v, h1, x, h2⟩ := hs
  refine ⟨v, .obj l, h1, hj, ?_⟩
  rw [h2, fromJson_stats, List.takeWhile_append_dropWhile]

end Tokens.Props
