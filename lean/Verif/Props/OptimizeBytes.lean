import Verif.Proofs.Huff5
import Verif.Proofs.Examples

/-!
# Properties C29 - C32: the byte optimizers

Read together with `Verif/Spec/Family.lean` and `Verif/Spec/ByteUse.lean`.
-/

namespace Tokens.Props
open Tokens Spec TokenSet OptimizeBytes

/-! ## C29 the bits optimizer: size -/

/-- **C29**.  On a set of the bits family, any counts, and `k ≤ 256` requested byte tokens besides
the ext tokens, the optimizer returns a set of the same family (so it is accepted and its sequences
are the positional codes) with the same header, exactly `k` byte tokens, the same long tokens and
nothing else. -/
theorem C29_simple_size (st : TokenStats) (k : Nat) (hk : k ≤ 256) (h : BitsFamily st.tokenSet)
    (hc : CountsFit st) :
    ∃ ts', simple st (st.tokenSet.nExt + k) = .ok ts' ∧ BitsFamily ts' ∧
      SameHeader ts' st.tokenSet ∧ (byteTokens ts').length = k ∧
      longTokens ts' = longTokens st.tokenSet ∧
      ts'.tokens.length = st.tokenSet.nExt + k + (longTokens st.tokenSet).length := by
  obtain ⟨ts', h1, h2, h3, h4, h5, h6, _⟩ := simple_spec h hc hk
  exact ⟨ts', h1, h2, h3, h4, h5, h6⟩

/-- **C29**.  Each byte without a token has exactly one sequence, and it lists the digits of the
byte. -/
theorem C29_simple_codes (st : TokenStats) (n len : Nat) (ts' : TokenSet) (h : BitsFamily st.tokenSet)
    (hc : CountsFit st) (hlen : bitsParams st.tokenSet.tokenType = some (st.tokenSet.nExt, len))
    (hok : simple st n = .ok ts') (b : UInt8) (hb : b ∉ byteTokens ts') :
    ∃ ds : List UInt8, ([b], ds.map (fun d => some (Token.ext d))) ∈ meaning ts' ∧
      (∀ l, ([b], l) ∈ meaning ts' → l = ds.map (fun d => some (Token.ext d))) ∧
      ds.length = len ∧ (∀ d ∈ ds, d.toNat < st.tokenSet.nExt) ∧
      horner st.tokenSet.nExt (ds.map UInt8.toNat) = b.toNat := by
  have hf : BitsFamily ts' ∧ SameHeader ts' st.tokenSet := by
    by_cases h1 : n < st.tokenSet.nExt
    · rw [simple_small h1] at hok; cases hok
    · obtain ⟨k, rfl⟩ : ∃ k, n = st.tokenSet.nExt + k := ⟨n - st.tokenSet.nExt, by omega⟩
      by_cases h2 : 256 < k
      · rw [simple_big h hc h2] at hok; cases hok
      · obtain ⟨ts'', e1, e2, e3, _⟩ := simple_spec h hc (k := k) (by omega)
        have : ts' = ts'' := Except.ok.inj (hok.symm.trans e1)
        rw [this]; exact ⟨e2, e3⟩
  obtain ⟨hf, hh⟩ := hf
  obtain ⟨len', hp, hcodes⟩ := hf.params
  rw [hh.tokenType, hh.nExt, hlen] at hp
  simp only [Option.some.injEq, Prod.mk.injEq, true_and] at hp
  subst hp
  have hm := hf.accepted.bytes b
  rcases List.mem_append.1 hm with hm | hm
  · exact absurd (mem_byteTokens.2 (mem_strTokens.1 hm)) hb
  · obtain ⟨q, hq, hs⟩ := List.mem_map.1 hm
    obtain ⟨b', ds, e, h1, h2, h3⟩ := hcodes (q.string, listed ts' q) (List.mem_map.2 ⟨q, hq, rfl⟩)
    simp only [Prod.mk.injEq] at e
    have hbb : b' = b := by rw [hs] at e; simpa using e.1.symm
    subst hbb
    rw [hh.nExt] at h2 h3
    refine ⟨ds, ?_, ?_, h1, h2, h3⟩
    · rw [← e.2, ← hs]; exact List.mem_map.2 ⟨q, hq, rfl⟩
    · intro l hl
      obtain ⟨q', hq', e'⟩ := List.mem_map.1 hl
      simp only [Prod.mk.injEq] at e'
      have hnd := (List.nodup_append.1 hf.accepted.nodup).2.1
      have : q' = q := by
        obtain ⟨i, hi, ei⟩ := List.mem_iff_getElem.1 hq
        obtain ⟨j, hj, ej⟩ := List.mem_iff_getElem.1 hq'
        have hij : i = j := by
          have hi' : i < (ts'.sequences.map (·.string)).length := by simpa using hi
          have hj' : j < (ts'.sequences.map (·.string)).length := by simpa using hj
          refine (List.getElem_inj hnd (h₀ := hi') (h₁ := hj')).1 ?_
          simp [ei, ej, hs, e'.1]
        subst hij
        rw [← ei, ← ej]
      rw [← e'.2, this, e.2]

/-- **C29**.  Outside the range `nExt .. nExt + 256` the optimizer panics. -/
theorem C29_simple_panics (st : TokenStats) (n : Nat) (h : BitsFamily st.tokenSet) (hc : CountsFit st)
    (hn : n < st.tokenSet.nExt ∨ st.tokenSet.nExt + 256 < n) : ∃ e, simple st n = .error e := by
  rcases hn with hn | hn
  · exact ⟨_, simple_small hn⟩
  · obtain ⟨k, rfl⟩ : ∃ k, n = st.tokenSet.nExt + k := ⟨n - st.tokenSet.nExt, by omega⟩
    exact ⟨_, simple_big h hc (by omega)⟩

/-! ## C30 the bits optimizer: optimality -/

/-- **C30**.  No other set of the same bits family with at most as many byte tokens needs fewer
output tokens for the single bytes counted. -/
theorem C30_simple_optimal (st : TokenStats) (k : Nat) (hk : k ≤ 256) (ts' other : TokenSet)
    (h : BitsFamily st.tokenSet) (hc : CountsFit st)
    (hok : simple st (st.tokenSet.nExt + k) = .ok ts')
    (ho : BitsFamily other) (hty : other.tokenType = st.tokenSet.tokenType)
    (hlen : (byteTokens other).length ≤ k) : bytesTotal ts' st ≤ bytesTotal other st :=
  simple_best h hc hk hok ho hty hlen

/-- `grown` is the bits4 set with the tokens "a", "ab", "abc" and "bcd". -/
theorem grown_bits : BitsFamily Example.grown := by
  have hb : BitsFamily Example.bits4 :=
    bitsSet_family (len := 2) (by decide) _ _ _ rfl (by decide +kernel)
  obtain ⟨ts', h1, h2, h3, h4, h5⟩ := addTokens_usable
    [[97], [97, 98], [97, 98, 99], [98, 99, 100]] Example.bits4 hb.toUsable (by decide) (by
      intro s hs
      refine ⟨by rintro rfl; simp at hs, Example.bits4_noStr s⟩)
  have : ts' = Example.grown := Except.ok.inj (h1.symm.trans Example.grown_eq)
  rw [← this]
  exact bits_of hb h2 h3

theorem grown_lists : byteTokens Example.grown = [97] ∧
    longTokens Example.grown = [[97, 98], [97, 98, 99], [98, 99, 100]] :=
  simple_byteTokens (n := 16) (l := [97]) (m := [[97, 98], [97, 98, 99], [98, 99, 100]])
    (by intro s hs; simp at hs; rcases hs with rfl | rfl | rfl <;> decide) rfl

/-- Counts for `grown`: every token was used 3 times, every sequence 5 times. -/
def grownStats : TokenStats :=
  { tokenSet := Example.grown, initialSize := none, scannedBytes := 0, totalTokens := 0
    tokenCounts := List.replicate Example.grown.tokens.length 3
    seqCounts := List.replicate Example.grown.sequences.length 5
    pairCounts := [] }

theorem grownStats_fit : CountsFit grownStats := ⟨by simp [grownStats], by simp [grownStats]⟩

-- the hypotheses of C29 and C30 hold for `grownStats`; "a" has a token and is replaced by a byte
-- that was used more often
example : ∃ ts', simple grownStats (16 + 1) = .ok ts' ∧ (byteTokens ts').length = 1 ∧
    longTokens ts' = [[97, 98], [97, 98, 99], [98, 99, 100]] ∧
    bytesTotal ts' grownStats ≤ bytesTotal Example.grown grownStats := by
  obtain ⟨ts', h1, h2, h3, h4, h5, h6⟩ := C29_simple_size grownStats 1 (by decide) grown_bits grownStats_fit
  refine ⟨ts', h1, h4, h5.trans grown_lists.2, ?_⟩
  exact C30_simple_optimal grownStats 1 (by decide) ts' Example.grown grown_bits grownStats_fit h1
    grown_bits rfl (Nat.le_of_eq (by rw [grown_lists.1]; rfl))

/-! ## C31 the Huffman-like byte sets -/

/-- **C31**.  For counts of all 256 bytes, all positive, at least one byte token and between 1 and
255 ext tokens, `optimize_bytes_tokenset` terminates without panic; the result is in the byteshuff
family and has the requested numbers of tokens. -/
theorem C31_bytes_tokenset (counts : Counts) (h : FullCounts counts) (nChar nExt : Nat)
    (p : Processing) (hc : 1 ≤ nChar) (hx : 1 ≤ nExt) (hx' : nExt < 256) :
    ∃ ts, bytesTokenset counts nChar nExt p = .ok ts ∧ HuffFamily ts ∧ ts.nExt = nExt ∧
      ts.processing = p ∧ (byteTokens ts).length = min nChar 256 ∧ longTokens ts = [] ∧
      ts.tokens.length = nExt + min nChar 256 := by
  have hag : Agrees (fun b => (counts.map Prod.snd).getD b.toNat 0) counts := by
    intro q hq
    obtain ⟨i, hi, rfl⟩ := List.mem_iff_getElem.1 hq
    have h1 : (counts.map Prod.fst)[i]? = some counts[i].1 := by
      rw [List.getElem?_map, List.getElem?_eq_getElem hi]; rfl
    rw [h.bytes] at h1
    have hi' : i < 256 := by rw [h.length] at hi; exact hi
    have h2 := allBytes_get (UInt8.ofNat i)
    rw [UInt8.toNat_ofNat_of_lt' (show i < 256 from hi')] at h2
    rw [h2] at h1
    have h3 : UInt8.ofNat i = counts[i].1 := Option.some.inj h1
    simp only
    rw [← h3, UInt8.toNat_ofNat_of_lt' (show i < 256 from hi'), List.getD_eq_getElem?_getD,
      List.getElem?_map, List.getElem?_eq_getElem hi]
    rfl
  obtain ⟨ts, tops, h1, h2, h3, h4⟩ := bytesTokenset_spec h hag hc hx hx' p
  obtain ⟨l1, l2⟩ := huffInv_lists h2
  refine ⟨ts, h1, h4, h2.exts, h2.processing, by rw [l1, h3], l2, ?_⟩
  rw [h2.tokens]
  simp [extTokens, h3]

/-- **C31**.  `HuffOptimizer::optimize_bytes` on an accepted set whose sequences all spell single
bytes, any counts, any requested size of at least 3. -/
theorem C31_huff (st : TokenStats) (n : Nat) (h : Tokenizable st.tokenSet) (hc : CountsFit st)
    (hs : ∀ q ∈ st.tokenSet.sequences, q.string.length = 1) (hn : 3 ≤ n) :
    ∃ ts', huff st n = .ok ts' ∧ HuffFamily ts' ∧ ts'.processing = st.tokenSet.processing ∧
      longTokens ts' = longTokens st.tokenSet ∧
      ts'.nExt + (byteTokens ts').length = min n 258 ∧
      ts'.tokens.length = min n 258 + (longTokens st.tokenSet).length := by
  obtain ⟨ts', h1, h2, h3, h4, h5, h6, h7, h8, h9⟩ := huff_spec h hc hs hn
  exact ⟨ts', h1, h2, h3, h5, h8, h9⟩

/-- **C31**.  In a set of the byteshuff family every byte has its own token or exactly one sequence,
not both. -/
theorem C31_each_byte_once (ts : TokenSet) (h : HuffFamily ts) (b : UInt8) :
    (Token.str [b] ∈ ts.tokens ∧ ∀ l, ([b], l) ∉ meaning ts) ∨
    (Token.str [b] ∉ ts.tokens ∧ ∃ l, ([b], l) ∈ meaning ts ∧ ∀ l', ([b], l') ∈ meaning ts → l' = l) := by
  have hnd := List.nodup_append.1 h.accepted.nodup
  by_cases hb : Token.str [b] ∈ ts.tokens
  · refine .inl ⟨hb, ?_⟩
    intro l hl
    obtain ⟨q, hq, e⟩ := List.mem_map.1 hl
    simp only [Prod.mk.injEq] at e
    exact hnd.2.2 [b] (mem_strTokens.2 hb) [b] (List.mem_map.2 ⟨q, hq, e.1⟩) rfl
  · refine .inr ⟨hb, ?_⟩
    rcases List.mem_append.1 (h.accepted.bytes b) with hm | hm
    · exact absurd (mem_strTokens.1 hm) hb
    · obtain ⟨q, hq, hs⟩ := List.mem_map.1 hm
      refine ⟨listed ts q, ?_, ?_⟩
      · rw [← hs]; exact List.mem_map.2 ⟨q, hq, rfl⟩
      · intro l' hl'
        obtain ⟨q', hq', e'⟩ := List.mem_map.1 hl'
        simp only [Prod.mk.injEq] at e'
        obtain ⟨i, hi, ei⟩ := List.mem_iff_getElem.1 hq
        obtain ⟨j, hj, ej⟩ := List.mem_iff_getElem.1 hq'
        have hij : i = j := by
          have hi' : i < (ts.sequences.map (·.string)).length := by simpa using hi
          have hj' : j < (ts.sequences.map (·.string)).length := by simpa using hj
          refine (List.getElem_inj hnd.2.1 (h₀ := hi') (h₁ := hj')).1 ?_
          simp [ei, ej, hs, e'.1]
        subst hij
        rw [← e'.2, ← ei, ← ej]

/-- **C31**.  Fewer than 3 requested tokens always panic. -/
theorem C31_huff_small_panics (st : TokenStats) (n : Nat) (hn : n < 3) : ∃ e, huff st n = .error e :=
  huff_small st hn

-- the optimizer run on the counts of the set `grown`, with 40 tokens
example : Tokenizable grownStats.tokenSet ∧ CountsFit grownStats ∧
    (∀ q ∈ grownStats.tokenSet.sequences, q.string.length = 1) := by
  refine ⟨grown_bits.accepted, grownStats_fit, ?_⟩
  intro q hq
  obtain ⟨_, _, hcodes⟩ := grown_bits.params
  obtain ⟨b, ds, e, _⟩ := hcodes (q.string, listed Example.grown q) (List.mem_map.2 ⟨q, hq, rfl⟩)
  simp only [Prod.mk.injEq] at e
  rw [e.1]; rfl

example : FullCounts (tab (fun b => b.toNat + 1)) := tab_full (fun _ => by omega)

/-! ## C32 the groups -/

/-- **C32**.  `optimize_splits` cuts strictly ordered positive counts into consecutive non-empty
groups, as many as asked for (or one per byte if there are fewer bytes); each split names the first
byte of its group and a byte of the group with the largest count. -/
theorem C32_groups (counts : Counts) (parts : Nat) (hp : 1 ≤ parts)
    (hs : counts.Pairwise (fun a b => a.1 < b.1)) :
    ∃ (splits : List CharsSplit) (groups : List Counts), optimizeSplits counts parts = .ok splits ∧
      groups.flatten = counts ∧ groups.length = min parts counts.length ∧
      splits.length = groups.length ∧
      ∀ (i : Nat) (g : Counts) (s : CharsSplit), groups[i]? = some g → splits[i]? = some s →
        g.head?.map Prod.fst = some s.lo ∧ (s.top, s.topCount) ∈ g ∧ ∀ q ∈ g, q.2 ≤ s.topCount := by
  obtain ⟨nodes, h1, h2, h3⟩ := optimizeSplits_spec counts hp
  refine ⟨_, nodes.map leaves, h1, ?_, by simpa using h2, by simp, ?_⟩
  · rw [← h3, List.flatMap_def]
  · intro i g s hg hsp
    rw [List.getElem?_map] at hg hsp
    cases hn : nodes[i]? with
    | none => rw [hn] at hg; simp at hg
    | some n =>
      rw [hn] at hg hsp
      simp at hg hsp
      subst hg hsp
      have hmem := List.mem_of_getElem? hn
      have hsub : (leaves n).Sublist counts := by
        rw [← h3, List.flatMap_def]
        exact List.sublist_flatten_of_mem (List.mem_map.2 ⟨n, hmem, rfl⟩)
      obtain ⟨⟨q, r, e, hlo⟩, ht, hmax⟩ := node_spec n (hs.sublist hsub)
      exact ⟨by rw [e, hlo]; rfl, ht, hmax⟩

/-- **C32**.  Zero parts panic. -/
theorem C32_zero_parts_panic (counts : Counts) (h : counts ≠ []) :
    ∃ e, optimizeSplits counts 0 = .error e := optimizeSplits_zero counts h

/-- **C32**.  The more frequent byte of a group has the shorter code: if the code of byte `x` is the
beginning of the code of byte `y`, then `x` was counted at least as often as `y`. -/
theorem C32_leader_most_frequent (st : TokenStats) (n : Nat) (h : Tokenizable st.tokenSet)
    (hc : CountsFit st) (hs : ∀ q ∈ st.tokenSet.sequences, q.string.length = 1) (hn : 3 ≤ n)
    (ts' : TokenSet) (hok : huff st n = .ok ts') (x y : UInt8) (cx cy : List (Option Token))
    (hx : HasCode ts' x cx) (hy : HasCode ts' y cy) (hp : cx <+: cy) :
    byteUses st y ≤ byteUses st x := huff_code_order h hc hs hn hok hx hy hp

-- three bytes into two groups: the two neighbours with the smaller sum are merged
example : optimizeSplits [(97, 3), (98, 2), (99, 7)] 2 =
    .ok [{ lo := 97, top := 97, topCount := 3 }, { lo := 99, top := 99, topCount := 7 }] := rfl

example : ([(97, 3), (98, 2), (99, 7)] : Counts).Pairwise (fun a b => a.1 < b.1) := by decide

end Tokens.Props
