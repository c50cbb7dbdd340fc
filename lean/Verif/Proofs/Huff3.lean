import Verif.Proofs.Huff2

/-! The token sets of the Huffman-like encodings. -/

set_option linter.unusedSimpArgs false
set_option linter.unusedVariables false

namespace Tokens
open Spec TokenSet OptimizeBytes

/-- The state of the loop of `optimize_bytes_tokenset` when the bytes of `pre` are done. -/
structure HuffInv (u : UInt8 → Nat) (nExt : Nat) (p : Processing) (pre : Counts) (ts : TokenSet) (tops : List UInt8) :
    Prop where
  exts : ts.nExt = nExt
  type : ts.tokenType = .bytesHuff
  processing : ts.processing = p
  split : ts.splitParagraphs = true
  tokens : ts.tokens = extTokens nExt ++ tops.map (fun b => Token.str [b])
  bytes : ∃ bs : List UInt8, ts.sequences.map (·.string) = bs.map (fun b => [b]) ∧
    (tops ++ bs).Perm (pre.map Prod.fst)
  codes : ∀ q ∈ ts.sequences, ∃ t ds, q.tokens = t :: ds ∧ ds ≠ [] ∧ nExt ≤ t ∧ t < ts.tokens.length ∧
    ∀ d ∈ ds, d < nExt
  nodup : (ts.sequences.map (·.tokens)).Nodup
  lead : ∀ q ∈ ts.sequences, ∀ b, q.string = [b] → ∀ t, q.tokens.head? = some t → ∀ c,
    ts.tokens[t]? = some (Token.str [c]) → u b ≤ u c
  order : ∀ q ∈ ts.sequences, ∀ q' ∈ ts.sequences, ∀ b b', q.string = [b] → q'.string = [b'] →
    q.tokens <+: q'.tokens → u b' ≤ u b
  short : ∀ q ∈ ts.sequences, q.tokens.length ≤ pre.length

theorem addSeqs_eq (ts : TokenSet) (top : Nat) (encs : List (UInt8 × List Nat)) :
    addSeqs ts top encs = { ts with
      sequences := ts.sequences ++ encs.map (fun e => { string := [e.1], tokens := top :: e.2 }) } := by
  unfold addSeqs
  rw [foldl_addSequence (fun (e : UInt8 × List Nat) => [e.1]) (fun e => top :: e.2)]

theorem HuffInv.group {u : UInt8 → Nat} {nExt : Nat} {p : Processing} {pre : Counts} {ts : TokenSet} {tops : List UInt8}
    (h : HuffInv u nExt p pre ts tops) {a b : Counts} {top : UInt8 × Nat}
    (ho : Ordered (pre ++ (a ++ top :: b))) {encs : List (UInt8 × List Nat)}
    (hg : GoodEnc u nExt (a ++ b) encs) (htop : ∀ q ∈ a ++ b, u q.1 ≤ u top.1) :
    ∃ ts1, ts.addToken [top.1] = .ok (ts1, ts.tokens.length) ∧
      HuffInv u nExt p (pre ++ (a ++ top :: b)) (addSeqs ts1 ts.tokens.length encs) (tops ++ [top.1]) := by
  refine ⟨_, addToken_eq ts [top.1] (by simp), ?_⟩
  obtain ⟨bs, hb1, hb2⟩ := h.bytes
  have hlen : ts.tokens.length = nExt + tops.length := by rw [h.tokens]; simp [extTokens]
  have hnot : top.1 ∉ pre.map Prod.fst := by
    intro hm
    obtain ⟨x, hx, e⟩ := List.mem_map.1 hm
    have := (List.pairwise_append.1 ho.sorted).2.2 x hx top (by simp)
    rw [e] at this
    exact UInt8.lt_irrefl _ this
  have hfilter : ts.sequences.filter (fun q => q.string != [top.1]) = ts.sequences := by
    rw [List.filter_eq_self]
    intro q hq
    simp only [bne_iff_ne, ne_eq]
    intro he
    have : q.string ∈ bs.map (fun b => [b]) := by rw [← hb1]; exact List.mem_map.2 ⟨q, hq, rfl⟩
    obtain ⟨x, hx, e⟩ := List.mem_map.1 this
    rw [← e] at he
    simp at he
    subst he
    exact hnot (hb2.mem_iff.1 (List.mem_append_right _ hx))
  rw [addSeqs_eq, hfilter]
  have hmem : ∀ q, q ∈ ts.sequences ++ encs.map (fun e => ({ string := [e.1], tokens := ts.tokens.length :: e.2 } : Sequence)) →
      (q ∈ ts.sequences ∧ ∃ t ds, q.tokens = t :: ds ∧ t < ts.tokens.length) ∨
      ∃ e ∈ encs, q = { string := [e.1], tokens := ts.tokens.length :: e.2 } := by
    intro q hq
    rcases List.mem_append.1 hq with hq | hq
    · obtain ⟨t, ds, h1, h2, h3, h4, h5⟩ := h.codes q hq
      exact .inl ⟨hq, t, ds, h1, h4⟩
    · obtain ⟨e, he, rfl⟩ := List.mem_map.1 hq
      exact .inr ⟨e, he, rfl⟩
  refine ⟨h.exts, h.type, h.processing, h.split, ?_, ?_, ?_, ?_, ?_, ?_, ?_⟩
  · show ts.tokens ++ _ = _
    rw [h.tokens]; simp
  · refine ⟨bs ++ encs.map Prod.fst, ?_, ?_⟩
    · show (ts.sequences ++ _).map _ = _
      rw [List.map_append, hb1, List.map_append, List.map_map, List.map_map]
      rfl
    · have h1 := hg.bytes
      rw [List.map_append] at h1
      have e1 : (tops ++ [top.1] ++ (bs ++ encs.map Prod.fst)).Perm
          ((tops ++ bs) ++ (top.1 :: encs.map Prod.fst)) := by
        simp only [List.append_assoc]
        refine List.Perm.append_left tops ?_
        simp only [List.cons_append, List.nil_append]
        exact List.perm_middle.symm
      refine e1.trans ?_
      rw [List.map_append]
      refine hb2.append ?_
      rw [List.map_append, List.map_cons]
      exact (h1.cons top.1).trans List.perm_middle.symm
  · intro q hq
    have hq' : q ∈ ts.sequences ∨ q ∈ encs.map (fun e => ({ string := [e.1], tokens := ts.tokens.length :: e.2 } : Sequence)) :=
      List.mem_append.1 hq
    have hl : ({ ts with tokens := ts.tokens ++ [Token.str [top.1]], sequences := ts.sequences ++ encs.map (fun e => { string := [e.1], tokens := ts.tokens.length :: e.2 }) } : TokenSet).tokens.length = ts.tokens.length + 1 := by simp
    rcases hq' with hq' | hq'
    · obtain ⟨t, ds, h1, h2, h3, h4, h5⟩ := h.codes q hq'
      exact ⟨t, ds, h1, h2, h3, by rw [hl]; omega, h5⟩
    · obtain ⟨e, he, rfl⟩ := List.mem_map.1 hq'
      exact ⟨_, e.2, rfl, hg.nonempty e he, by omega, by rw [hl]; omega, hg.digits e he⟩
  · show ((ts.sequences ++ _).map _).Nodup
    rw [List.map_append, List.nodup_append]
    refine ⟨h.nodup, ?_, ?_⟩
    · rw [List.map_map]
      rw [show List.map ((fun x : Sequence => x.tokens) ∘ fun (e : UInt8 × List Nat) => { string := [e.1], tokens := ts.tokens.length :: e.2 }) encs =
        (encs.map Prod.snd).map (fun t => ts.tokens.length :: t) by rw [List.map_map]; rfl]
      rw [List.Nodup, List.pairwise_map]
      exact hg.nodup.imp (fun hne he => hne (by simpa using he))
    · intro x hx y hy hxy
      subst hxy
      obtain ⟨q, hq, rfl⟩ := List.mem_map.1 hx
      obtain ⟨t, ds, h1, h2, h3, h4, h5⟩ := h.codes q hq
      rw [List.map_map] at hy
      obtain ⟨e, he, e1⟩ := List.mem_map.1 hy
      simp only [Function.comp_apply] at e1
      rw [h1] at e1
      simp at e1
      omega
  · intro q hq x hx t ht c hc
    have hc : (ts.tokens ++ [Token.str [top.1]])[t]? = some (Token.str [c]) := hc
    rcases hmem q hq with ⟨hq, t', ds, h1, h2⟩ | ⟨e, he, rfl⟩
    · have : t' = t := by rw [h1] at ht; simpa using ht
      subst this
      rw [List.getElem?_append_left h2] at hc
      exact h.lead q hq x hx t' ht c hc
    · simp at ht hx
      subst ht hx
      rw [List.getElem?_append_right (Nat.le_refl _)] at hc
      simp at hc
      rw [← hc]
      have : e.1 ∈ (a ++ b).map Prod.fst := hg.bytes.mem_iff.1 (List.mem_map.2 ⟨e, he, rfl⟩)
      obtain ⟨y, hy, e'⟩ := List.mem_map.1 this
      rw [← e']
      exact htop y hy
  · intro q hq q' hq' x x' hx hx' hpre
    rcases hmem q hq with ⟨hq, t, ds, h1, h2⟩ | ⟨e, he, rfl⟩
    · rcases hmem q' hq' with ⟨hq', t', ds', h1', h2'⟩ | ⟨e', he', rfl⟩
      · exact h.order q hq q' hq' x x' hx hx' hpre
      · rw [h1] at hpre
        obtain ⟨r, hr⟩ := hpre
        simp at hr
        omega
    · rcases hmem q' hq' with ⟨hq', t', ds', h1', h2'⟩ | ⟨e', he', rfl⟩
      · rw [h1'] at hpre
        obtain ⟨r, hr⟩ := hpre
        simp at hr
        omega
      · simp only [List.cons_prefix_cons] at hpre
        simp at hx hx'
        subst hx hx'
        exact hg.order e he e' he' hpre.2
  · intro q hq
    rcases hmem q hq with ⟨hq, _⟩ | ⟨e, he, rfl⟩
    · have := h.short q hq
      simp only [List.length_append, List.length_cons]
      omega
    · have := hg.short e he
      simp only [List.length_append, List.length_cons] at this ⊢
      omega

theorem tokensetLoop_spec {u : UInt8 → Nat} {nExt : Nat} (hx : 1 ≤ nExt) {p : Processing} (nodes : List HuffmanNode) :
    ∀ (pre : Counts) (ts : TokenSet) (tops : List UInt8),
    Ordered (pre ++ nodes.flatMap leaves) → Agrees u (pre ++ nodes.flatMap leaves) → HuffInv u nExt p pre ts tops →
    ∃ ts' tops', tokensetLoop (pre ++ nodes.flatMap leaves) nExt (nodes.map nodeToSplit) ts = .ok ts' ∧
      HuffInv u nExt p (pre ++ nodes.flatMap leaves) ts' tops' ∧
      tops' = tops ++ nodes.map (fun n => (nodeToSplit n).top) := by
  induction nodes with
  | nil =>
    intro pre ts tops _ _ h
    exact ⟨ts, tops, rfl, by simpa using h, by simp⟩
  | cons n nodes ih =>
    intro pre ts tops ho hag hinv
    rw [List.flatMap_cons] at ho hag ⊢
    have hn : Ordered (leaves n) := ho.sublist
      ((List.sublist_append_left _ _).trans (List.sublist_append_right _ _))
    have hpn : Ordered (pre ++ leaves n) := ho.sublist
      (.append (List.Sublist.refl _) (List.sublist_append_left _ _))
    have hagn : Agrees u (leaves n) := fun q hq =>
      hag q (List.mem_append_right _ (List.mem_append_left _ hq))
    rw [List.map_cons, tokensetLoop]
    by_cases hl : pre.length + (leaves n).length = pre.length + 1
    · have e := leaves_single hn (by omega)
      obtain ⟨ts1, h1, h2⟩ := hinv.group (a := []) (b := []) (by rw [e] at hpn; exact hpn) (goodEnc_nil u nExt) (by simp)
      simp only at h1
      rw [h1]
      simp only [R.ok_bind]
      rw [groupBounds_spec ho]
      simp only [R.ok_bind]
      rw [if_pos hl]
      rw [List.nil_append, ← e] at h2
      rw [← List.append_assoc]
      obtain ⟨ts', tops', h3, h4, h5⟩ := ih (pre ++ leaves n) ts1 (tops ++ [(nodeToSplit n).top])
        (by rw [List.append_assoc]; exact ho) (by rw [List.append_assoc]; exact hag) h2
      exact ⟨ts', tops', h3, h4, by rw [h5]; simp⟩
    · obtain ⟨a, b, e, hsub⟩ := subCounts_spec ho
      have hab : Ordered (a ++ b) := hn.sublist (by
        rw [e]; exact .append (List.Sublist.refl _) (List.sublist_cons_self _ _))
      obtain ⟨encs, hr, hg⟩ := extEncoding_spec hx ((a ++ b).length + 1) (a ++ b) hab (agrees_ab hagn e) (by omega)
      obtain ⟨ts1, h1, h2⟩ := hinv.group (by rw [e] at hpn; exact hpn) hg (top_max hn hagn e)
      simp only at h1
      rw [h1]
      simp only [R.ok_bind]
      rw [groupBounds_spec ho]
      simp only [R.ok_bind]
      rw [if_neg hl, hsub]
      simp only [R.ok_bind]
      rw [hr]
      simp only [R.ok_bind]
      rw [← e] at h2
      rw [← List.append_assoc]
      obtain ⟨ts', tops', h3, h4, h5⟩ := ih (pre ++ leaves n) _ (tops ++ [(nodeToSplit n).top])
        (by rw [List.append_assoc]; exact ho) (by rw [List.append_assoc]; exact hag) h2
      exact ⟨ts', tops', h3, h4, by rw [h5]; simp⟩

/-- Lists of valid indices are determined by the tokens they list. -/
theorem listed_inj {l : List Token} (hnd : l.Nodup) : ∀ (a b : List Nat), (∀ i ∈ a, i < l.length) →
    (∀ i ∈ b, i < l.length) → a.map (l[·]?) = b.map (l[·]?) → a = b := by
  intro a
  induction a with
  | nil => intro b _ _ h; simpa using h.symm
  | cons x a ih =>
    intro b ha hb h
    cases b with
    | nil => simp at h
    | cons y b =>
      simp only [List.map_cons, List.cons.injEq] at h
      have hx := ha x (by simp)
      have hy := hb y (by simp)
      have h1 := h.1
      rw [List.getElem?_eq_getElem hx, List.getElem?_eq_getElem hy] at h1
      have : x = y := (List.getElem_inj hnd).1 (Option.some.inj h1)
      rw [this, ih b (fun i hi => ha i (by simp [hi])) (fun i hi => hb i (by simp [hi])) h.2]

theorem perm_allBytes_tokenizable {ts : TokenSet} {l : List UInt8}
    (h : pieceStrings ts = l.map (fun b => [b])) (hp : l.Perm allBytes) : Tokenizable ts where
  nodup := by
    rw [h, List.Nodup, List.pairwise_map]
    exact (hp.nodup_iff.2 allBytes_nodup).imp (fun hne he => hne (by simpa using he))
  nonempty := by
    intro s hs
    rw [h] at hs
    obtain ⟨b, _, rfl⟩ := List.mem_map.1 hs
    simp
  bytes := by
    intro b
    rw [h]
    exact List.mem_map.2 ⟨b, hp.mem_iff.2 (mem_allBytes b), rfl⟩

theorem extTokens_length (n : Nat) : (extTokens n).length = n := by simp [extTokens]

theorem HuffInv.family {u : UInt8 → Nat} {nExt : Nat} {p : Processing} {counts : Counts} {ts : TokenSet}
    {tops : List UInt8} (h : HuffInv u nExt p counts ts tops) (hx : nExt < 256)
    (hc : counts.map Prod.fst = allBytes) : HuffFamily ts := by
  obtain ⟨bs, hb1, hb2⟩ := h.bytes
  rw [hc] at hb2
  have hstr : strTokens ts = tops.map (fun b => [b]) := by
    have := simple_strTokens (ts' := ts) (n := nExt) (l := tops) (m := []) (by rw [h.tokens]; simp)
    simpa using this
  have hdist : ts.tokens.Nodup := by
    rw [h.tokens, List.nodup_append]
    refine ⟨?_, ?_, ?_⟩
    · have := (bitsSet_usable hx .bits1 (code := fun _ => []) .raw true (by simp)).distinct
      exact this
    · rw [List.Nodup, List.pairwise_map]
      exact (List.nodup_append.1 (hb2.nodup_iff.2 allBytes_nodup)).1.imp (fun hne he => hne (by simpa using he))
    · intro x hx y hy hxy
      subst hxy
      obtain ⟨b, _, rfl⟩ := List.mem_map.1 hy
      unfold extTokens at hx
      simp at hx
  have hrange : SeqsInRange ts := by
    intro q hq i hi
    obtain ⟨t, ds, h1, h2, h3, h4, h5⟩ := h.codes q hq
    rw [h1] at hi
    rcases List.mem_cons.1 hi with rfl | hi
    · exact h4
    · have := h5 i hi
      omega
  refine ⟨⟨perm_allBytes_tokenizable ?_ hb2, hrange, hdist, by rw [h.exts]; exact hx, ?_⟩, h.type, ?_, ?_, ?_⟩
  · unfold pieceStrings
    rw [hstr, hb1, List.map_append]
  · intro n
    rw [h.tokens, h.exts, List.mem_append, exts_extTokens hx]
    simp
  · intro e he
    obtain ⟨q, hq, rfl⟩ := List.mem_map.1 he
    obtain ⟨t, ds, h1, h2, h3, h4, h5⟩ := h.codes q hq
    have hsb : q.string ∈ bs.map (fun b => [b]) := by rw [← hb1]; exact List.mem_map.2 ⟨q, hq, rfl⟩
    obtain ⟨b, _, eb⟩ := List.mem_map.1 hsb
    rw [h.tokens, List.length_append, extTokens_length, List.length_map] at h4
    refine ⟨b, tops[t - nExt], ds.map UInt8.ofNat, by simpa using h2, ?_⟩
    unfold listed
    rw [h1, h.tokens, ← eb, List.map_cons]
    congr 2
    · rw [List.getElem?_append_right (by rw [extTokens_length]; exact h3), extTokens_length,
        List.getElem?_map, List.getElem?_eq_getElem (show t - nExt < tops.length by omega)]
      rfl
    · rw [List.map_map]
      apply List.map_congr_left
      intro d hd
      have := h5 d hd
      rw [List.getElem?_append_left (by rw [extTokens_length]; exact this)]
      unfold extTokens
      rw [List.getElem?_map, List.getElem?_range this]
      rfl
  · have e : (meaning ts).map Prod.snd = (ts.sequences.map (·.tokens)).map (fun l => l.map (ts.tokens[·]?)) := by
      unfold meaning listed
      rw [List.map_map, List.map_map]
      rfl
    rw [e, List.Nodup, List.pairwise_map]
    refine List.Pairwise.imp_of_mem ?_ h.nodup
    intro a b ha hb hne he
    obtain ⟨q, hq, rfl⟩ := List.mem_map.1 ha
    obtain ⟨q', hq', rfl⟩ := List.mem_map.1 hb
    exact hne (listed_inj hdist _ _ (hrange q hq) (hrange q' hq') he)
  · intro e he
    obtain ⟨q, hq, rfl⟩ := List.mem_map.1 he
    have h1 := h.short q hq
    have h2 : counts.length = 256 := by
      have := congrArg List.length hc
      rwa [List.length_map, allBytes_length] at this
    unfold listed
    rw [List.length_map]
    omega

/-- Counts for all bytes, in order, all positive. -/
structure FullCounts (counts : Counts) : Prop where
  bytes : counts.map Prod.fst = allBytes
  pos : ∀ p ∈ counts, 0 < p.2

theorem allBytes_sorted : allBytes.Pairwise (· < ·) := by
  unfold allBytes
  rw [List.pairwise_map]
  refine List.Pairwise.imp_of_mem ?_ (List.pairwise_lt_range (n := 256))
  intro a b ha hb hlt
  rw [List.mem_range] at ha hb
  rw [UInt8.lt_iff_toNat_lt, UInt8.toNat_ofNat_of_lt' (show a < 256 by omega),
    UInt8.toNat_ofNat_of_lt' (show b < 256 by omega)]
  exact hlt

theorem FullCounts.ordered {counts : Counts} (h : FullCounts counts) : Ordered counts := by
  refine ⟨?_, h.pos⟩
  have := allBytes_sorted
  rw [← h.bytes, List.pairwise_map] at this
  exact this

theorem FullCounts.length {counts : Counts} (h : FullCounts counts) : counts.length = 256 := by
  have := congrArg List.length h.bytes
  rw [List.length_map, allBytes_length] at this
  exact this

theorem bytesTokenset_spec {u : UInt8 → Nat} {counts : Counts} (h : FullCounts counts)
    (hag : Agrees u counts) {nChar nExt : Nat}
    (hc : 1 ≤ nChar) (hx : 1 ≤ nExt) (hx' : nExt < 256) (p : Processing) :
    ∃ ts tops, bytesTokenset counts nChar nExt p = .ok ts ∧ HuffInv u nExt p counts ts tops ∧
      tops.length = min nChar 256 ∧ HuffFamily ts := by
  obtain ⟨nodes, h1, h2, h3⟩ := optimizeSplits_spec counts hc
  have hinit : HuffInv u nExt p [] ⟨nExt, .bytesHuff, p, true,
      (List.range nExt).map (fun i => Token.ext (UInt8.ofNat i)), []⟩ [] :=
    ⟨rfl, rfl, rfl, rfl, by simp [extTokens], ⟨[], rfl, .refl _⟩, by simp, by simp, by simp, by simp, by simp⟩
  have := tokensetLoop_spec hx nodes [] _ [] (by rw [List.nil_append, h3]; exact h.ordered)
    (by rw [List.nil_append, h3]; exact hag) hinit
  rw [List.nil_append, h3] at this
  obtain ⟨ts, tops, h4, h5, h6⟩ := this
  refine ⟨ts, tops, ?_, h5, ?_, h5.family hx' h.bytes⟩
  · unfold bytesTokenset TokenSet.new
    rw [rassert_true (by simpa using hx')]
    simp only [R.ok_bind]
    rw [h1]
    exact h4
  · rw [h6]
    simp
    rw [h2, h.length]

end Tokens
