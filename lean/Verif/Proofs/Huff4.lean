import Verif.Proofs.Huff3

/-! `HuffOptimizer::optimize_bytes`. -/

set_option linter.unusedSimpArgs false
set_option linter.unusedVariables false

namespace Tokens
open Spec TokenSet OptimizeBytes

/-- The table of a function of bytes. -/
def tab (f : UInt8 → Nat) : Counts := allBytes.map (fun b => (b, f b))

theorem allBytes_get (b : UInt8) : allBytes[b.toNat]? = some b := by
  unfold allBytes
  rw [List.getElem?_map, List.getElem?_range b.toNat_lt]
  simp

theorem tab_set (f : ByteArr Nat) (b : UInt8) (c : Nat) :
    setCount (tab f) b c = tab (f.set b c) := by
  unfold setCount tab
  apply List.ext_getElem?
  intro i
  rw [List.getElem?_set]
  by_cases hi : b.toNat = i
  · subst hi
    have : b.toNat < (allBytes.map (fun b => (b, f b))).length := by
      rw [List.length_map, allBytes_length]; exact b.toNat_lt
    rw [if_pos rfl, if_pos this, List.getElem?_map, allBytes_get]
    simp [ByteArr.set]
  · rw [if_neg hi, List.getElem?_map, List.getElem?_map]
    by_cases hl : i < 256
    · have e := allBytes_get (UInt8.ofNat i)
      rw [UInt8.toNat_ofNat_of_lt' (show i < 256 from hl)] at e
      rw [e]
      have : UInt8.ofNat i ≠ b := by
        rintro rfl
        rw [UInt8.toNat_ofNat_of_lt' (show i < 256 from hl)] at hi
        exact hi rfl
      simp [ByteArr.set, this]
    · have : allBytes[i]? = none := by
        rw [List.getElem?_eq_none_iff, allBytes_length]; omega
      rw [this]; rfl

theorem tab_full {f : UInt8 → Nat} (h : ∀ b, 0 < f b) : FullCounts (tab f) := by
  refine ⟨?_, ?_⟩
  · unfold tab
    rw [List.map_map, show (Prod.fst ∘ fun b : UInt8 => (b, f b)) = id from rfl, List.map_id]
  · intro p hp
    obtain ⟨b, _, rfl⟩ := List.mem_map.1 hp
    exact h b

theorem tab_agrees (f : UInt8 → Nat) : Agrees f (tab f) := by
  intro p hp
  obtain ⟨b, _, rfl⟩ := List.mem_map.1 hp
  rfl

theorem countOf_tab (f : UInt8 → Nat) (b : UInt8) : countOf (tab f) b = .ok (f b) := by
  unfold countOf tab
  rw [getR_of (show (allBytes.map (fun b => (b, f b)))[b.toNat]? = some (b, f b) by
    rw [List.getElem?_map, allBytes_get]; rfl)]
  rfl

theorem set_succ (a : ByteArr Nat) (b : UInt8) (c : Nat) :
    ByteArr.set (fun x => a x + 1) b (c + 1) = fun x => ByteArr.set a b c x + 1 := by
  funext x
  unfold ByteArr.set
  by_cases h : x = b <;> simp [h]

theorem huffTokens_eq (l : List (Token × Nat)) : ∀ (a : ByteArr Nat),
    huffTokens l (tab (fun x => a x + 1)) = tab (fun x => setAll (tokPairs l) a x + 1) := by
  induction l with
  | nil => intro a; rfl
  | cons p l ih =>
    intro a
    rcases p with ⟨(_ | ⟨b, _ | ⟨d, s⟩⟩) | n, c⟩
    · rw [huffTokens]; · exact ih a
      simp
    · rw [huffTokens, tab_set, set_succ, ih]; rfl
    · rw [huffTokens]; · exact ih a
      simp
    · rw [huffTokens]; · exact ih a
      simp

theorem huffSeqs_eq (l : List (Sequence × Nat)) (hs : ∀ p ∈ l, p.1.string.length = 1) :
    ∀ (a : ByteArr Nat),
    huffSeqs l (tab (fun x => a x + 1)) = .ok (tab (fun x => setAll (seqPairs l) a x + 1)) := by
  induction l with
  | nil => intro a; rfl
  | cons p l ih =>
    intro a
    have := hs p (by simp)
    rcases p with ⟨⟨_ | ⟨b, _ | ⟨d, s⟩⟩, t⟩, c⟩ <;> simp at this
    rw [huffSeqs]
    simp only
    rw [tab_set, set_succ, ih (fun q hq => hs q (by simp [hq]))]
    rfl

theorem huffCounts_eq {st : TokenStats} (h : Tokenizable st.tokenSet) (hc : CountsFit st)
    (hs : ∀ q ∈ st.tokenSet.sequences, q.string.length = 1) :
    huffCounts st = .ok (tab (fun b => byteUses st b + 1)) := by
  unfold huffCounts
  have e0 : allBytes.map (fun b => (b, 1)) = tab (fun x => (fun _ : UInt8 => 0) x + 1) := rfl
  rw [e0, huffTokens_eq, huffSeqs_eq _ (fun p hp => hs p.1 (List.of_mem_zip hp).1)]
  congr 2
  funext b
  rw [setAll_uses h hc]

/-! ### Costs -/

theorem costTokens_exts (u : UInt8 → Nat) (n : Nat) (l : List Token) (total : Nat) :
    costTokens (tab u) (extTokens n ++ l) total = costTokens (tab u) l total := by
  unfold extTokens
  induction List.range n with
  | nil => rfl
  | cons i r ih => rw [List.map_cons, List.cons_append, costTokens]; exact ih

theorem costTokens_tops (u : UInt8 → Nat) (l : List UInt8) (total : Nat) :
    costTokens (tab u) (l.map (fun b => Token.str [b])) total = .ok (total + (l.map u).sum) := by
  induction l generalizing total with
  | nil => rfl
  | cons b l ih =>
    rw [List.map_cons, costTokens]
    rw [countOf_tab]
    simp only [R.ok_bind]
    rw [ih]
    congr 1
    simp
    omega

theorem costSeqs_eq (u : UInt8 → Nat) (qs : List Sequence) : ∀ (bs : List UInt8) (total : Nat),
    qs.map (·.string) = bs.map (fun b => [b]) →
    costSeqs (tab u) qs total =
      .ok (total + ((bs.zip qs).map (fun p => u p.1 * p.2.tokens.length)).sum) := by
  induction qs with
  | nil =>
    intro bs total h
    cases bs with
    | nil => rfl
    | cons b bs => simp at h
  | cons q qs ih =>
    intro bs total h
    cases bs with
    | nil => simp at h
    | cons b bs =>
      simp only [List.map_cons, List.cons.injEq] at h
      rw [costSeqs, h.1]
      simp only
      rw [countOf_tab]
      simp only [R.ok_bind]
      rw [ih bs _ h.2]
      congr 1
      simp
      omega

theorem sum_zip_ge (u : UInt8 → Nat) (qs : List Sequence) : ∀ (bs : List UInt8),
    qs.length = bs.length → (∀ q ∈ qs, 1 ≤ q.tokens.length) →
    (bs.map u).sum ≤ ((bs.zip qs).map (fun p => u p.1 * p.2.tokens.length)).sum := by
  induction qs with
  | nil =>
    intro bs h _
    cases bs with
    | nil => simp
    | cons b bs => simp at h
  | cons q qs ih =>
    intro bs h hq
    cases bs with
    | nil => simp at h
    | cons b bs =>
      simp only [List.length_cons, Nat.add_right_cancel_iff] at h
      have h1 := ih bs h (fun q hq' => hq q (by simp [hq']))
      have h2 : u b * 1 ≤ u b * q.tokens.length := Nat.mul_le_mul_left _ (hq q (by simp))
      simp only [List.zip_cons_cons, List.map_cons, List.sum_cons]
      omega

/-- The cost that the loop computes for a candidate. -/
theorem cost_spec {nExt : Nat} {p : Processing} {u : UInt8 → Nat} (hu : ∀ b, 0 < u b) {ts : TokenSet}
    {tops : List UInt8} (h : HuffInv u nExt p (tab u) ts tops) :
    ∃ t0 total, costTokens (tab u) ts.tokens 0 = .ok t0 ∧ costSeqs (tab u) ts.sequences t0 = .ok total ∧
      (allBytes.map u).sum ≤ total ∧ (tops.length = 256 → total = (allBytes.map u).sum) := by
  obtain ⟨bs, hb1, hb2⟩ := h.bytes
  rw [(tab_full hu).bytes] at hb2
  have hlen : ts.sequences.length = bs.length := by
    have := congrArg List.length hb1
    simpa using this
  have hsum : (tops.map u).sum + (bs.map u).sum = (allBytes.map u).sum := by
    rw [← List.sum_append, ← List.map_append]
    exact perm_sum (hb2.map u)
  refine ⟨_, _, by rw [h.tokens, costTokens_exts, costTokens_tops], costSeqs_eq u _ bs _ hb1, ?_, ?_⟩
  · have := sum_zip_ge u ts.sequences bs hlen (by
      intro q hq
      obtain ⟨t, ds, h1, _⟩ := h.codes q hq
      rw [h1]; simp)
    omega
  · intro ht
    have h1 := hb2.length_eq
    rw [List.length_append, allBytes_length] at h1
    have h2 : bs = [] := List.length_eq_zero_iff.1 (by omega)
    subst h2
    simp only [List.zip_nil_left, List.map_nil, List.sum_nil, Nat.add_zero] at hsum ⊢
    omega

/-- What the loop finds for `k` ext tokens. -/
structure Cand (u : UInt8 → Nat) (n : Nat) (p : Processing) (k : Nat) (x : TokenSet × Nat) : Prop where
  made : bytesTokenset (tab u) (n - k) k p = .ok x.1
  family : HuffFamily x.1
  inv : ∃ tops, HuffInv u k p (tab u) x.1 tops ∧ tops.length = min (n - k) 256
  cost : ∃ t0, costTokens (tab u) x.1.tokens 0 = .ok t0 ∧ costSeqs (tab u) x.1.sequences t0 = .ok x.2
  least : (allBytes.map u).sum ≤ x.2
  exact : 256 ≤ n - k → x.2 = (allBytes.map u).sum

theorem cand_exists {u : UInt8 → Nat} (hu : ∀ b, 0 < u b) {n k : Nat} (p : Processing) (hk : 1 ≤ k)
    (hkn : k < n) (hk' : k < 256) : ∃ x, Cand u n p k x := by
  obtain ⟨ts, tops, h1, h2, h3, h4⟩ := bytesTokenset_spec (tab_full hu) (tab_agrees u) (show 1 ≤ n - k by omega) hk hk' p
  obtain ⟨t0, total, c1, c2, c3, c4⟩ := cost_spec hu h2
  exact ⟨(ts, total), h1, h4, ⟨tops, h2, h3⟩, ⟨t0, c1, c2⟩, c3, fun h => c4 (by omega)⟩

theorem huffLoop_spec {u : UInt8 → Nat} (hu : ∀ b, 0 < u b) {n : Nat} (p : Processing) (ks : List Nat) :
    ∀ best, (∀ k ∈ ks, 1 ≤ k ∧ k < n ∧ k < 256) → (ks ≠ [] ∨ ∃ x, best = some x) →
    ∃ y, huffLoop (tab u) n p ks best = .ok (some y) ∧
      (best = some y ∨ ∃ k ∈ ks, Cand u n p k y) ∧
      (∀ x, best = some x → y.2 ≤ x.2) ∧
      (∀ k ∈ ks, ∀ x, Cand u n p k x → y.2 ≤ x.2) ∧
      (∀ x, best = some x → x.2 ≤ (allBytes.map u).sum → y = x) := by
  induction ks with
  | nil =>
    intro best _ h
    rcases h with h | ⟨x, rfl⟩
    · exact absurd rfl h
    · exact ⟨x, rfl, .inl rfl, fun y hy => by simp at hy; subst hy; omega, by simp,
        fun y hy _ => by simpa using hy⟩
  | cons k ks ih =>
    intro best hks _
    obtain ⟨h1, h2, h3⟩ := hks k (by simp)
    obtain ⟨x, hx⟩ := cand_exists hu p h1 h2 h3
    obtain ⟨t0, c1, c2⟩ := hx.cost
    rw [huffLoop, subR, if_pos (by omega)]
    simp only [R.ok_bind]
    rw [hx.made]
    simp only [R.ok_bind]
    rw [c1]
    simp only [R.ok_bind]
    rw [c2]
    simp only [R.ok_bind]
    have uniq : ∀ x', Cand u n p k x' → x' = x := by
      intro x' hx'
      have e1 : x'.1 = x.1 := Except.ok.inj (hx'.made.symm.trans hx.made)
      obtain ⟨t0', c1', c2'⟩ := hx'.cost
      rw [e1] at c1' c2'
      have e2 : t0' = t0 := Except.ok.inj (c1'.symm.trans c1)
      rw [e2] at c2'
      have e3 : x'.2 = x.2 := Except.ok.inj (c2'.symm.trans c2)
      exact Prod.ext e1 e3
    have step : ∀ z, (best = some z ∨ z = x) → z.2 ≤ x.2 → (∀ w, best = some w → z.2 ≤ w.2) →
        (∀ w, best = some w → w.2 ≤ (allBytes.map u).sum → z = w) →
        ∃ y, huffLoop (tab u) n p ks (some z) = .ok (some y) ∧
          (best = some y ∨ ∃ k' ∈ k :: ks, Cand u n p k' y) ∧
          (∀ w, best = some w → y.2 ≤ w.2) ∧
          (∀ k' ∈ k :: ks, ∀ w, Cand u n p k' w → y.2 ≤ w.2) ∧
          (∀ w, best = some w → w.2 ≤ (allBytes.map u).sum → y = w) := by
      intro z hz hzx hzw hzs
      obtain ⟨y, i1, i2, i3, i4, i5⟩ := ih (some z) (fun k' hk' => hks k' (by simp [hk'])) (.inr ⟨z, rfl⟩)
      refine ⟨y, i1, ?_, ?_, ?_, ?_⟩
      · rcases i2 with i2 | ⟨k', hk', i2⟩
        · simp at i2
          subst i2
          rcases hz with hz | rfl
          · exact .inl hz
          · exact .inr ⟨k, by simp, hx⟩
        · exact .inr ⟨k', by simp [hk'], i2⟩
      · intro w hw
        have := i3 z rfl
        have := hzw w hw
        omega
      · intro k' hk' w hw
        rcases List.mem_cons.1 hk' with rfl | hk'
        · rw [uniq w hw]
          have := i3 z rfl
          omega
        · exact i4 k' hk' w hw
      · intro w hw hle
        have e := hzs w hw hle
        rw [← e]
        exact i5 z rfl (by rw [e]; exact hle)
    cases best with
    | none =>
      exact step x (.inr rfl) (Nat.le_refl _) (by simp) (by simp)
    | some b =>
      simp only
      by_cases hlt : x.2 < b.2
      · rw [if_pos hlt]
        refine step x (.inr rfl) (Nat.le_refl _) ?_ ?_
        · intro w hw; simp at hw; subst hw; omega
        · intro w hw hle
          simp at hw
          subst hw
          have := hx.least
          omega
      · rw [if_neg hlt]
        refine step b (.inl rfl) (by omega) ?_ ?_
        · intro w hw; simp at hw; subst hw; omega
        · intro w hw _; simpa using hw

theorem ks_mem {n k : Nat} : k ∈ (List.range (min (n - 1) 10 + 1)).drop 2 ↔ 2 ≤ k ∧ k ≤ min (n - 1) 10 := by
  rw [List.mem_drop_iff_getElem]
  constructor
  · rintro ⟨i, hi, e⟩
    simp at e hi
    omega
  · rintro ⟨h1, h2⟩
    exact ⟨k - 2, by simp; omega, by simp; omega⟩

/-- The set found by the loop. -/
theorem huff_best {st : TokenStats} (h : Tokenizable st.tokenSet) (hc : CountsFit st)
    (hs : ∀ q ∈ st.tokenSet.sequences, q.string.length = 1) {n : Nat} (hn : 3 ≤ n) :
    ∃ (y : TokenSet × Nat) (k : Nat), Cand (fun b => byteUses st b + 1) n st.tokenSet.processing k y ∧
      2 ≤ k ∧ k ≤ min (n - 1) 10 ∧ (259 ≤ n → k = 2) ∧
      (∀ k', 2 ≤ k' → k' ≤ min (n - 1) 10 → ∀ x,
        Cand (fun b => byteUses st b + 1) n st.tokenSet.processing k' x → y.2 ≤ x.2) ∧
      huff st n = y.1.addTokens (longTokens st.tokenSet) := by
  have hu : ∀ b, 0 < byteUses st b + 1 := fun b => by omega
  have hmem : ∀ k ∈ (List.range (min (n - 1) 10 + 1)).drop 2, 1 ≤ k ∧ k < n ∧ k < 256 := by
    intro k hk
    have := ks_mem.1 hk
    omega
  have h2mem : 2 ∈ (List.range (min (n - 1) 10 + 1)).drop 2 := ks_mem.2 (by omega)
  obtain ⟨y, h1, h2, _, h4, _⟩ := huffLoop_spec hu st.tokenSet.processing _ none hmem
    (.inl (List.ne_nil_of_mem h2mem))
  have hh : huff st n = y.1.addTokens (longTokens st.tokenSet) := by
    unfold huff
    rw [huffCounts_eq h hc hs]
    simp only [R.ok_bind]
    rw [subR, if_pos (by omega)]
    simp only [R.ok_bind]
    rw [h1]
    simp only [R.ok_bind, unwrapR]
    rw [longStrings_eq]
  rcases h2 with h2 | ⟨k, hk, h2⟩
  · simp at h2
  have hk2 := ks_mem.1 hk
  have hopt : ∀ k', 2 ≤ k' → k' ≤ min (n - 1) 10 → ∀ x,
      Cand (fun b => byteUses st b + 1) n st.tokenSet.processing k' x → y.2 ≤ x.2 :=
    fun k' a b x hx => h4 k' (ks_mem.2 ⟨a, b⟩) x hx
  by_cases hbig : 259 ≤ n
  · -- the first candidate has no sequences and stays
    have e : (List.range (min (n - 1) 10 + 1)).drop 2 = 2 :: (List.range (min (n - 1) 10 + 1)).drop 3 := by
      have hl : 2 < (List.range (min (n - 1) 10 + 1)).length := by simp; omega
      rw [List.drop_eq_getElem_cons hl]
      simp
    obtain ⟨x, hx⟩ := cand_exists hu (n := n) (k := 2) st.tokenSet.processing (by omega) (by omega) (by omega)
    obtain ⟨t0, c1, c2⟩ := hx.cost
    rw [e, huffLoop, subR, if_pos (by omega)] at h1
    simp only [R.ok_bind] at h1
    rw [hx.made] at h1
    simp only [R.ok_bind] at h1
    rw [c1] at h1
    simp only [R.ok_bind] at h1
    rw [c2] at h1
    simp only [R.ok_bind] at h1
    obtain ⟨z, z1, _, _, _, z5⟩ := huffLoop_spec hu st.tokenSet.processing
      ((List.range (min (n - 1) 10 + 1)).drop 3) (some x)
      (fun k hk => hmem k (by rw [e]; simp [hk])) (.inr ⟨x, rfl⟩)
    have e1 : y = z := Option.some.inj (Except.ok.inj (h1.symm.trans z1))
    have e2 : z = x := z5 x rfl (Nat.le_of_eq (hx.exact (by omega)))
    subst e1
    subst e2
    exact ⟨y, 2, hx, by omega, by omega, fun _ => rfl, hopt, hh⟩
  · exact ⟨y, k, h2, by omega, by omega, fun h => absurd h hbig, hopt, hh⟩

theorem huffInv_lists {u : UInt8 → Nat} {nExt : Nat} {p : Processing} {counts : Counts} {ts : TokenSet} {tops : List UInt8}
    (h : HuffInv u nExt p counts ts tops) : byteTokens ts = tops ∧ longTokens ts = [] := by
  exact simple_byteTokens (n := nExt) (l := tops) (m := []) (by simp) (by rw [h.tokens]; simp)

/-- Everything C31 says. -/
theorem huff_spec {st : TokenStats} (h : Tokenizable st.tokenSet) (hc : CountsFit st)
    (hs : ∀ q ∈ st.tokenSet.sequences, q.string.length = 1) {n : Nat} (hn : 3 ≤ n) :
    ∃ ts', huff st n = .ok ts' ∧ HuffFamily ts' ∧ ts'.processing = st.tokenSet.processing ∧
      ts'.splitParagraphs = true ∧ longTokens ts' = longTokens st.tokenSet ∧
      2 ≤ ts'.nExt ∧ ts'.nExt ≤ 10 ∧
      ts'.nExt + (byteTokens ts').length = min n 258 ∧
      ts'.tokens.length = min n 258 + (longTokens st.tokenSet).length := by
  obtain ⟨y, k, hy, k1, k2, k3, _, he⟩ := huff_best h hc hs hn
  obtain ⟨tops, hi, hl⟩ := hy.inv
  obtain ⟨l1, l2⟩ := huffInv_lists hi
  obtain ⟨ts', a1, a2, a3, a4, a5⟩ := addTokens_usable (longTokens st.tokenSet) y.1 hy.family.toUsable
    (longTokens_nodup h) (by
      intro s hs
      obtain ⟨s1, s2⟩ := mem_longTokens.1 hs
      refine ⟨by rintro rfl; simp at s2, ?_⟩
      intro hm
      have : s ∈ longTokens y.1 := mem_longTokens.2 ⟨hm, s2⟩
      rw [l2] at this
      simp at this)
  have ht : ts'.tokens = extTokens k ++ tops.map (fun b => Token.str [b]) ++
      (longTokens st.tokenSet).map Token.str := by rw [a5, hi.tokens]
  obtain ⟨b1, b2⟩ := simple_byteTokens (fun s hs => (mem_longTokens.1 hs).2) ht
  have hsize : k + tops.length = min n 258 := by
    by_cases hbig : 259 ≤ n
    · have := k3 hbig
      omega
    · omega
  refine ⟨ts', he.trans a1, huff_of hy.family a2 a3, by rw [a4.processing, hi.processing],
    by rw [a4.splitParagraphs, hi.split], b2, by rw [a4.nExt, hi.exts]; omega,
    by rw [a4.nExt, hi.exts]; omega, by rw [a4.nExt, hi.exts, b1]; exact hsize, ?_⟩
  rw [ht]
  simp [extTokens]
  omega

theorem huff_small (st : TokenStats) {n : Nat} (hn : n < 3) : ∃ e, huff st n = .error e := by
  unfold huff
  cases hc : huffCounts st with
  | error e => exact ⟨e, rfl⟩
  | ok counts =>
    simp only [R.ok_bind]
    match n, hn with
    | 0, _ => exact ⟨_, rfl⟩
    | 1, _ => exact ⟨_, rfl⟩
    | 2, _ => exact ⟨_, rfl⟩

theorem huff_single {ts : TokenSet} (h : HuffFamily ts) : ∀ q ∈ ts.sequences, q.string.length = 1 := by
  intro q hq
  obtain ⟨b, c, ds, _, e⟩ := h.codes (q.string, listed ts q) (List.mem_map.2 ⟨q, hq, rfl⟩)
  simp only [Prod.mk.injEq] at e
  rw [e.1]; rfl

end Tokens
