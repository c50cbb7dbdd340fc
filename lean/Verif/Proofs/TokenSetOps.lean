import Verif.Proofs.Constructors
import Mathlib.Data.List.Perm.Basic

/-! `sort`, `remove_token`, `add_token`, `find_token`. -/

set_option linter.unusedSimpArgs false
set_option linter.unusedVariables false

namespace Tokens
open Spec

/-! ### Orders -/

theorem bytesLe_iff (a b : Bytes) : bytesLe a b = true ↔ a ≤ b := by
  induction a generalizing b with
  | nil => simp [bytesLe]
  | cons x a ih =>
    cases b with
    | nil => simp [bytesLe]
    | cons y b =>
      rw [List.cons_le_cons_iff, bytesLe]
      simp [ih]

theorem bytesLe_trans (a b c : Bytes) (h1 : bytesLe a b = true) (h2 : bytesLe b c = true) :
    bytesLe a c = true := by
  rw [bytesLe_iff] at *; exact List.le_trans h1 h2

theorem bytesLe_total (a b : Bytes) : (bytesLe a b || bytesLe b a) = true := by
  rw [Bool.or_eq_true, bytesLe_iff, bytesLe_iff]; exact List.le_total a b

theorem bytesLe_antisymm {a b : Bytes} (h1 : bytesLe a b = true) (h2 : bytesLe b a = true) :
    a = b := by
  rw [bytesLe_iff] at *; exact List.le_antisymm h1 h2

theorem Token.le_iff (a b : Token) : Token.le a b = true ↔ TokenBefore a b := by
  cases a <;> cases b <;> simp [Token.le, TokenBefore, bytesLe_iff]

theorem Token.le_trans (a b c : Token) (h1 : Token.le a b = true) (h2 : Token.le b c = true) :
    Token.le a c = true := by
  cases a <;> cases b <;> cases c <;> simp [Token.le] at * <;>
    first
    | exact UInt8.le_trans h1 h2
    | exact bytesLe_trans _ _ _ h1 h2

theorem Token.le_total (a b : Token) : (Token.le a b || Token.le b a) = true := by
  cases a <;> cases b <;> simp [Token.le]
  · simpa using bytesLe_total _ _
  · exact UInt8.le_total _ _

theorem Token.le_antisymm {a b : Token} (h1 : Token.le a b = true) (h2 : Token.le b a = true) :
    a = b := by
  cases a <;> cases b <;> simp [Token.le] at *
  · exact bytesLe_antisymm h1 h2
  · exact UInt8.le_antisymm h1 h2

theorem Sequence.le_trans (a b c : Sequence) (h1 : Sequence.le a b = true)
    (h2 : Sequence.le b c = true) : Sequence.le a c = true := bytesLe_trans _ _ _ h1 h2

theorem Sequence.le_total (a b : Sequence) : (Sequence.le a b || Sequence.le b a) = true :=
  bytesLe_total _ _

namespace TokenSet

/-! ### sort -/

theorem fillIndices_ok (l : List Nat) (pos : Nat) (acc : List Nat) (hnd : l.Nodup)
    (hlt : ∀ c ∈ l, c < acc.length) :
    ∃ acc', fillIndices l pos acc = .ok acc' ∧ acc'.length = acc.length ∧
      (∀ p c, l[p]? = some c → acc'[c]? = some (pos + p)) ∧
      (∀ c, c ∉ l → acc'[c]? = acc[c]?) := by
  induction l generalizing pos acc with
  | nil => exact ⟨acc, rfl, rfl, by simp, by simp⟩
  | cons c l ih =>
    obtain ⟨hc, hnd'⟩ := List.nodup_cons.1 hnd
    have hclt := hlt c (by simp)
    rw [fillIndices, if_pos hclt]
    obtain ⟨acc', h1, h2, h3, h4⟩ := ih (pos + 1) (acc.set c pos) hnd'
      (fun x hx => by simpa using hlt x (by simp [hx]))
    refine ⟨acc', h1, by simpa using h2, ?_, ?_⟩
    · intro p c' hp
      cases p with
      | zero =>
        simp at hp; subst hp
        rw [h4 c hc, List.getElem?_set_self hclt]; rfl
      | succ p =>
        simp at hp
        rw [h3 p c' hp]; congr 1; omega
    · intro x hx
      simp at hx
      rw [h4 x hx.2, List.getElem?_set_ne (by omega)]

theorem renumber_ok (newIdx : List Nat) (l : List Nat) (h : ∀ t ∈ l, t < newIdx.length) :
    renumber newIdx l = .ok (l.map (fun t => newIdx.getD t 0)) := by
  induction l with
  | nil => rfl
  | cons t l ih =>
    rw [renumber]
    have ht := h t (by simp)
    rw [getR_of (List.getElem?_eq_getElem ht), R.ok_bind, ih (fun x hx => h x (by simp [hx]))]
    simp [List.getD_eq_getElem?_getD, List.getElem?_eq_getElem ht]

theorem renumberSeqs_ok (newIdx : List Nat) (l : List Sequence)
    (h : ∀ q ∈ l, ∀ t ∈ q.tokens, t < newIdx.length) :
    renumberSeqs newIdx l =
      .ok (l.map (fun q => { q with tokens := q.tokens.map (fun t => newIdx.getD t 0) })) := by
  induction l with
  | nil => rfl
  | cons q l ih =>
    rw [renumberSeqs, renumber_ok newIdx q.tokens (h q (by simp)), R.ok_bind,
      ih (fun x hx => h x (by simp [hx])), R.ok_bind]
    rfl

theorem renumber_err (newIdx : List Nat) (l : List Nat) (h : ∃ t ∈ l, newIdx.length ≤ t) :
    ∃ e, renumber newIdx l = .error e := by
  induction l with
  | nil => simp at h
  | cons t l ih =>
    rw [renumber]
    by_cases ht : newIdx.length ≤ t
    · exact ⟨.index, by simp [getR, List.getElem?_eq_none ht]⟩
    · obtain ⟨x, hx, hle⟩ := h
      rcases List.mem_cons.1 hx with rfl | hx
      · exact absurd hle ht
      · obtain ⟨e, he⟩ := ih ⟨x, hx, hle⟩
        rw [getR_of (List.getElem?_eq_getElem (by omega)), R.ok_bind, he]
        exact ⟨e, rfl⟩

theorem renumberSeqs_err (newIdx : List Nat) (l : List Sequence)
    (h : ∃ q ∈ l, ∃ t ∈ q.tokens, newIdx.length ≤ t) :
    ∃ e, renumberSeqs newIdx l = .error e := by
  induction l with
  | nil => simp at h
  | cons q l ih =>
    rw [renumberSeqs]
    by_cases hq : ∃ t ∈ q.tokens, newIdx.length ≤ t
    · obtain ⟨e, he⟩ := renumber_err newIdx q.tokens hq
      rw [he]; exact ⟨e, rfl⟩
    · obtain ⟨q', hq', ht⟩ := h
      rcases List.mem_cons.1 hq' with rfl | hq'
      · exact absurd ht hq
      · obtain ⟨e, he⟩ := ih ⟨q', hq', ht⟩
        rw [renumber_ok newIdx q.tokens (fun t ht => by
          apply Classical.byContradiction; intro hc; exact hq ⟨t, ht, by omega⟩), R.ok_bind, he]
        exact ⟨e, rfl⟩

/-- The key comparison of indices in `sort`. -/
def idxLe (toks : List Token) (a b : Nat) : Bool :=
  Token.le (toks.getD a (.ext 0)) (toks.getD b (.ext 0))

theorem idxLe_trans (toks : List Token) (a b c : Nat) (h1 : idxLe toks a b = true)
    (h2 : idxLe toks b c = true) : idxLe toks a c = true := Token.le_trans _ _ _ h1 h2

theorem idxLe_total (toks : List Token) (a b : Nat) :
    (idxLe toks a b || idxLe toks b a) = true := Token.le_total _ _

/-- The sorted index list of `sort`. -/
def sortedIdx (toks : List Token) : List Nat := (List.range toks.length).mergeSort (idxLe toks)

theorem map_getD_range (toks : List Token) :
    (List.range toks.length).map (fun i => toks.getD i (.ext 0)) = toks := by
  apply List.ext_getElem
  · simp
  · intro i h1 h2
    simp [List.getD_eq_getElem?_getD, List.getElem?_eq_getElem h2]

theorem sortedIdx_map (toks : List Token) :
    (sortedIdx toks).map (fun i => toks.getD i (.ext 0)) = toks.mergeSort Token.le := by
  unfold sortedIdx
  rw [List.map_mergeSort (s := Token.le) (by intros; rfl), map_getD_range]

theorem sortedIdx_perm (toks : List Token) : (sortedIdx toks).Perm (List.range toks.length) :=
  List.mergeSort_perm _ _

/-- Full description of `sort` when it does not panic. -/
theorem sort_spec (ts : TokenSet) (h : SeqsInRange ts) :
    ∃ newIdx : List Nat, newIdx.length = ts.tokens.length ∧
      (∀ p c : Nat, (sortedIdx ts.tokens)[p]? = some c → newIdx[c]? = some p) ∧
      (∀ i < ts.tokens.length,
        (ts.tokens.mergeSort Token.le)[newIdx.getD i 0]? = ts.tokens[i]?) ∧
      ts.sort = .ok { ts with
        tokens := ts.tokens.mergeSort Token.le,
        sequences := (ts.sequences.map
          (fun q => { q with tokens := q.tokens.map (fun t => newIdx.getD t 0) })).mergeSort
            Sequence.le } := by
  have hperm := sortedIdx_perm ts.tokens
  have hnd : (sortedIdx ts.tokens).Nodup := hperm.nodup_iff.2 List.nodup_range
  obtain ⟨newIdx, h1, h2, h3, h4⟩ := fillIndices_ok (sortedIdx ts.tokens) 0
    (List.replicate ts.tokens.length 0) hnd (by
      intro c hc; simpa using (hperm.mem_iff.1 hc))
  simp at h2
  refine ⟨newIdx, h2, by intro p c hp; simpa using h3 p c hp, ?_, ?_⟩
  · intro i hi
    have hmem : i ∈ sortedIdx ts.tokens := hperm.mem_iff.2 (by simpa using hi)
    obtain ⟨p, hp⟩ := List.mem_iff_getElem?.1 hmem
    have := h3 p i hp
    rw [List.getD_eq_getElem?_getD, this, ← sortedIdx_map]
    simp [hp, List.getD_eq_getElem?_getD, List.getElem?_eq_getElem hi]
  · unfold sort
    have : (List.range ts.tokens.length).mergeSort
      (fun a b => Token.le (ts.tokens.getD a (.ext 0)) (ts.tokens.getD b (.ext 0))) =
        sortedIdx ts.tokens := rfl
    simp only [this, h1, R.ok_bind]
    rw [renumberSeqs_ok newIdx ts.sequences (by intro q hq t ht; rw [h2]; exact h q hq t ht)]
    rfl

/-- `sort` panics exactly when a sequence mentions a token that does not exist. -/
theorem sort_ok_iff (ts : TokenSet) : (∃ ts', ts.sort = .ok ts') ↔ SeqsInRange ts := by
  constructor
  · intro ⟨ts', hok⟩
    apply Classical.byContradiction
    intro hn
    have hperm := sortedIdx_perm ts.tokens
    have hnd : (sortedIdx ts.tokens).Nodup := hperm.nodup_iff.2 List.nodup_range
    obtain ⟨newIdx, h1, h2, h3, h4⟩ := fillIndices_ok (sortedIdx ts.tokens) 0
      (List.replicate ts.tokens.length 0) hnd (by
        intro c hc; simpa using (hperm.mem_iff.1 hc))
    simp at h2
    have : ∃ q ∈ ts.sequences, ∃ t ∈ q.tokens, newIdx.length ≤ t := by
      apply Classical.byContradiction
      intro hc
      apply hn
      intro q hq t ht
      apply Classical.byContradiction
      intro hlt
      exact hc ⟨q, hq, t, ht, by omega⟩
    obtain ⟨e, he⟩ := renumberSeqs_err newIdx _ this
    unfold sort at hok
    have hs : (List.range ts.tokens.length).mergeSort
      (fun a b => Token.le (ts.tokens.getD a (.ext 0)) (ts.tokens.getD b (.ext 0))) =
        sortedIdx ts.tokens := rfl
    simp only [hs, h1, R.ok_bind] at hok
    rw [he] at hok
    simp at hok
  · intro h
    obtain ⟨_, _, _, _, h1⟩ := sort_spec ts h
    exact ⟨_, h1⟩

theorem pairwise_mergeSort_tokens (l : List Token) :
    (l.mergeSort Token.le).Pairwise (fun a b => Token.le a b = true) :=
  List.pairwise_mergeSort (fun a b c => Token.le_trans a b c) (fun a b => Token.le_total a b) l

theorem pairwise_mergeSort_seqs (l : List Sequence) :
    (l.mergeSort Sequence.le).Pairwise (fun a b => Sequence.le a b = true) :=
  List.pairwise_mergeSort (fun a b c => Sequence.le_trans a b c)
    (fun a b => Sequence.le_total a b) l

/-- What `sort` does, in terms of the meaning of the set. -/
theorem sort_sameSet {ts ts' : TokenSet} (h : ts.sort = .ok ts') :
    SameSet ts' ts ∧ ts'.tokens.Pairwise TokenBefore ∧
      ts'.sequences.Pairwise (fun a b => a.string ≤ b.string) ∧ SeqsInRange ts' := by
  have hr := (sort_ok_iff ts).1 ⟨ts', h⟩
  obtain ⟨newIdx, hlen, _, hget, hs⟩ := sort_spec ts hr
  rw [hs] at h
  simp only [Except.ok.injEq] at h
  subst h
  have hmean : ∀ q ∈ ts.sequences,
      (q.tokens.map (fun t => newIdx.getD t 0)).map ((ts.tokens.mergeSort Token.le)[·]?) =
        q.tokens.map (ts.tokens[·]?) := by
    intro q hq
    rw [List.map_map]
    apply List.map_congr_left
    intro t ht
    exact hget t (hr q hq t ht)
  refine ⟨⟨⟨rfl, rfl, rfl, rfl⟩, List.mergeSort_perm _ _, ?_⟩, ?_, ?_, ?_⟩
  · unfold meaning
    simp only
    refine ((List.mergeSort_perm _ Sequence.le).map _).trans ?_
    rw [List.map_map]
    apply List.Perm.of_eq
    apply List.map_congr_left
    intro q hq
    simp only [Function.comp_apply, listed]
    rw [hmean q hq]
  · exact (pairwise_mergeSort_tokens _).imp (fun h => (Token.le_iff _ _).1 h)
  · exact (pairwise_mergeSort_seqs _).imp (fun h => (bytesLe_iff _ _).1 h)
  · intro q hq i hi
    simp only [List.length_mergeSort]
    have hq' := (List.mergeSort_perm _ Sequence.le).mem_iff.1 hq
    obtain ⟨q0, hq0, rfl⟩ := List.mem_map.1 hq'
    simp only [List.mem_map] at hi
    obtain ⟨t, ht, rfl⟩ := hi
    have h1 := hr q0 hq0 t ht
    have := hget t h1
    rw [List.getElem?_eq_getElem h1] at this
    simpa using (List.getElem?_eq_some_iff.1 this).1

/-- Sorting twice is sorting once. -/
theorem sort_idem {ts ts' : TokenSet} (h : ts.sort = .ok ts') : ts'.sort = .ok ts' := by
  obtain ⟨_, hp, hq, hr⟩ := sort_sameSet h
  have hp' : ts'.tokens.Pairwise (fun a b => Token.le a b = true) :=
    hp.imp (fun h => (Token.le_iff _ _).2 h)
  have hq' : ts'.sequences.Pairwise (fun a b => Sequence.le a b = true) :=
    hq.imp (fun h => (bytesLe_iff _ _).2 h)
  obtain ⟨newIdx, hlen, hidx, hget, hs⟩ := sort_spec ts' hr
  rw [hs]
  have htok : ts'.tokens.mergeSort Token.le = ts'.tokens := List.mergeSort_of_pairwise hp'
  have hsi : sortedIdx ts'.tokens = List.range ts'.tokens.length := by
    unfold sortedIdx
    apply List.mergeSort_of_pairwise
    rw [List.pairwise_iff_getElem] at hp' ⊢
    intro i j hi hj hij
    simp at hi hj
    have := hp' i j hi hj hij
    simpa [idxLe, List.getD_eq_getElem?_getD, hi, hj] using this
  have hid : ∀ t < ts'.tokens.length, newIdx.getD t 0 = t := by
    intro t ht
    have := hidx t t (by rw [hsi]; simp [ht])
    simp [List.getD_eq_getElem?_getD, this]
  have hseq : ts'.sequences.map
      (fun q => { q with tokens := q.tokens.map (fun t => newIdx.getD t 0) }) = ts'.sequences := by
    conv => rhs; rw [← List.map_id ts'.sequences]
    apply List.map_congr_left
    intro q hq
    have : q.tokens.map (fun t => newIdx.getD t 0) = q.tokens := by
      conv => rhs; rw [← List.map_id q.tokens]
      apply List.map_congr_left
      intro t ht
      exact hid t (hr q hq t ht)
    rw [this]; rfl
  rw [htok, hseq, List.mergeSort_of_pairwise hq']

/-- Two sorted lists with the same elements, under an order that is antisymmetric on them. -/
theorem eq_of_sorted_perm {α : Type} {le : α → α → Bool}
    {l1 l2 : List α} (hp : l1.Perm l2)
    (ha : ∀ a ∈ l1, ∀ b ∈ l1, le a b = true → le b a = true → a = b)
    (h1 : l1.Pairwise (fun a b => le a b = true)) (h2 : l2.Pairwise (fun a b => le a b = true)) :
    l1 = l2 :=
  List.Perm.eq_of_pairwise (fun a b hab hbc h3 h4 => ha a hab b (hp.mem_iff.2 hbc) h3 h4) h1 h2 hp

/-- `sort` is a normal form: sets that are equal up to numbering and order sort to the same set. -/
theorem sort_canonical {a b a' b' : TokenSet} (hs : SameSet a b) (hnd : a.tokens.Nodup)
    (hqd : (a.sequences.map (·.string)).Nodup) (ha : a.sort = .ok a') (hb : b.sort = .ok b') :
    a' = b' := by
  obtain ⟨⟨hha, hta, hma⟩, hpa, hqa, hra⟩ := sort_sameSet ha
  obtain ⟨⟨hhb, htb, hmb⟩, hpb, hqb, hrb⟩ := sort_sameSet hb
  have htok : a'.tokens = b'.tokens := by
    apply eq_of_sorted_perm (le := Token.le) (hta.trans (hs.tokens.trans htb.symm))
    · intro a _ b _ h1 h2; exact Token.le_antisymm h1 h2
    · exact hpa.imp (fun h => (Token.le_iff _ _).2 h)
    · exact hpb.imp (fun h => (Token.le_iff _ _).2 h)
  have hnd' : a'.tokens.Nodup := hta.nodup_iff.2 hnd
  have hmm : (meaning a').Perm (meaning b') := hma.trans (hs.sequences.trans hmb.symm)
  -- distinct strings
  have hstr : ∀ ts : TokenSet, (meaning ts).map Prod.fst = ts.sequences.map (·.string) := by
    intro ts; simp [meaning]
  have hqd' : ((meaning a').map Prod.fst).Nodup := by
    have : ((meaning a').map Prod.fst).Perm ((meaning a).map Prod.fst) := hma.map _
    rw [this.nodup_iff, hstr]; exact hqd
  have hmean : meaning a' = meaning b' := by
    apply eq_of_sorted_perm (le := fun x y => bytesLe x.1 y.1) hmm
    · intro x hx y hy h1 h2
      have hxy := bytesLe_antisymm h1 h2
      have : ∀ (l : List (Bytes × List (Option Token))), (l.map Prod.fst).Nodup →
          x ∈ l → y ∈ l → x = y := by
        intro l
        induction l with
        | nil => simp
        | cons z l ih =>
          intro hn hx hy
          rw [List.map_cons, List.nodup_cons] at hn
          rcases List.mem_cons.1 hx with rfl | hx' <;> rcases List.mem_cons.1 hy with rfl | hy'
          · rfl
          · exact absurd (List.mem_map.2 ⟨y, hy', hxy.symm⟩) hn.1
          · exact absurd (List.mem_map.2 ⟨x, hx', hxy⟩) hn.1
          · exact ih hn.2 hx' hy'
      exact this _ hqd' hx hy
    · unfold meaning; rw [List.pairwise_map]
      exact hqa.imp (fun h => (bytesLe_iff _ _).2 h)
    · unfold meaning; rw [List.pairwise_map]
      exact hqb.imp (fun h => (bytesLe_iff _ _).2 h)
  -- token numbers are determined by the tokens
  have hinj : ∀ i j, i < a'.tokens.length → j < a'.tokens.length →
      a'.tokens[i]? = a'.tokens[j]? → i = j := by
    intro i j hi hj h
    exact (List.getElem?_inj hi hnd').1 h
  have hlists : ∀ (l1 l2 : List Nat), (∀ i ∈ l1, i < a'.tokens.length) →
      (∀ i ∈ l2, i < a'.tokens.length) →
      l1.map (a'.tokens[·]?) = l2.map (a'.tokens[·]?) → l1 = l2 := by
    intro l1
    induction l1 with
    | nil => intro l2 _ _ h; cases l2 <;> simp at h ⊢
    | cons i l1 ih =>
      intro l2 h1 h2 h
      cases l2 with
      | nil => simp at h
      | cons j l2 =>
        simp only [List.map_cons, List.cons.injEq] at h
        rw [hinj i j (h1 i (by simp)) (h2 j (by simp)) h.1,
          ih l2 (fun x hx => h1 x (by simp [hx])) (fun x hx => h2 x (by simp [hx])) h.2]
  have hseq : a'.sequences = b'.sequences := by
    unfold meaning listed at hmean
    rw [← htok] at hmean
    unfold SeqsInRange at hra hrb
    rw [← htok] at hrb
    generalize a'.sequences = s1 at hmean hra
    generalize b'.sequences = s2 at hmean hrb
    clear hmm hqd' hqa hqb hma hmb
    induction s1 generalizing s2 with
    | nil => cases s2 <;> simp at hmean ⊢
    | cons q s1 ih =>
      cases s2 with
      | nil => simp at hmean
      | cons q' s2 =>
        simp only [List.map_cons, List.cons.injEq, Prod.mk.injEq] at hmean
        have hq : q = q' := by
          cases q; cases q'
          simp at hmean ⊢
          exact ⟨hmean.1.1, hlists _ _ (hra _ (List.mem_cons_self ..)) (hrb _ (List.mem_cons_self ..)) hmean.1.2⟩
        rw [hq, ih (fun x hx => hra x (List.mem_cons_of_mem _ hx)) s2 hmean.2
          (fun x hx => hrb x (List.mem_cons_of_mem _ hx))]
  have h1 := hha.nExt.trans (hs.header.nExt.trans hhb.nExt.symm)
  have h2 := hha.tokenType.trans (hs.header.tokenType.trans hhb.tokenType.symm)
  have h3 := hha.processing.trans (hs.header.processing.trans hhb.processing.symm)
  have h4 := hha.splitParagraphs.trans
    (hs.header.splitParagraphs.trans hhb.splitParagraphs.symm)
  cases a'; cases b'
  simp at *
  exact ⟨h1, h2, h3, h4, htok, hseq⟩

/-! ### remove_token -/

theorem removeToken_ok_iff (ts : TokenSet) (idx : Nat) :
    (∃ ts', ts.removeToken idx = .ok ts') ↔
      idx < ts.tokens.length ∧ ∀ q ∈ ts.sequences, idx ∉ q.tokens := by
  unfold removeToken
  by_cases hall : ts.sequences.all (fun s => !s.tokens.contains idx) = true
  · have hall' : ∀ q ∈ ts.sequences, idx ∉ q.tokens := by
      simpa using hall
    simp only [rassert_true hall, R.ok_bind]
    by_cases hne : ts.tokens.length = 0
    · have : subR ts.tokens.length 1 = .error .underflow := by simp [subR, hne]
      rw [this]
      simp; omega
    · rw [subR_of (by omega)]
      simp only [R.ok_bind]
      by_cases hidx : idx = ts.tokens.length - 1
      · rw [if_pos hidx]
        exact ⟨fun _ => ⟨by omega, hall'⟩, fun _ => ⟨_, rfl⟩⟩
      · rw [if_neg hidx]
        have hl : ∃ t, ts.tokens.getLast? = some t := by
          cases h : ts.tokens.getLast? with
          | none => rw [List.getLast?_eq_none_iff] at h; simp [h] at hne
          | some t => exact ⟨t, rfl⟩
        obtain ⟨t, ht⟩ := hl
        rw [ht]
        simp only [unwrapR_some, R.ok_bind, List.length_dropLast]
        by_cases hlt : idx < ts.tokens.length - 1
        · rw [if_pos hlt]
          exact ⟨fun _ => ⟨by omega, hall'⟩, fun _ => ⟨_, rfl⟩⟩
        · rw [if_neg hlt]
          simp; omega
  · have : rassert (ts.sequences.all (fun s => !s.tokens.contains idx)) = .error .assertFailed := by
      rw [Bool.eq_false_iff.2 hall]; rfl
    rw [this]
    simp at hall ⊢
    intro _
    obtain ⟨x, h1, h2⟩ := hall
    exact ⟨x, h1, h2⟩

/-- What `remove_token` does. -/
theorem removeToken_spec {ts ts' : TokenSet} {idx : Nat} (hr : SeqsInRange ts)
    (h : ts.removeToken idx = .ok ts') :
    SameHeader ts' ts ∧ ts'.tokens.Perm (ts.tokens.eraseIdx idx) ∧ meaning ts' = meaning ts ∧
      SeqsInRange ts' ∧ ts'.sequences.map (·.string) = ts.sequences.map (·.string) := by
  obtain ⟨hlt, huse⟩ := (removeToken_ok_iff ts idx).1 ⟨ts', h⟩
  have hall : ts.sequences.all (fun s => !s.tokens.contains idx) = true := by simpa using huse
  unfold removeToken at h
  simp only [rassert_true hall, R.ok_bind] at h
  rw [subR_of (by omega)] at h
  simp only [R.ok_bind] at h
  have hlast : ts.tokens.getLast? = ts.tokens[ts.tokens.length - 1]? := List.getLast?_eq_getElem?
  rw [List.getElem?_eq_getElem (by omega)] at hlast
  by_cases hidx : idx = ts.tokens.length - 1
  · rw [if_pos hidx] at h
    simp at h
    subst h
    have hin : ∀ q ∈ ts.sequences, ∀ i ∈ q.tokens, i < ts.tokens.length - 1 := by
      intro q hq i hi
      have h1 := hr q hq i hi
      have h2 : i ≠ idx := fun he => huse q hq (he ▸ hi)
      omega
    refine ⟨⟨rfl, rfl, rfl, rfl⟩, ?_, ?_, ?_, rfl⟩
    · simp only
      rw [List.eraseIdx_eq_dropLast (by omega)]
    · unfold meaning listed
      apply List.map_congr_left
      intro q hq
      simp only [Prod.mk.injEq, true_and]
      apply List.map_congr_left
      intro i hi
      have := hin q hq i hi
      rw [List.getElem?_dropLast, if_pos this]
    · intro q hq i hi
      simpa using hin q hq i hi
  · rw [if_neg hidx, hlast] at h
    have hlt' : idx < ts.tokens.length - 1 := by omega
    simp only [unwrapR_some, R.ok_bind, List.length_dropLast, if_pos hlt'] at h
    simp at h
    subst h
    have hget : ∀ q ∈ ts.sequences, ∀ i ∈ q.tokens,
        (ts.tokens.dropLast.set idx ts.tokens[ts.tokens.length - 1])[
          if i = ts.tokens.length - 1 then idx else i]? = ts.tokens[i]? := by
      intro q hq i hi
      have h1 := hr q hq i hi
      have h2 : i ≠ idx := fun he => huse q hq (he ▸ hi)
      by_cases hi' : i = ts.tokens.length - 1
      · rw [if_pos hi', List.getElem?_set_self (by simpa using hlt'), hi',
          List.getElem?_eq_getElem]
      · rw [if_neg hi', List.getElem?_set_ne (by omega), List.getElem?_dropLast,
          if_pos (by omega)]
    refine ⟨⟨rfl, rfl, rfl, rfl⟩, ?_, ?_, ?_, ?_⟩
    · simp only
      have hsplit : ts.tokens = ts.tokens.dropLast ++ [ts.tokens[ts.tokens.length - 1]] := by
        have hne : ts.tokens ≠ [] := List.ne_nil_of_length_pos (by omega)
        conv => lhs; rw [← List.dropLast_concat_getLast hne]
        rw [List.getLast_eq_getElem]
      refine (List.set_perm_cons_eraseIdx (by simpa using hlt') _).trans ?_
      have : ts.tokens.eraseIdx idx =
          ts.tokens.dropLast.eraseIdx idx ++ [ts.tokens[ts.tokens.length - 1]] := by
        conv => lhs; rw [hsplit]
        rw [List.eraseIdx_append_of_lt_length (by simpa using hlt')]
      rw [this]
      exact (List.perm_append_singleton _ _).symm
    · unfold meaning listed
      simp only [List.map_map]
      apply List.map_congr_left
      intro q hq
      simp only [Function.comp_apply, List.map_map, Prod.mk.injEq, true_and]
      apply List.map_congr_left
      intro i hi
      exact hget q hq i hi
    · intro q hq i hi
      simp only [List.mem_map] at hq
      obtain ⟨q0, hq0, rfl⟩ := hq
      simp only [List.mem_map] at hi
      obtain ⟨t, ht, rfl⟩ := hi
      have := hget q0 hq0 t ht
      rw [List.getElem?_eq_getElem (hr q0 hq0 t ht)] at this
      exact (List.getElem?_eq_some_iff.1 this).1
    · simp

/-! ### add_token and find_token -/

theorem addToken_eq (ts : TokenSet) (s : Bytes) (h : s ≠ []) :
    ts.addToken s = .ok ({ ts with
      tokens := ts.tokens ++ [.str s],
      sequences := ts.sequences.filter (fun q => q.string != s) }, ts.tokens.length) := by
  have he : (!s.isEmpty) = true := by simp [h]
  simp [addToken, rassert_true he]

theorem addToken_nil (ts : TokenSet) : ts.addToken [] = .error .assertFailed := rfl

theorem findToken_some {ts : TokenSet} {s : Bytes} {i : Nat} (h : ts.findToken s = some i) :
    ts.tokens[i]? = some (.str s) ∧ ∀ j < i, ts.tokens[j]? ≠ some (.str s) := by
  unfold findToken at h
  rw [List.findIdx?_eq_some_iff_getElem] at h
  obtain ⟨hlt, h1, h2⟩ := h
  constructor
  · rw [List.getElem?_eq_getElem hlt]
    cases hx : ts.tokens[i] with
    | ext n => simp [hx] at h1
    | str x => simp [hx] at h1; rw [h1]
  · intro j hj he
    have := h2 j hj
    rw [List.getElem?_eq_getElem (by omega)] at he
    simp at he
    simp [he] at this

theorem findToken_none {ts : TokenSet} {s : Bytes} :
    ts.findToken s = none ↔ Token.str s ∉ ts.tokens := by
  unfold findToken
  rw [List.findIdx?_eq_none_iff]
  constructor
  · intro h hm
    have := h _ hm
    simp at this
  · intro h t ht
    cases t with
    | ext n => rfl
    | str x =>
      simp only [beq_eq_false_iff_ne, ne_eq]
      rintro rfl
      exact h ht

end TokenSet
end Tokens
