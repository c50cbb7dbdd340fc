import Verif.Proofs.Local
import Verif.Proofs.Stuck
import Verif.Proofs.Loop
import Verif.Spec.Reorder

/-! The order in which a set lists its tokens and sequences does not matter. -/

set_option linter.unusedSimpArgs false
set_option linter.unusedVariables false

namespace Tokens
open Spec TokenSet Batch OptimizeBytes FragmentTokenizer

/-! ### The tokenizer -/

theorem sameSet_embeds {a b : TokenSet} (h : SameSet a b) : Embeds a b (fun _ => True) := by
  intro p x hp _
  cases p with
  | tok i =>
    refine samePiece_tok hp (h.tokens.mem_iff.1 ?_)
    rw [Piece.string_tok] at hp
    exact List.mem_of_getElem? hp
  | seq j => exact samePiece_seq (fun e he => h.sequences.mem_iff.1 he) hp

/-- A piece of `a` and the same piece of `b`, with the same tokens in the output. -/
def Alike (a b : TokenSet) (p q : Piece) : Prop :=
  (p.output a).map (a.tokens[·]?) = (q.output b).map (b.tokens[·]?) ∧
  (∀ i, p = .tok i → ∃ j x, q = .tok j ∧ a.tokens[i]? = some x ∧ b.tokens[j]? = some x) ∧
  (∀ i, p = .seq i → ∃ j s t, q = .seq j ∧ a.sequences[i]? = some s ∧ b.sequences[j]? = some t ∧
    s.string = t.string)

theorem seq_byName {b : TokenSet} (hb : (b.sequences.map (·.string)).Nodup) {s t : Sequence}
    (hs : s ∈ b.sequences) (ht : t ∈ b.sequences) (h : s.string = t.string) : s = t :=
  List.inj_on_of_nodup_map hb hs ht h

theorem samePiece_alike {a b : TokenSet} (h : ∀ e ∈ meaning a, e ∈ meaning b) (hb : (b.sequences.map (·.string)).Nodup)
    {p q : Piece} {x : Bytes} (hp : p.string a = some x) (hpq : SamePiece a b p q) : Alike a b p q := by
  obtain ⟨h1, h2, h3⟩ := hpq
  have hq : q.string b = some x := by rw [← h1, hp]
  cases p with
  | tok i =>
    obtain ⟨j, rfl⟩ := h3.1 ⟨i, rfl⟩
    rw [Piece.string_tok] at hp hq
    refine ⟨by simp [Piece.output, hp, hq], ?_, by simp⟩
    rintro i' e
    cases e
    exact ⟨j, _, rfl, hp, hq⟩
  | seq i =>
    cases q with
    | tok j => obtain ⟨i', e⟩ := h3.2 ⟨j, rfl⟩; cases e
    | seq j =>
      rw [Piece.string_seq] at hp hq
      obtain ⟨s, hs, hsx⟩ := hp
      obtain ⟨t, ht, htx⟩ := hq
      have hm : (s.string, listed a s) ∈ meaning a := List.mem_map.2 ⟨s, List.mem_of_getElem? hs, rfl⟩
      obtain ⟨t', ht', e⟩ := List.mem_map.1 (h _ hm)
      simp only [Prod.mk.injEq] at e
      have : t' = t := seq_byName hb ht' (List.mem_of_getElem? ht) (by rw [e.1, hsx, htx])
      subst this
      refine ⟨?_, by simp, ?_⟩
      · simp only [Piece.output, hs, ht]
        exact e.2.symm
      · rintro i' e'
        cases e'
        exact ⟨j, s, t', rfl, hs, ht, by rw [hsx, htx]⟩

theorem pieces_alike {a b : TokenSet} (h : ∀ e ∈ meaning a, e ∈ meaning b)
    (hb : (b.sequences.map (·.string)).Nodup) {ps qs : List Piece} {t : Bytes} (hsp : Spells a ps t)
    (h2 : List.Forall₂ (SamePiece a b) ps qs) : List.Forall₂ (Alike a b) ps qs := by
  induction h2 generalizing t with
  | nil => exact .nil
  | cons hpq _ ih =>
    cases hsp with
    | cons hp hs => exact .cons (samePiece_alike h hb hp hpq) (ih hs)

theorem longestLast_alike {a b : TokenSet} (h : SameSet a b) (hb : (b.sequences.map (·.string)).Nodup)
    {ps : List Piece} {t : Bytes} (hl : LongestLast a ps t) :
    ∃ qs, LongestLast b qs t ∧ List.Forall₂ (Alike a b) ps qs := by
  obtain ⟨qs, h1, h2⟩ := longestLast_embed (sameSet_embeds h) (sameSet_embeds h.symm) hl
    (fun _ _ _ _ => trivial)
  refine ⟨qs, h1, pieces_alike (fun e he => h.sequences.mem_iff.1 he) hb (LongestLast.optimal hl).1 h2⟩

theorem alike_output {a b : TokenSet} {ps qs : List Piece} (h : List.Forall₂ (Alike a b) ps qs) :
    (output a ps).map (a.tokens[·]?) = (output b qs).map (b.tokens[·]?) := by
  induction h with
  | nil => rfl
  | cons hpq _ ih =>
    simp only [output, List.flatMap_cons, List.map_append] at ih ⊢
    rw [hpq.1, ih]

theorem count_named {ts : TokenSet} (hn : ts.tokens.Nodup) {i : Nat} {t : Token}
    (hi : ts.tokens[i]? = some t) (l : List Nat) :
    l.count i = (l.map (ts.tokens[·]?)).count (some t) := by
  induction l with
  | nil => rfl
  | cons x l ih =>
    simp only [List.map_cons, List.count_cons, ih]
    congr 1
    have : x = i ↔ ts.tokens[x]? = some t := by
      refine ⟨fun e => by rw [e, hi], fun e => ?_⟩
      obtain ⟨h1, e1⟩ := List.getElem?_eq_some_iff.1 e
      obtain ⟨h2, e2⟩ := List.getElem?_eq_some_iff.1 hi
      exact (List.Nodup.getElem_inj_iff hn).1 (e1.trans e2.symm)
    by_cases hx : x = i
    · rw [if_pos (by simp [hx]), if_pos (by simp [this.1 hx])]
    · rw [if_neg (by simp [hx]), if_neg (by simpa using fun e => hx (this.2 e))]

theorem idx_iff {a b : TokenSet} (ha : a.tokens.Nodup) (hb : b.tokens.Nodup) {i j x y : Nat} {t u : Token}
    (hi : a.tokens[i]? = some t) (hj : b.tokens[j]? = some t) (hx : a.tokens[x]? = some u)
    (hy : b.tokens[y]? = some u) : x = i ↔ y = j := by
  have key : ∀ {c : TokenSet} (hc : c.tokens.Nodup) {m n : Nat} {v w : Token}, c.tokens[m]? = some v →
      c.tokens[n]? = some w → (n = m ↔ w = v) := by
    intro c hc m n v w hm hn
    refine ⟨fun e => ?_, fun e => ?_⟩
    · subst e; rw [hn] at hm; exact Option.some.inj hm
    · subst e
      obtain ⟨h1, e1⟩ := List.getElem?_eq_some_iff.1 hm
      obtain ⟨h2, e2⟩ := List.getElem?_eq_some_iff.1 hn
      exact (List.Nodup.getElem_inj_iff hc).1 (e2.trans e1.symm)
  rw [key ha hi hx, key hb hj hy]

theorem alike_pairs {a b : TokenSet} (ha : a.tokens.Nodup) (hb : b.tokens.Nodup) {i j i' j' : Nat}
    {t u : Token} (h1 : a.tokens[i]? = some t) (h2 : b.tokens[i']? = some t) (h3 : a.tokens[j]? = some u)
    (h4 : b.tokens[j']? = some u) {ps qs : List Piece} (h : List.Forall₂ (Alike a b) ps qs) :
    pairOcc i j ps = pairOcc i' j' qs := by
  induction h with
  | nil => rfl
  | @cons p q ps qs hpq hrest ih =>
    cases p with
    | seq k =>
      obtain ⟨k', s, s', rfl, _⟩ := hpq.2.2 k rfl
      simpa only [pairOcc] using ih
    | tok k =>
      obtain ⟨k', x, rfl, hk, hk'⟩ := hpq.2.1 k rfl
      cases hrest with
      | nil => rfl
      | @cons p2 q2 ps qs hpq2 hrest =>
        cases p2 with
        | seq m =>
          obtain ⟨m', s, s', rfl, _⟩ := hpq2.2.2 m rfl
          simpa only [pairOcc] using ih
        | tok m =>
          obtain ⟨m', y, rfl, hm, hm'⟩ := hpq2.2.1 m rfl
          simp only [pairOcc]
          rw [ih]
          congr 1
          have e1 := idx_iff ha hb h1 h2 hk hk'
          have e2 := idx_iff ha hb h3 h4 hm hm'
          by_cases c : k = i ∧ m = j
          · rw [if_pos c, if_pos ⟨e1.1 c.1, e2.1 c.2⟩]
          · rw [if_neg c, if_neg (fun d => c ⟨e1.2 d.1, e2.2 d.2⟩)]

theorem alike_seqs {a b : TokenSet} (ha : (a.sequences.map (·.string)).Nodup)
    (hb : (b.sequences.map (·.string)).Nodup) {i j : Nat} {s t : Sequence} (hi : a.sequences[i]? = some s)
    (hj : b.sequences[j]? = some t) (e : s.string = t.string) {ps qs : List Piece}
    (h : List.Forall₂ (Alike a b) ps qs) : ps.count (.seq i) = qs.count (.seq j) := by
  have key : ∀ {c : TokenSet} (hc : (c.sequences.map (·.string)).Nodup) {m n : Nat} {v w : Sequence},
      c.sequences[m]? = some v → c.sequences[n]? = some w → (n = m ↔ w.string = v.string) := by
    intro c hc m n v w hm hn
    refine ⟨fun e => ?_, fun e => ?_⟩
    · subst e; rw [hn] at hm; rw [Option.some.inj hm]
    · have hm' : (c.sequences.map (·.string))[m]? = some v.string := by simp [hm]
      have hn' : (c.sequences.map (·.string))[n]? = some v.string := by simp [hn, e]
      obtain ⟨h1, e1⟩ := List.getElem?_eq_some_iff.1 hm'
      obtain ⟨h2, e2⟩ := List.getElem?_eq_some_iff.1 hn'
      exact (List.Nodup.getElem_inj_iff hc).1 (e2.trans e1.symm)
  induction h with
  | nil => rfl
  | @cons p q ps qs hpq _ ih =>
    rw [List.count_cons, List.count_cons, ih]
    congr 1
    cases p with
    | tok k =>
      obtain ⟨k', x, rfl, _⟩ := hpq.2.1 k rfl
      simp
    | seq k =>
      obtain ⟨k', x, y, rfl, hx, hy, exy⟩ := hpq.2.2 k rfl
      have : k = i ↔ k' = j := by
        rw [key ha hi hx, key hb hj hy, exy, e]
      by_cases c : k = i
      · rw [if_pos (by simp [c]), if_pos (by simp [this.1 c])]
      · rw [if_neg (by simp [c]), if_neg (by simpa using fun d => c (this.2 d))]

/-- Tokenizing with two sets that cut each sample into the same pieces gives the same statistics. -/
theorem stats_alike {a b : TokenSet} (ha : SeqsInRange a) (hb : SeqsInRange b) (hn : a.tokens.Nodup)
    (hn2 : b.tokens.Nodup) {samples : List Bytes} {n : Option Nat} {x y : TokenStats}
    (hal : ∀ t ∈ samples, ∀ ps, LongestLast a ps t → ∃ qs, LongestLast b qs t ∧ List.Forall₂ (Alike a b) ps qs)
    (hx : tokenizeFileSync a samples n = .ok x) (hy : tokenizeFileSync b samples n = .ok y) :
    SameStats x y := by
  obtain ⟨_, d1, _, t1, w1, s1, n1, c1⟩ := sync_inv ha hx
  obtain ⟨_, d2, _, t2, w2, s2, n2, c2⟩ := sync_inv hb hy
  have q1 := (List.nodup_append.1 t1.nodup).2.1
  have q2 := (List.nodup_append.1 t2.nodup).2.1
  have key : ∀ ix ix', (∀ ps qs len, List.Forall₂ (Alike a b) ps qs →
      segCount a ps len ix = segCount b qs len ix') → cnt x ix = cnt y ix' := by
    intro ix ix' hh
    rw [c1, c2]
    unfold workSum
    congr 1
    apply List.map_congr_left
    intro t ht
    obtain ⟨ps, hps, e1⟩ := w1.seg t
    obtain ⟨qs, hqs, e2⟩ := w2.seg t
    obtain ⟨qs', g1, g2⟩ := hal t ht ps hps
    have := longestLast_unique t2 hqs g1
    subst this
    rw [e1, e2]
    exact hh ps qs t.length g2
  have lt : ∀ {α : Type} {l : List α} {i : Nat} {v : α}, l[i]? = some v → i < l.length := by
    intro α l i v hv
    exact (List.getElem?_eq_some_iff.1 hv).1
  refine ⟨?_, ?_, by rw [n1, n2], ?_, ?_, ?_⟩
  · refine key .total .total ?_
    intro ps qs len hh
    have := congrArg List.length (alike_output hh)
    simpa [segCount] using this
  · exact key .scanned .scanned (fun ps qs len hh => rfl)
  · rw [s1.tokenSet, s2.tokenSet]
    intro i j t hi hj
    refine key (.tok i) (.tok j) ?_
    intro ps qs len hh
    simp only [segCount]
    rw [if_pos (lt hi), if_pos (lt hj), count_named hn hi, count_named hn2 hj, alike_output hh]
  · rw [s1.tokenSet, s2.tokenSet]
    intro i j q r hi hj e
    refine key (.seq i) (.seq j) ?_
    intro ps qs len hh
    simp only [segCount]
    rw [if_pos (lt hi), if_pos (lt hj), alike_seqs q1 q2 hi hj e hh]
  · unfold pairCount
    rw [s1.tokenSet, s2.tokenSet]
    intro i j i' j' t u h1 h2 h3 h4
    refine key (.pair _) (.pair _) ?_
    intro ps qs len hh
    have idx : ∀ {m k l : Nat}, k < m → l < m → k * m + l < m * m ∧ (k * m + l) / m = k ∧
        (k * m + l) % m = l := by
      intro m k l hk hl
      refine ⟨?_, ?_, ?_⟩
      · calc k * m + l < k * m + m := by omega
          _ = (k + 1) * m := by rw [Nat.succ_mul]
          _ ≤ m * m := Nat.mul_le_mul_right _ hk
      · rw [Nat.mul_comm, Nat.mul_add_div (by omega), Nat.div_eq_of_lt hl, Nat.add_zero]
      · rw [Nat.mul_comm, Nat.mul_add_mod, Nat.mod_eq_of_lt hl]
    obtain ⟨f1, f2, f3⟩ := idx (lt h1) (lt h3)
    obtain ⟨g1, g2, g3⟩ := idx (lt h2) (lt h4)
    simp only [segCount]
    rw [if_pos f1, if_pos g1, f2, f3, g2, g3]
    exact alike_pairs hn hn2 h1 h2 h3 h4 hh

/-- Tokenizing with the same set in another order gives the same statistics. -/
theorem stats_sameSet {a b : TokenSet} (h : SameSet a b) (ha : SeqsInRange a) (hb : SeqsInRange b)
    (hn : a.tokens.Nodup) {samples : List Bytes} {n : Option Nat} {x y : TokenStats}
    (hx : tokenizeFileSync a samples n = .ok x) (hy : tokenizeFileSync b samples n = .ok y) :
    SameStats x y := by
  obtain ⟨_, _, _, t2, _⟩ := sync_inv hb hy
  have q2 := (List.nodup_append.1 t2.nodup).2.1
  exact stats_alike ha hb hn (h.tokens.nodup_iff.1 hn) (fun t _ ps hps => longestLast_alike h q2 hps) hx hy

/-! ### The cache -/

theorem inRange_listed {ts : TokenSet} : SeqsInRange ts ↔ ∀ e ∈ meaning ts, none ∉ e.2 := by
  unfold SeqsInRange meaning
  constructor
  · intro h e he hm
    obtain ⟨q, hq, rfl⟩ := List.mem_map.1 he
    obtain ⟨i, hi, e⟩ := List.mem_map.1 hm
    have := List.getElem?_eq_none_iff.1 e
    have := h q hq i hi
    omega
  · intro h q hq i hi
    apply Classical.byContradiction
    intro hlt
    exact h _ (List.mem_map.2 ⟨q, hq, rfl⟩) (List.mem_map.2 ⟨i, hi, List.getElem?_eq_none (by omega)⟩)

theorem inRange_sameSet {a b : TokenSet} (h : SameSet a b) (ha : SeqsInRange a) : SeqsInRange b :=
  inRange_listed.2 (fun e he => inRange_listed.1 ha e (h.sequences.mem_iff.2 he))

/-- Sets that differ in numbering only are sorted alike, or both cannot be sorted. -/
theorem sort_sameSet_eq {a b : TokenSet} (h : SameSet a b) (hn : a.tokens.Nodup)
    (hq : (a.sequences.map (·.string)).Nodup) (ha : SeqsInRange a) (hb : SeqsInRange b) :
    a.sort = b.sort := by
  obtain ⟨a', ha'⟩ := (sort_ok_iff a).2 ha
  obtain ⟨b', hb'⟩ := (sort_ok_iff b).2 hb
  rw [ha', hb', sort_canonical h hn hq ha' hb']

theorem getStats_same {s : SamplerData} {i : Option Nat} {n : Nat} {a b : TokenSet} (h : a.sort = b.sort)
    {c c' : Cache} {st : TokenStats} (hg : GetStats s i n c a c' st) : GetStats s i n c b c' st := by
  cases hg with
  | hit hs hk hc => exact .hit (h.symm.trans hs) hk hc
  | miss hs hk hc ht => exact .miss (h.symm.trans hs) hk hc ht

theorem getPairs_same {s : SamplerData} {i : Option Nat} {n : Nat} {a b : TokenSet} (h : a.sort = b.sort)
    {c c' : Cache} {st : TokenStats} (hg : GetStatsWithPairs s i n c a c' st) :
    GetStatsWithPairs s i n c b c' st := by
  cases hg with
  | mk hs ht hk => exact .mk (h.symm.trans hs) ht hk

/-! ### The optimizer -/

namespace Optimize

variable {env : Env} {bo : BytesOptimizer} {Fam : TokenSet → Prop} {lo hi ntokens : Nat}

/-- Two programs that do the same up to the order of the sets and lists they ask about. -/
inductive Sim {α : Type} : Prog α → Prog α → Prop where
  | pure (a : α) : Sim (.pure a) (.pure a)
  | fail (e : Err) : Sim (.fail e) (.fail e)
  | stats {a b : TokenSet} {k k' : TokenStats → Prog α} (h : a.sort = b.sort)
      (hk : ∀ st, Sim (k st) (k' st)) : Sim (.stats a k) (.stats b k')
  | pairs {a b : TokenSet} {k k' : TokenStats → Prog α} (h : a.sort = b.sort)
      (hk : ∀ st, Sim (k st) (k' st)) : Sim (.pairs a k) (.pairs b k')
  | sortUnstable {key : Bytes → Nat} {l l' : List Bytes} {k k' : List Bytes → Prog α} (h : l.Perm l')
      (hk : ∀ m, m.Perm l → Sim (k m) (k' m)) : Sim (.sortUnstable key l k) (.sortUnstable key l' k')
  | clock {k k' : Bool → Prog α} (hk : ∀ b, Sim (k b) (k' b)) : Sim (.clock k) (.clock k')
  | save {ts : TokenSet} {k k' : Prog α} (hk : Sim k k') : Sim (.save ts k) (.save ts k')

theorem sim_refl {α : Type} (p : Prog α) : Sim p p := by
  induction p with
  | pure a => exact .pure a
  | fail e => exact .fail e
  | stats ts k ih => exact .stats rfl ih
  | pairs ts k ih => exact .pairs rfl ih
  | sortUnstable key l k ih => exact .sortUnstable (.refl _) (fun m _ => ih m)
  | clock k ih => exact .clock ih
  | save ts k ih => exact .save ih

theorem sim_bind {α β : Type} {p q : Prog α} {f g : α → Prog β} (h : Sim p q) (hf : ∀ a, Sim (f a) (g a)) :
    Sim (p >>= f) (q >>= g) := by
  show Sim (p.bind f) (q.bind g)
  induction h with
  | pure a => exact hf a
  | fail e => exact .fail e
  | stats h _ ih => exact .stats h ih
  | pairs h _ ih => exact .pairs h ih
  | sortUnstable h _ ih => exact .sortUnstable h ih
  | clock _ ih => exact .clock ih
  | save _ ih => exact .save ih

theorem sim_run {α : Type} {p q : Prog α} (h : Sim p q) {w w' : World} {r : R α} (hr : Run env p w r w') :
    Run env q w r w' := by
  induction h generalizing w w' with
  | pure a => exact hr
  | fail e => exact hr
  | stats h _ ih =>
    cases hr with
    | stats hg hk => exact .stats (getStats_same h hg) (ih _ hk)
    | statsFail hf =>
      refine .statsFail ?_
      cases hf with
      | sort h' => exact .sort (h.symm.trans h')
      | key hs hk => exact .key (h.symm.trans hs) hk
      | tokenize hs hk hc ht => exact .tokenize (h.symm.trans hs) hk hc ht
  | pairs h _ ih =>
    cases hr with
    | pairs hg hk => exact .pairs (getPairs_same h hg) (ih _ hk)
    | pairsFail hf =>
      refine .pairsFail ?_
      cases hf with
      | sort h' => exact .sort (h.symm.trans h')
      | tokenize hs ht => exact .tokenize (h.symm.trans hs) ht
      | key hs hk => exact .key (h.symm.trans hs) hk
  | sortUnstable h _ ih =>
    cases hr with
    | sortUnstable hp hs hk => exact .sortUnstable (hp.trans h) hs (ih _ hp hk)
  | clock _ ih =>
    cases hr with
    | clock b hk => exact .clock b (ih b hk)
  | save _ ih =>
    cases hr with
    | save hf hk => exact .save hf (ih hk)
    | saveFail hf => exact .saveFail hf

theorem fam_sort {a b : TokenSet} (B : Behaves bo Fam lo hi ntokens) (h : SameSet a b) (ha : Fam a)
    (hb : Fam b) : a.sort = b.sort := by
  have hu := Tokens.Family.usable (B.family ha)
  exact sort_sameSet_eq h hu.distinct (seqs_nodup hu.accepted) hu.inRange
    (Tokens.Family.usable (B.family hb)).inRange

theorem sim_addToken {a b : TokenSet} (h : a.sort = b.sort) : Sim (addToken bo a) (addToken bo b) := by
  unfold addToken
  exact sim_bind (.pairs h (fun st => .pure st)) (fun st => sim_refl _)

theorem sim_removeLoop {a b : TokenSet} (B : Behaves bo Fam lo hi ntokens) (h : SameSet a b) (ha : Fam a)
    (hb : Fam b) (total : Nat) : ∀ (l : List Bytes) (rc : Removals), (∀ s ∈ l, s ∈ longTokens a) →
    Sim (removeLoop bo a ntokens total l rc) (removeLoop bo b ntokens total l rc) := by
  intro l
  induction l with
  | nil => intro rc _; exact sim_refl _
  | cons s rest ih =>
    intro rc hl
    obtain ⟨i, t, g1, g2, g3, g4, g5⟩ := remove_long B ha (hl s (by simp))
    obtain ⟨i', t', k1, k2, k3, k4, k5⟩ := remove_long B hb ((sameSet_long h).mem_iff.1 (hl s (by simp)))
    have hua := Tokens.Family.usable (B.family ha)
    have hub := Tokens.Family.usable (B.family hb)
    obtain ⟨p1, p2, p3, p4, p5⟩ := removeToken_spec hua.inRange g2
    obtain ⟨q1, q2, q3, q4, q5⟩ := removeToken_spec hub.inRange k2
    have er : ∀ {ts : TokenSet} {j : Nat}, ts.tokens.Nodup → ts.findToken s = some j →
        ts.tokens.eraseIdx j = ts.tokens.erase (.str s) := by
      intro ts j hn hj
      obtain ⟨z1, z2⟩ := findToken_some hj
      obtain ⟨hl, z1⟩ := List.getElem?_eq_some_iff.1 z1
      rw [← z1, List.Nodup.erase_getElem hn]
    have hsame : SameSet t t' := by
      refine ⟨⟨?_, ?_, ?_, ?_⟩, ?_, ?_⟩
      · rw [p1.nExt, q1.nExt, h.header.nExt]
      · rw [p1.tokenType, q1.tokenType, h.header.tokenType]
      · rw [p1.processing, q1.processing, h.header.processing]
      · rw [p1.splitParagraphs, q1.splitParagraphs, h.header.splitParagraphs]
      · rw [er hua.distinct g1] at p2
        rw [er hub.distinct k1] at q2
        exact p2.trans ((h.tokens.erase _).trans q2.symm)
      · rw [p3, q3]; exact h.sequences
    unfold removeLoop
    rw [g1, k1]
    show Sim (Prog.lift (a.removeToken i) >>= _) (Prog.lift (b.removeToken i') >>= _)
    rw [g2, k2]
    show Sim (Prog.lift (subR ntokens 1) >>= _) (Prog.lift (subR ntokens 1) >>= _)
    refine sim_bind (sim_refl _) (fun m => ?_)
    rw [show t.ntokens = t'.ntokens from hsame.tokens.length_eq]
    refine sim_bind (sim_refl _) (fun _ => ?_)
    refine sim_bind (sim_addToken (fam_sort B hsame g3 k3)) (fun o => ?_)
    have ih' := ih (rc.bump s) (fun s' hs' => hl s' (by simp [hs']))
    cases o with
    | none => exact ih'
    | some ts2 =>
      refine sim_bind (sim_refl _) (fun st2 => ?_)
      split
      · exact sim_refl _
      · exact ih'

theorem sim_tradeByte {a b : TokenSet} (h : SameSet a b) (st : TokenStats) :
    Sim (tradeByte bo a ntokens st) (tradeByte bo b ntokens st) := by
  unfold tradeByte
  rw [show a.ntokens = b.ntokens from h.tokens.length_eq,
    show a.nLongTokens = b.nLongTokens by rw [nLong_eq, nLong_eq, (sameSet_long h).length_eq],
    show a.minBytesExtTokens = b.minBytesExtTokens by unfold minBytesExtTokens; rw [h.header.tokenType]]
  exact sim_refl _

theorem sim_removeAdd {a b : TokenSet} (B : Behaves bo Fam lo hi ntokens) (h : SameSet a b) (ha : Fam a)
    (hb : Fam b) (rc : Removals) :
    Sim (removeAddToken bo a ntokens rc) (removeAddToken bo b ntokens rc) := by
  have hs := fam_sort B h ha hb
  unfold removeAddToken
  rw [show a.ntokens = b.ntokens from h.tokens.length_eq]
  split
  · exact sim_bind (sim_addToken hs) (fun o => sim_refl _)
  · refine sim_bind (sim_refl _) (fun _ => ?_)
    refine sim_bind (.stats hs (fun st => .pure st)) (fun st => ?_)
    refine sim_bind (sim_tradeByte h st) (fun o => ?_)
    cases o with
    | some st' => exact sim_refl _
    | none =>
      rw [longStrings_eq, longStrings_eq]
      exact .sortUnstable (sameSet_long h) (fun m hm =>
        sim_removeLoop B h ha hb _ m rc (fun s hs => hm.mem_iff.1 hs))

theorem sim_step {a b : TokenSet} (B : Behaves bo Fam lo hi ntokens) (h : SameSet a b) (ha : Fam a)
    (hb : Fam b) (rc : Removals) :
    Sim (optimizationStep bo a ntokens rc) (optimizationStep bo b ntokens rc) := by
  have hs := fam_sort B h ha hb
  unfold optimizationStep
  rw [show a.nLongTokens = b.nLongTokens by rw [nLong_eq, nLong_eq, (sameSet_long h).length_eq]]
  refine sim_bind (.stats hs (fun st => .pure st)) (fun st => ?_)
  refine sim_bind (sim_refl _) (fun n => ?_)
  refine sim_bind (sim_refl _) (fun ts' => ?_)
  refine sim_bind (sim_refl _) (fun st' => ?_)
  split
  · exact sim_refl _
  · exact sim_bind (sim_removeAdd B h ha hb rc) (fun o => sim_refl _)

theorem impl_same {a b : TokenSet} (B : Behaves bo Fam lo hi ntokens) (h : SameSet a b) (ha : Fam a)
    (hb : Fam b) {w w' : World} {r : R TokenStats} (hi : Impl env bo ntokens a w r w') :
    Impl env bo ntokens b w r w' := by
  have hs := fam_sort B h ha hb
  have first : ∀ {w r w'}, Run env (getStats a) w r w' → Run env (getStats b) w r w' := fun hr =>
    sim_run (.stats hs (fun st => .pure st)) hr
  cases hi with
  | done h1 h2 h3 =>
    cases h2 with
    | stop hr =>
      refine .done (first h1) (.stop (sim_run (sim_step B h ha hb _) hr)) ?_
      unfold finish at h3 ⊢
      rwa [hs] at h3
    | again hr hsave hl => exact .done (first h1) (.again (sim_run (sim_step B h ha hb _) hr) hsave hl) h3
  | firstFail h1 => exact .firstFail (first h1)
  | loopFail h1 h2 =>
    refine .loopFail (first h1) ?_
    cases h2 with
    | fail hr => exact .fail (sim_run (sim_step B h ha hb _) hr)
    | again hr hsave hl => exact .again (sim_run (sim_step B h ha hb _) hr) hsave hl
    | saveFail hr hsave => exact .saveFail (sim_run (sim_step B h ha hb _) hr) hsave

end Optimize
end Tokens
