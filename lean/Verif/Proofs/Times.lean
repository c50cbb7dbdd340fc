import Verif.Spec.Times
import Verif.Proofs.Repeat
import Verif.Proofs.Reorder
import Verif.Proofs.Reach

/-! The order of the samples does not matter, and neither does repeating all of them (without Huffman). -/

set_option linter.unusedSimpArgs false
set_option linter.unusedVariables false

namespace Tokens
open Spec TokenSet Batch OptimizeBytes FragmentTokenizer

/-! ### Statistics -/

theorem workSum_replicate (d : Bytes → Ix → Nat) (l : List Bytes) (ix : Ix) (k : Nat) :
    workSum d (List.replicate k l).flatten ix = k * workSum d l ix := by
  induction k with
  | zero => simp
  | succ k ih => rw [List.replicate_succ, List.flatten_cons, workSum_append, ih, Nat.succ_mul, Nat.add_comm]

theorem getD_map_mul (k : Nat) (l : List Nat) (i : Nat) : (l.map (k * ·)).getD i 0 = k * l.getD i 0 := by
  simp only [List.getD_eq_getElem?_getD, List.getElem?_map]
  cases l[i]? <;> simp

theorem sync_times {ts : TokenSet} (hr : SeqsInRange ts) {k : Nat} {s1 s2 : List Bytes} {n1 n2 : Option Nat}
    (hp : s2.Perm (List.replicate k s1).flatten) {a b : TokenStats}
    (ha : tokenizeFileSync ts s1 n1 = .ok a) (hb : tokenizeFileSync ts s2 n2 = .ok b) : Times k a b := by
  obtain ⟨tk, d, e1, _, w1, f1, _, g1⟩ := sync_inv hr ha
  obtain ⟨st, c1, c2, c3, c4⟩ := sync_ok e1 w1 s2 n2
  have : b = st := Except.ok.inj (hb.symm.trans c1)
  subst this
  have key : ∀ ix, cnt b ix = k * cnt a ix := by
    intro ix
    rw [c4, workSum_perm hp, workSum_replicate, g1]
  refine ⟨by rw [c2.tokenSet, f1.tokenSet], key .total, key .scanned, ?_, ?_, ?_⟩
  · refine list_ext_getD (by simp [c2.tokenCounts, f1.tokenCounts]) (fun i => ?_)
    rw [getD_map_mul]
    exact key (.tok i)
  · refine list_ext_getD (by simp [c2.seqCounts, f1.seqCounts]) (fun i => ?_)
    rw [getD_map_mul]
    exact key (.seq i)
  · refine list_ext_getD (by simp [c2.pairCounts, f1.pairCounts]) (fun i => ?_)
    rw [getD_map_mul]
    exact key (.pair i)

theorem Spec.Times.clone {k : Nat} {a b : TokenStats} (h : Times k a b) :
    Times k a.cloneWithoutPairs b.cloneWithoutPairs :=
  ⟨h.tokenSet, h.total, h.scanned, h.tokens, h.seqs, rfl⟩

theorem Spec.Times.one {a b : TokenStats} (h : Times 1 a b) (hi : b.initialSize = a.initialSize) : b = a := by
  obtain ⟨h1, h2, h3, h4, h5, h6⟩ := h
  cases a; cases b
  simp_all

/-! ### The functions of the optimizer -/

namespace Optimize

variable {k : Nat} {a b : TokenStats}

theorem getR_times (l : List Nat) (i : Nat) : getR (l.map (k * ·)) i = (getR l i).map (k * ·) := by
  unfold getR
  rw [List.getElem?_map]
  cases l[i]? <;> rfl

theorem pairOrder_times (hk : 0 < k) (l : List Nat) : pairOrder (l.map (k * ·)) = pairOrder l := by
  unfold pairOrder
  rw [List.length_map]
  have e1 : (fun i => decide (0 < (l.map (k * ·)).getD i 0)) = (fun i => decide (0 < l.getD i 0)) := by
    funext i
    rw [getD_map_mul]
    simp [Nat.mul_pos_iff_of_pos_left hk]
  have e2 : (fun i j => decide ((l.map (k * ·)).getD j 0 ≤ (l.map (k * ·)).getD i 0)) =
      (fun i j => decide (l.getD j 0 ≤ l.getD i 0)) := by
    funext i j
    rw [getD_map_mul, getD_map_mul]
    simp [Nat.mul_le_mul_left_iff hk]
  rw [e1, e2]

theorem bpeLoop_times (h : Times k a b) (l : List Nat) : ∀ new,
    bpeLoop b l new = (bpeLoop a l new).map (fun p => (p.1, k * p.2)) := by
  induction l with
  | nil => intro new; rfl
  | cons p ps ih =>
    intro new
    unfold bpeLoop
    rw [show b.ntokens = a.ntokens by unfold TokenStats.ntokens; rw [h.tokenSet], h.tokenSet, h.pairs, getR_times]
    by_cases hz : a.ntokens = 0
    · rw [if_pos hz, if_pos hz]; rfl
    · rw [if_neg hz, if_neg hz]
      cases getR a.tokenSet.tokens (p / a.ntokens) with
      | error e => rfl
      | ok t1 =>
        cases getR a.tokenSet.tokens (p % a.ntokens) with
        | error e => rfl
        | ok t2 =>
          cases t1 with
          | ext x => cases t2 <;> rfl
          | str s1 =>
            cases t2 with
            | ext x => rfl
            | str s2 =>
              simp only [R.ok_bind]
              cases isValidToken (s1 ++ s2) with
              | error e => rfl
              | ok v =>
                simp only [R.ok_bind]
                cases v with
                | false => simpa using ih (s1 ++ s2)
                | true =>
                  simp only [if_true]
                  cases getR a.pairCounts p <;> rfl

/-- The same choice with its gain multiplied. -/
def timesO (k : Nat) (o : Option (TokenSet × Int)) : Option (TokenSet × Int) :=
  o.map (fun p => (p.1, (k : Int) * p.2))

theorem addTokenBpe_times (hk : 0 < k) (h : Times k a b) :
    addTokenBpe b = (addTokenBpe a).map (timesO k) := by
  unfold addTokenBpe
  rw [h.pairs, pairOrder_times hk, bpeLoop_times h, h.tokenSet]
  cases bpeLoop a (pairOrder a.pairCounts) [] with
  | error e => rfl
  | ok p =>
    show (if p.1.isEmpty then _ else _) = Except.map _ (if p.1.isEmpty then _ else _)
    split
    · rfl
    · cases a.tokenSet.addToken p.1 with
      | error e => rfl
      | ok q => simp [timesO, bind, Except.bind, Except.map]

theorem sumTok_times (cost : ByteArr (Option Nat)) (counts : List Nat) (l : List Token) : ∀ i total,
    sumTok cost (counts.map (k * ·)) l i (k * total) = (sumTok cost counts l i total).map (k * ·) := by
  induction l with
  | nil => intro i total; rfl
  | cons t ts ih =>
    intro i total
    rcases t with s | _
    swap
    · unfold sumTok; exact ih _ _
    · rcases s with _ | ⟨c, _ | ⟨d, s⟩⟩
      · unfold sumTok; exact ih _ _
      · simp only [sumTok]
        rw [getR_times]
        cases unwrapR (cost c) with
        | error e => rfl
        | ok x =>
          cases getR counts i with
          | error e => rfl
          | ok n =>
            show sumTok _ _ _ _ (k * total + x * (k * n)) = _
            rw [show k * total + x * (k * n) = k * (total + x * n) by ring]
            exact ih _ _
      · unfold sumTok; exact ih _ _

theorem sumSeq_times (cost : ByteArr (Option Nat)) (counts : List Nat) (l : List Sequence) : ∀ i total,
    sumSeq cost (counts.map (k * ·)) l i (k * total) = (sumSeq cost counts l i total).map (k * ·) := by
  induction l with
  | nil => intro i total; rfl
  | cons q qs ih =>
    intro i total
    obtain ⟨s, l⟩ := q
    rcases s with _ | ⟨c, _ | ⟨d, s⟩⟩
    · unfold sumSeq; exact ih _ _
    · simp only [sumSeq]
      rw [getR_times]
      cases unwrapR (cost c) with
      | error e => rfl
      | ok x =>
        cases getR counts i with
        | error e => rfl
        | ok n =>
          show sumSeq _ _ _ _ (k * total + x * (k * n)) = _
          rw [show k * total + x * (k * n) = k * (total + x * n) by ring]
          exact ih _ _
    · unfold sumSeq; exact ih _ _

theorem countBytes_times (h : Times k a b) (ts : TokenSet) :
    countTokensInBytes ts b = (countTokensInBytes ts a).map (k * ·) := by
  unfold countTokensInBytes
  cases costTok ts.tokens (fun _ => none) with
  | error e => rfl
  | ok c1 =>
    simp only [R.ok_bind]
    cases costSeq ts.sequences c1 with
    | error e => rfl
    | ok c2 =>
      simp only [R.ok_bind]
      have := sumTok_times (k := k) c2 a.tokenCounts a.tokenSet.tokens 0 0
      rw [Nat.mul_zero] at this
      rw [h.tokenSet, h.tokens, this, h.seqs]
      cases sumTok c2 a.tokenCounts a.tokenSet.tokens 0 0 with
      | error e => rfl
      | ok n =>
        exact sumSeq_times (k := k) c2 a.seqCounts a.tokenSet.sequences 0 n

/-- The optimizer of bytes does not see that all counts are multiplied. -/
def Blind (bo : BytesOptimizer) (k : Nat) : Prop := ∀ a b n, Times k a b → bo b n = bo a n

theorem noop_blind (k : Nat) : Blind noop k := by
  intro a b n h
  unfold noop
  rw [h.tokenSet]

theorem countTokens_times (counts : List Nat) (l : List Token) : ∀ i (x y : ByteArr Nat),
    (∀ c, y c = k * x c) → (∃ e, countTokens counts l i x = .error e ∧
      countTokens (counts.map (k * ·)) l i y = .error e) ∨
      ∃ x' y', countTokens counts l i x = .ok x' ∧ countTokens (counts.map (k * ·)) l i y = .ok y' ∧
        ∀ c, y' c = k * x' c := by
  induction l with
  | nil => intro i x y h; exact .inr ⟨x, y, rfl, rfl, h⟩
  | cons t ts ih =>
    intro i x y h
    rcases t with s | _
    swap
    · exact ih _ _ _ h
    · rcases s with _ | ⟨c, _ | ⟨d, s⟩⟩
      · exact ih _ _ _ h
      · simp only [countTokens]
        rw [getR_times]
        cases getR counts i with
        | error e => exact .inl ⟨e, rfl, rfl⟩
        | ok n =>
          simp only [R.ok_bind, Except.map]
          refine ih _ _ _ ?_
          intro z
          unfold ByteArr.set
          split
          · rfl
          · exact h z
      · exact ih _ _ _ h

theorem countSeqs_times (counts : List Nat) (l : List Sequence) : ∀ i (x y : ByteArr Nat),
    (∀ c, y c = k * x c) → (∃ e, countSeqs counts l i x = .error e ∧
      countSeqs (counts.map (k * ·)) l i y = .error e) ∨
      ∃ x' y', countSeqs counts l i x = .ok x' ∧ countSeqs (counts.map (k * ·)) l i y = .ok y' ∧
        ∀ c, y' c = k * x' c := by
  induction l with
  | nil => intro i x y h; exact .inr ⟨x, y, rfl, rfl, h⟩
  | cons q qs ih =>
    intro i x y h
    obtain ⟨s, l⟩ := q
    rcases s with _ | ⟨c, _ | ⟨d, s⟩⟩
    · exact ih _ _ _ h
    · simp only [countSeqs]
      rw [getR_times]
      cases getR counts i with
      | error e => exact .inl ⟨e, rfl, rfl⟩
      | ok n =>
        simp only [R.ok_bind, Except.map]
        refine ih _ _ _ ?_
        intro z
        unfold ByteArr.set
        split
        · rfl
        · exact h z
    · exact ih _ _ _ h

theorem byCount_times (hk : 0 < k) {x y : ByteArr Nat} (h : ∀ c, y c = k * x c) : byCount y = byCount x := by
  unfold byCount
  generalize allBytes = l
  have : (fun a b => decide (y b ≤ y a)) = (fun a b => decide (x b ≤ x a)) := by
    funext a b
    rw [h, h]
    simp [Nat.mul_le_mul_left_iff hk]
  rw [this]

theorem simple_blind (hk : 0 < k) : Blind simple k := by
  intro a b n h
  unfold simple
  rw [h.tokenSet]
  cases subR n a.tokenSet.nExt with
  | error e => rfl
  | ok m =>
    simp only [R.ok_bind]
    rw [h.tokens, h.seqs]
    rcases countTokens_times (k := k) a.tokenCounts a.tokenSet.tokens 0 (fun _ => 0) (fun _ => 0)
      (fun _ => (Nat.mul_zero k).symm) with ⟨e, e1, e2⟩ | ⟨x, y, e1, e2, hxy⟩
    · rw [e1, e2]; rfl
    · rw [e1, e2]
      simp only [R.ok_bind]
      rcases countSeqs_times (k := k) a.seqCounts a.tokenSet.sequences 0 x y hxy with
        ⟨e, e1, e2⟩ | ⟨x', y', e1, e2, hxy'⟩
      · rw [e1, e2]
      · rw [e1, e2]
        simp only [R.ok_bind]
        rw [byCount_times hk hxy']

theorem huff_blind : Blind huff 1 := by
  intro a b n h
  have e1 : b.tokenCounts = a.tokenCounts := by simpa using h.tokens
  have e2 : b.seqCounts = a.seqCounts := by simpa using h.seqs
  unfold huff huffCounts
  rw [h.tokenSet, e1, e2]

theorem blind_for (ty : TokenType) (hk : 0 < k) (h : ty = .bytesHuff → k = 1) : Blind (optimizerFor ty) k := by
  cases ty with
  | bits1 => exact simple_blind hk
  | bits2 => exact simple_blind hk
  | bits4 => exact simple_blind hk
  | bytes => exact noop_blind k
  | bytesHuff => rw [h rfl]; exact huff_blind

theorem addByte_times {bo : BytesOptimizer} (hb : Blind bo k) (h : Times k a b) :
    addByte bo b = (addByte bo a).map (timesO k) := by
  unfold addByte
  rw [h.tokenSet, countBytes_times h]
  cases countTokensInBytes a.tokenSet a with
  | error e => rfl
  | ok old =>
    simp only [Except.map, R.ok_bind]
    cases subR a.tokenSet.ntokens a.tokenSet.nLongTokens with
    | error e => rfl
    | ok n =>
      simp only [R.ok_bind]
      rw [hb _ _ _ h]
      cases bo a (n + 1) with
      | error e => rfl
      | ok ts =>
        simp only [R.ok_bind]
        by_cases hn : ts.ntokens = a.tokenSet.ntokens
        · rw [if_pos hn, if_pos hn]; rfl
        · rw [if_neg hn, if_neg hn, countBytes_times h]
          cases countTokensInBytes ts a with
          | error e => rfl
          | ok new =>
            simp only [Except.map, R.ok_bind, timesO, Option.map_some]
            congr 3
            push_cast
            ring

theorem choose_times (hk : 0 < k) (x y : Option (TokenSet × Int)) :
    choose (timesO k x) (timesO k y) = choose x y := by
  cases x with
  | none => cases y <;> rfl
  | some x =>
    cases y with
    | none => rfl
    | some y =>
      have hk' : (0 : Int) < k := by exact_mod_cast hk
      simp only [timesO, Option.map_some, choose]
      by_cases h : x.2 > y.2
      · rw [if_pos h, if_pos (mul_lt_mul_of_pos_left h hk')]
      · rw [if_neg h, if_neg (by
          have : x.2 ≤ y.2 := not_lt.1 h
          exact not_lt.2 (mul_le_mul_of_nonneg_left this hk'.le))]

/-! ### Programs -/

/-- The two programs do the same when the statistics they are given are related by `T`, and their results
are related by `Q`. -/
inductive Twin (T : TokenStats → TokenStats → Prop) {α β : Type} (Q : α → β → Prop) :
    Prog α → Prog β → Prop where
  | pure {x : α} {y : β} (h : Q x y) : Twin T Q (.pure x) (.pure y)
  | fail (e : Err) : Twin T Q (.fail e) (.fail e)
  | stats {ts : TokenSet} {f : TokenStats → Prog α} {g : TokenStats → Prog β}
      (h : ∀ x y, T x y → Twin T Q (f x) (g y)) : Twin T Q (.stats ts f) (.stats ts g)
  | pairs {ts : TokenSet} {f : TokenStats → Prog α} {g : TokenStats → Prog β}
      (h : ∀ x y, T x y → Twin T Q (f x) (g y)) : Twin T Q (.pairs ts f) (.pairs ts g)
  | sortUnstable {key : Bytes → Nat} {l : List Bytes} {f : List Bytes → Prog α} {g : List Bytes → Prog β}
      (h : ∀ m, Twin T Q (f m) (g m)) : Twin T Q (.sortUnstable key l f) (.sortUnstable key l g)
  | clock {f : Bool → Prog α} {g : Bool → Prog β} (h : ∀ c, Twin T Q (f c) (g c)) :
      Twin T Q (.clock f) (.clock g)
  | save {ts : TokenSet} {f : Prog α} {g : Prog β} (h : Twin T Q f g) : Twin T Q (.save ts f) (.save ts g)

variable {T : TokenStats → TokenStats → Prop} {bo : BytesOptimizer} {Fam : TokenSet → Prop}
  {lo hi ntokens : Nat} {env1 env2 : Env}

theorem Twin.swap {α β : Type} {Q : α → β → Prop} {p : Prog α} {q : Prog β} (h : Twin T Q p q) :
    Twin (fun x y => T y x) (fun x y => Q y x) q p := by
  induction h with
  | pure h => exact .pure h
  | fail e => exact .fail e
  | stats _ ih => exact .stats (fun x y h => ih y x h)
  | pairs _ ih => exact .pairs (fun x y h => ih y x h)
  | sortUnstable _ ih => exact .sortUnstable ih
  | clock _ ih => exact .clock ih
  | save _ ih => exact .save ih

theorem twin_bind {α β γ δ : Type} {Q : α → β → Prop} {Q' : γ → δ → Prop} {p : Prog α} {q : Prog β}
    {f : α → Prog γ} {g : β → Prog δ} (h : Twin T Q p q) (hf : ∀ x y, Q x y → Twin T Q' (f x) (g y)) :
    Twin T Q' (p >>= f) (q >>= g) := by
  show Twin T Q' (p.bind f) (q.bind g)
  induction h with
  | pure h => exact hf _ _ h
  | fail e => exact .fail e
  | stats _ ih => exact .stats ih
  | pairs _ ih => exact .pairs ih
  | sortUnstable _ ih => exact .sortUnstable ih
  | clock _ ih => exact .clock ih
  | save _ ih => exact .save ih

theorem twin_stats {α β : Type} {Q : α → β → Prop} {ts : TokenSet} {f : TokenStats → Prog α}
    {g : TokenStats → Prog β} (h : ∀ x y, T x y → Twin T Q (f x) (g y)) :
    Twin T Q (getStats ts >>= f) (getStats ts >>= g) := .stats h

theorem twin_pairs {α β : Type} {Q : α → β → Prop} {ts : TokenSet} {f : TokenStats → Prog α}
    {g : TokenStats → Prog β} (h : ∀ x y, T x y → Twin T Q (f x) (g y)) :
    Twin T Q (getStatsWithPairs ts >>= f) (getStatsWithPairs ts >>= g) := .pairs h

theorem twin_sort {α β : Type} {Q : α → β → Prop} {key : Bytes → Nat} {l : List Bytes}
    {f : List Bytes → Prog α} {g : List Bytes → Prog β} (h : ∀ m, Twin T Q (f m) (g m)) :
    Twin T Q (sortUnstableBy key l >>= f) (sortUnstableBy key l >>= g) := .sortUnstable h

theorem twin_lift {α : Type} (x : R α) : Twin T Eq (Prog.lift x) (Prog.lift x) := by
  cases x with
  | ok a => exact .pure rfl
  | error e => exact .fail e

theorem twin_lift_map {α β : Type} {x : R α} {y : R β} {f : α → β} (h : y = x.map f) :
    Twin T (fun u v => v = f u) (Prog.lift x) (Prog.lift y) := by
  subst h
  cases x with
  | ok a => exact .pure rfl
  | error e => exact .fail e

theorem twin_pure {α : Type} (x : α) : Twin T Eq (Pure.pure x : Prog α) (Pure.pure x) := .pure rfl

theorem twin_addToken (hk : 0 < k) (hb : Blind bo k) (ts : TokenSet) :
    Twin (Times k) Eq (addToken bo ts) (addToken bo ts) := by
  unfold addToken
  refine twin_pairs (fun x y h => ?_)
  refine twin_bind (twin_lift_map (addByte_times hb h)) (fun u v e1 => ?_)
  refine twin_bind (twin_lift_map (addTokenBpe_times hk h)) (fun u' v' e2 => ?_)
  rw [e1, e2, choose_times hk]
  exact twin_pure _

/-- The same pair, statistics multiplied. -/
def TimesOpt (k : Nat) : Option TokenStats → Option TokenStats → Prop
  | none, none => True
  | some x, some y => Times k x y
  | _, _ => False

theorem twin_removeLoop (hk : 0 < k) (hb : Blind bo k) (ts : TokenSet) (total : Nat) (l : List Bytes) :
    ∀ rc, Twin (Times k) (fun x y => TimesOpt k x.1 y.1 ∧ x.2 = y.2)
      (removeLoop bo ts ntokens total l rc) (removeLoop bo ts ntokens (k * total) l rc) := by
  induction l with
  | nil => intro rc; exact .pure ⟨trivial, rfl⟩
  | cons s rest ih =>
    intro rc
    unfold removeLoop
    refine twin_bind (twin_lift _) (fun i i' e => ?_)
    subst e
    refine twin_bind (twin_lift _) (fun t t' e => ?_)
    subst e
    refine twin_bind (twin_lift _) (fun m m' e => ?_)
    subst e
    refine twin_bind (twin_lift _) (fun _ _ _ => ?_)
    refine twin_bind (twin_addToken hk hb _) (fun o o' e => ?_)
    subst e
    cases o with
    | none => exact ih _
    | some ts2 =>
      refine twin_stats (fun x y h => ?_)
      show Twin _ _ (if x.totalTokens < total then _ else _) (if y.totalTokens < k * total then _ else _)
      rw [h.total]
      by_cases hlt : x.totalTokens < total
      · rw [if_pos hlt, if_pos (Nat.mul_lt_mul_of_pos_left hlt hk)]
        exact .pure ⟨h, rfl⟩
      · rw [if_neg hlt, if_neg (by
          have : total ≤ x.totalTokens := by omega
          exact Nat.not_lt.2 (Nat.mul_le_mul_left k this))]
        exact ih _

theorem twin_tradeByte (hk : 0 < k) (hb : Blind bo k) (ts : TokenSet) {x y : TokenStats} (hxy : Times k x y) :
    Twin (Times k) (TimesOpt k) (tradeByte bo ts ntokens x) (tradeByte bo ts ntokens y) := by
  unfold tradeByte
  refine twin_bind (twin_lift _) (fun n n' e => ?_)
  subst e
  split
  · refine twin_bind (twin_lift _) (fun n' n'' e => ?_)
    subst e
    rw [hb _ _ _ hxy]
    refine twin_bind (twin_lift _) (fun t t' e => ?_)
    subst e
    refine twin_bind (twin_lift _) (fun m m' e => ?_)
    subst e
    refine twin_bind (twin_lift _) (fun _ _ _ => ?_)
    refine twin_pairs (fun u v huv => ?_)
    refine twin_bind (twin_lift_map (addTokenBpe_times hk huv)) (fun o o' e => ?_)
    subst e
    cases o with
    | none => exact .pure trivial
    | some p =>
      refine twin_stats (fun u v huv => ?_)
      show Twin _ _ (if u.totalTokens < x.totalTokens then _ else _)
        (if v.totalTokens < y.totalTokens then _ else _)
      rw [huv.total, hxy.total]
      by_cases hlt : u.totalTokens < x.totalTokens
      · rw [if_pos hlt, if_pos (Nat.mul_lt_mul_of_pos_left hlt hk)]
        exact .pure huv
      · rw [if_neg hlt, if_neg (by
          have : x.totalTokens ≤ u.totalTokens := by omega
          exact Nat.not_lt.2 (Nat.mul_le_mul_left k this))]
        exact .pure trivial
  · exact .pure trivial

theorem twin_removeAdd (hk : 0 < k) (hb : Blind bo k) (ts : TokenSet) (rc : Removals) :
    Twin (Times k) (fun x y => TimesOpt k x.1 y.1 ∧ x.2 = y.2)
      (removeAddToken bo ts ntokens rc) (removeAddToken bo ts ntokens rc) := by
  unfold removeAddToken
  split
  · refine twin_bind (twin_addToken hk hb _) (fun o o' e => ?_)
    subst e
    cases o with
    | none => exact .pure ⟨trivial, rfl⟩
    | some t => exact twin_stats (fun x y h => .pure ⟨h, rfl⟩)
  · refine twin_bind (twin_lift _) (fun _ _ _ => ?_)
    refine twin_stats (fun x y h => ?_)
    refine twin_bind (twin_tradeByte hk hb ts h) (fun o o' ho => ?_)
    cases o with
    | some u =>
      cases o' with
      | none => exact ho.elim
      | some v => exact .pure ⟨ho, rfl⟩
    | none =>
      cases o' with
      | some v => exact ho.elim
      | none =>
        refine twin_sort (fun m => ?_)
        show Twin _ _ (removeLoop bo ts ntokens x.totalTokens m rc) (removeLoop bo ts ntokens y.totalTokens m rc)
        rw [h.total]
        exact twin_removeLoop hk hb ts _ m rc

theorem twin_step (hk : 0 < k) (hb : Blind bo k) (ts : TokenSet) (rc : Removals) :
    Twin (Times k) Eq (optimizationStep bo ts ntokens rc) (optimizationStep bo ts ntokens rc) := by
  unfold optimizationStep
  refine twin_stats (fun x y h => ?_)
  refine twin_bind (twin_lift _) (fun n n' e => ?_)
  subst e
  rw [hb _ _ _ h]
  refine twin_bind (twin_lift _) (fun t t' e => ?_)
  subst e
  refine twin_stats (fun u v huv => ?_)
  show Twin _ _ (if u.totalTokens < x.totalTokens then _ else _) (if v.totalTokens < y.totalTokens then _ else _)
  rw [huv.total, h.total]
  by_cases hlt : u.totalTokens < x.totalTokens
  · rw [if_pos hlt, if_pos (Nat.mul_lt_mul_of_pos_left hlt hk), huv.tokenSet]
    exact twin_pure _
  · rw [if_neg hlt, if_neg (by
      have : x.totalTokens ≤ u.totalTokens := by omega
      exact Nat.not_lt.2 (Nat.mul_le_mul_left k this))]
    refine twin_bind (twin_removeAdd hk hb ts rc) (fun o o' ho => ?_)
    obtain ⟨o, c⟩ := o
    obtain ⟨o', c'⟩ := o'
    obtain ⟨h1, h2⟩ := ho
    cases h2
    cases o with
    | none =>
      cases o' with
      | none => exact twin_pure _
      | some v => exact h1.elim
    | some u =>
      cases o' with
      | none => exact h1.elim
      | some v =>
        have h1 : Times k u v := h1
        show Twin _ _ (Prog.lift _ >>= _) (Prog.lift _ >>= _)
        rw [h1.tokenSet]
        exact twin_bind (twin_lift _) (fun _ _ _ => twin_pure _)

theorem twin_save (ts : TokenSet) : Twin T Eq (maybeSave ts) (maybeSave ts) := by
  unfold maybeSave
  refine .clock (fun c => ?_)
  cases c with
  | true => exact .save (.pure rfl)
  | false => exact .pure rfl

theorem twin_getStats (ts : TokenSet) : Twin T T (getStats ts) (getStats ts) := .stats (fun x y h => .pure h)

theorem twin_finish (ts : TokenSet) : Twin T T (finish ts) (finish ts) := by
  unfold finish
  exact twin_bind (twin_lift _) (fun t t' e => by subst e; exact twin_getStats _)

theorem twin_start (ty : TokenType) (hk : ty = .bytesHuff → k = 1) (n : Nat) (p : Processing)
    (pre : Option TokenSet) : Twin (Times k) Eq (startSet n p ty pre) (startSet n p ty pre) := by
  cases pre with
  | some ts => exact twin_pure _
  | none =>
    cases ty with
    | bits1 => exact twin_lift (TokenSet.newBits1 p true)
    | bits2 => exact twin_lift (TokenSet.newBits2 p true)
    | bits4 => exact twin_lift (TokenSet.newBits4 p true)
    | bytes =>
      simp only [startSet]
      generalize TokenSet.newBytes p = x
      exact twin_lift x
    | bytesHuff =>
      simp only [startSet]
      generalize TokenSet.newBytes p = x
      have := hk rfl
      subst this
      refine twin_bind (twin_lift x) (fun ts ts' e => ?_)
      subst e
      refine twin_stats (fun u v h => ?_)
      show Twin _ _ (Prog.lift (huff u n)) (Prog.lift (huff v n))
      rw [huff_blind _ _ n h]
      exact twin_lift _

/-! ### Runs -/

/-- What the tokenizer says in the two surroundings is related by `T`. -/
structure Related (T : TokenStats → TokenStats → Prop) (env1 env2 : Env) : Prop where
  full : ∀ {ts a b}, Fresh env1 ts a → Fresh env2 ts b → T a b
  clone : ∀ {ts a b}, Fresh env1 ts a → Fresh env2 ts b → T a.cloneWithoutPairs b.cloneWithoutPairs

/-- Two results that are related. -/
def RelR {α β : Type} (Q : α → β → Prop) : R α → R β → Prop
  | .ok x, .ok y => Q x y
  | .error e, .error e' => e = e'
  | _, _ => False

theorem twin_run (hT : Related T env1 env2) (he1 : EnvOk env1) (he2 : EnvOk env2) {S : TokenSet → Prop}
    {α β : Type} {Q : α → β → Prop} {p : Prog α} {w1 w1' : World} {r1 : R α} (hr : Run env1 p w1 r1 w1') :
    ∀ {P : R α → Prop} {q : Prog β} {w2 : World}, Twin T Q p q → p.wp env1 S P → WorldOk env1 w1 →
      WorldOk env2 w2 → w2.saved = w1.saved →
      ∃ r2 w2', Run env2 q w2 r2 w2' ∧ RelR Q r1 r2 ∧ WorldOk env2 w2' ∧ w2'.saved = w1'.saved := by
  induction hr with
  | pure =>
    intro P q w2 ht _ _ hw2 hs
    cases ht with
    | pure h => exact ⟨_, _, .pure, h, hw2, hs⟩
  | fail =>
    intro P q w2 ht _ _ hw2 hs
    cases ht with
    | fail e => exact ⟨_, _, .fail, rfl, hw2, hs⟩
  | @stats ts k w c st r w' hg _ ih =>
    intro P q w2 ht hwp hw1 hw2 hs
    cases ht with
    | stats h =>
      obtain ⟨a1, full1, a2, a3⟩ := stats_ok he1 hwp.1 hw1 hg
      subst a3
      obtain ⟨ts', h1, h2, h3, _, key, h4⟩ := family_sort hwp.1
      obtain ⟨st', h5⟩ := tokenize_exists he2 (Tokens.Family.usable h2).accepted h3
      have : ∃ c' x, GetStats env2.sampler env2.initialSize env2.nthreads w2.cache ts c' x := by
        cases hc : w2.cache key with
        | none => exact ⟨_, _, .miss h1 h4 hc h5⟩
        | some x => exact ⟨_, _, .hit h1 h4 hc⟩
      obtain ⟨c', x, hg2⟩ := this
      obtain ⟨b1, full2, b2, b3⟩ := stats_ok he2 hwp.1 hw2 hg2
      subst b3
      obtain ⟨r2, w2', k1, k2, k3, k4⟩ := ih (w2 := ⟨c', w2.saved⟩) (h _ _ (hT.clone a2 b2))
        (hwp.2 _ a2) a1 b1 hs
      exact ⟨r2, w2', .stats hg2 k1, k2, k3, k4⟩
  | statsFail hf => intro P q w2 ht hwp; exact absurd hf (stats_fails_not he1 hwp.1)
  | @pairs ts k w c st r w' hg _ ih =>
    intro P q w2 ht hwp hw1 hw2 hs
    cases ht with
    | pairs h =>
      obtain ⟨a1, a2⟩ := pairs_ok he1 hwp.1 hw1 hg
      obtain ⟨ts', h1, h2, h3, _, key, h4⟩ := family_sort hwp.1
      obtain ⟨st', h5⟩ := tokenize_exists he2 (Tokens.Family.usable h2).accepted h3
      have hg2 : GetStatsWithPairs env2.sampler env2.initialSize env2.nthreads w2.cache ts _ st' :=
        .mk h1 h5 h4
      obtain ⟨b1, b2⟩ := pairs_ok he2 hwp.1 hw2 hg2
      obtain ⟨r2, w2', k1, k2, k3, k4⟩ := ih (w2 := ⟨_, w2.saved⟩) (h _ _ (hT.full a2 b2)) (hwp.2 _ a2) a1 b1 hs
      exact ⟨r2, w2', .pairs hg2 k1, k2, k3, k4⟩
  | pairsFail hf => intro P q w2 ht hwp; exact absurd hf (pairs_fails_not he1 hwp.1)
  | sortUnstable hp hso _ ih =>
    intro P q w2 ht hwp hw1 hw2 hs
    cases ht with
    | sortUnstable h =>
      obtain ⟨r2, w2', k1, k2, k3, k4⟩ := ih (h _) (hwp _ hp hso) hw1 hw2 hs
      exact ⟨r2, w2', .sortUnstable hp hso k1, k2, k3, k4⟩
  | clock c _ ih =>
    intro P q w2 ht hwp hw1 hw2 hs
    cases ht with
    | clock h =>
      obtain ⟨r2, w2', k1, k2, k3, k4⟩ := ih (h c) (hwp c) hw1 hw2 hs
      exact ⟨r2, w2', .clock c k1, k2, k3, k4⟩
  | @save ts k w f r w' hf _ ih =>
    intro P q w2 ht hwp hw1 hw2 hs
    cases ht with
    | save h =>
      obtain ⟨r2, w2', k1, k2, k3, k4⟩ := ih (w2 := ⟨w2.cache, w2.saved ++ [f]⟩) h hwp.2.2 hw1 hw2
        (by show w2.saved ++ [f] = w.saved ++ [f]; rw [hs])
      exact ⟨r2, w2', .save hf k1, k2, k3, k4⟩
  | saveFail hf =>
    intro P q w2 ht hwp hw1 hw2 hs
    obtain ⟨f, hf'⟩ := savedFile_ok hwp.2.1
    rw [hf'] at hf; cases hf

/-- The step does the same in both surroundings. -/
def TwinSteps (T : TokenStats → TokenStats → Prop) (bo : BytesOptimizer) (ntokens : Nat) : Prop :=
  ∀ ts rc, Twin T Eq (optimizationStep bo ts ntokens rc) (optimizationStep bo ts ntokens rc)

theorem relR_eq {α : Type} {x y : R α} (h : RelR Eq x y) : y = x := by
  cases x with
  | ok a => cases y with
    | ok b => cases h; rfl
    | error e => exact h.elim
  | error e => cases y with
    | ok b => exact h.elim
    | error e' => cases h; rfl

theorem twin_loop (hT : Related T env1 env2) (he1 : EnvOk env1) (he2 : EnvOk env2)
    (B : Behaves bo Fam lo hi ntokens) (hst : TwinSteps T bo ntokens) {ts : TokenSet} {rc : Removals}
    {w1 w1' : World} {r : R TokenSet} (h1 : Loop env1 bo ntokens ts rc w1 r w1') :
    ∀ {w2 : World}, LoopSet Fam ntokens ts → WorldOk env1 w1 → WorldOk env2 w2 → w2.saved = w1.saved →
      ∃ w2', Loop env2 bo ntokens ts rc w2 r w2' ∧ WorldOk env2 w2' ∧ w2'.saved = w1'.saved := by
  have stp : ∀ {ts rc w1 x w1' w2}, LoopSet Fam ntokens ts → WorldOk env1 w1 → WorldOk env2 w2 →
      w2.saved = w1.saved → Run env1 (optimizationStep bo ts ntokens rc) w1 x w1' →
      ∃ w2', Run env2 (optimizationStep bo ts ntokens rc) w2 x w2' ∧ WorldOk env2 w2' ∧
        w2'.saved = w1'.saved := by
    intro ts rc w1 x w1' w2 hl hw1 hw2 hs hr
    obtain ⟨r2, w2', k1, k2, k3, k4⟩ := twin_run hT he1 he2 hr (hst ts rc)
      (wp_step (env := env1) (S := fun _ => False) B hl.fam hl.size rc) hw1 hw2 hs
    rw [relR_eq k2] at k1
    exact ⟨w2', k1, k3, k4⟩
  induction h1 with
  | stop hs =>
    intro w2 hl hw1 hw2 hsv
    obtain ⟨w2', k1, k2, k3⟩ := stp hl hw1 hw2 hsv hs
    exact ⟨w2', .stop k1, k2, k3⟩
  | fail hs =>
    intro w2 hl hw1 hw2 hsv
    obtain ⟨w2', k1, k2, k3⟩ := stp hl hw1 hw2 hsv hs
    exact ⟨w2', .fail k1, k2, k3⟩
  | again hs hsave _ ih =>
    intro w2 hl hw1 hw2 hsv
    obtain ⟨w2', k1, k2, k3⟩ := stp hl hw1 hw2 hsv hs
    obtain ⟨a1, _, o, rc', e, a2⟩ := step_run B he1 hl hw1 hs
    cases e
    obtain ⟨hb, hsort⟩ := a2 _ rfl
    have hl' : LoopSet Fam ntokens _ := ⟨hb.fam, hb.size⟩
    obtain ⟨b1, _, _⟩ := save_run B he1 ⟨hl', hsort⟩ a1 hsave
    obtain ⟨r3, w3, m1, m2, m3, m4⟩ := twin_run hT he1 he2 hsave (twin_save _)
      (wp_maybeSave (env := env1) (S := Savable Fam ntokens) ⟨hl', hsort⟩
        (Tokens.Family.usable (B.family hl'.fam)).inRange) a1 k2 k3
    rw [relR_eq m2] at m1
    obtain ⟨w4, n1, n2, n3⟩ := ih hl' b1 m3 m4
    exact ⟨w4, .again k1 m1 n1, n2, n3⟩
  | saveFail hs hsave =>
    intro w2 hl hw1 hw2 hsv
    obtain ⟨a1, _, o, rc', e, a2⟩ := step_run B he1 hl hw1 hs
    cases e
    obtain ⟨hb, hsort⟩ := a2 _ rfl
    obtain ⟨_, _, e⟩ := save_run B he1 ⟨⟨hb.fam, hb.size⟩, hsort⟩ a1 hsave
    cases e

theorem twin_impl (hT : Related T env1 env2) (he1 : EnvOk env1) (he2 : EnvOk env2)
    (B : Behaves bo Fam lo hi ntokens) (hst : TwinSteps T bo ntokens) {ts : TokenSet}
    {w1 w1' w2 : World} {r : R TokenStats} (hl : LoopSet Fam ntokens ts) (hw1 : WorldOk env1 w1)
    (hw2 : WorldOk env2 w2) (hsv : w2.saved = w1.saved) (h1 : Impl env1 bo ntokens ts w1 r w1') :
    ∃ r2 w2', Impl env2 bo ntokens ts w2 r2 w2' ∧ RelR T r r2 ∧ w2'.saved = w1'.saved := by
  have hwp : (getStats ts).wp env1 (Savable Fam ntokens) (fun r => ∃ st, r = .ok st) :=
    ⟨B.family hl.fam, fun st _ => ⟨_, rfl⟩⟩
  cases h1 with
  | firstFail g1 =>
    obtain ⟨⟨_, e⟩, _⟩ := wp_sound he1 g1 hwp hw1
    cases e
  | loopFail g1 g2 =>
    obtain ⟨_, a1, _⟩ := wp_sound he1 g1 hwp hw1
    obtain ⟨ts'', e, _⟩ := loop_ok B he1 g2 hl a1
    cases e
  | done g1 g2 g3 =>
    obtain ⟨_, a1, _⟩ := wp_sound he1 g1 hwp hw1
    obtain ⟨t1, e, b1, _, _, b4, _⟩ := loop_ok B he1 g2 hl a1
    have e := (Except.ok.inj e).symm
    subst e
    obtain ⟨x, v1, k1, k2, k3, k4⟩ := twin_run hT he1 he2 g1 (twin_getStats ts) hwp hw1 hw2 hsv
    cases x with
    | error e => exact k2.elim
    | ok st2 =>
      obtain ⟨v2, m1, m2, m3⟩ := twin_loop hT he1 he2 B hst g2 hl a1 k3 k4
      obtain ⟨ts3, hs⟩ := (sort_ok_iff t1).2 (Tokens.Family.usable (B.family b1.fam)).inRange
      have hF3 : Family ts3 := sort_family (B.family b1.fam) hs
      have hwp3 : (finish t1).wp env1 (Savable Fam ntokens) (fun _ => True) := by
        unfold finish
        refine wp_lift hs ?_
        exact ⟨hF3, fun st hst => trivial⟩
      obtain ⟨y, v3, n1, n2, n3, n4⟩ := twin_run hT he1 he2 g3 (twin_finish t1) hwp3 b4 m2 m3
      exact ⟨y, v3, .done k1 m1 n1, n2, n4⟩

theorem twinSteps_times (hk : 0 < k) (hb : Blind bo k) : TwinSteps (Times k) bo ntokens :=
  fun ts rc => twin_step hk hb ts rc

theorem twinSteps_swap (h : TwinSteps T bo ntokens) : TwinSteps (fun x y => T y x) bo ntokens := by
  intro ts rc
  have := (h ts rc).swap
  rwa [show (fun x y : Option TokenSet × Removals => y = x) = Eq by funext x y; exact propext eq_comm] at this

theorem related_times (hp : env2.sampler.samples.Perm (List.replicate k env1.sampler.samples).flatten) :
    Related (Times k) env1 env2 := by
  have key : ∀ {ts a b}, Fresh env1 ts a → Fresh env2 ts b → Times k a b := by
    rintro ts a b ⟨t, h1, h2⟩ ⟨t', h3, h4⟩
    have := Except.ok.inj (h1.symm.trans h3)
    subst this
    exact sync_times (sort_inRange h1) hp h2 h4
  exact ⟨key, fun h1 h2 => (key h1 h2).clone⟩

theorem Related.swap (h : Related T env1 env2) : Related (fun x y => T y x) env2 env1 :=
  ⟨fun a b => h.full b a, fun a b => h.clone b a⟩

end Optimize
end Tokens
