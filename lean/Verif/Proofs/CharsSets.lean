import Verif.Proofs.CharsDepth
import Verif.Spec.CharsOptimizer

/-! The token sets made by the optimizer of character encodings. -/

set_option linter.unusedVariables false

namespace Tokens
namespace Chars
open Spec.Chars

theorem encOf_addEncoding (ts : CSet) (c : Char) {e : List Nat} (he : e ≠ []) (d : Char) :
    encOf (ts.addEncoding c e) d = if d = c then some e else encOf ts d := by
  unfold encOf CSet.addEncoding
  by_cases hc : c.toNat < 256
  · rw [if_pos hc]
    by_cases hd : d = c
    · subst hd
      simp [hc, he]
    · simp [hd]
  · rw [if_neg hc]
    by_cases hd : d = c
    · subst hd
      simp [hc]
    · simp [hd]

theorem encOf_tokens (ts : CSet) (tokens : List CToken) (byStr : Text → Option Nat) (c : Char) :
    encOf { ts with tokens := tokens, byStr := byStr } c = encOf ts c := rfl

theorem encOf_addCharToken (ts : CSet) (c d : Char) :
    encOf (ts.addCharToken c) d = if d = c then some [ts.tokens.length] else encOf ts d := by
  unfold CSet.addCharToken
  rw [encOf_addEncoding _ _ (by simp)]
  rfl

theorem encOf_addString (ts : CSet) (s : Text) (d : Char) : encOf (ts.addString s) d = encOf ts d := rfl

theorem charEncoding_of {ts : CSet} {c : Char} {e : List Nat} (h : encOf ts c = some e) :
    ts.charEncoding c = .ok e := by
  unfold encOf at h
  unfold CSet.charEncoding
  split
  · rename_i hc
    rw [if_pos hc] at h
    split at h
    · cases h
    · rw [Option.some.inj h]
  · rename_i hc
    rw [if_neg hc] at h
    rw [h]
    rfl

theorem encLength_of {ts : CSet} {c : Char} {e : List Nat} (h : encOf ts c = some e) :
    encLength ts c = e.length := by
  unfold encOf at h
  unfold encLength
  split
  · rename_i hc
    rw [if_pos hc] at h
    split at h
    · cases h
    · rw [Option.some.inj h]
  · rename_i hc
    rw [if_neg hc] at h
    rw [h]

theorem encLength_none {ts : CSet} {c : Char} (h : encOf ts c = none) :
    encLength ts c ≤ 32 := by
  unfold encOf at h
  unfold encLength
  split
  · rename_i hc
    rw [if_pos hc] at h
    split at h
    · rename_i h0
      rw [h0]; simp
    · cases h
  · rename_i hc
    rw [if_neg hc] at h
    rw [h]

theorem addEncs_tokens (ts : CSet) (top : Nat) (encs : List (Char × List Nat)) :
    (addEncs ts top encs).tokens = ts.tokens ∧ (addEncs ts top encs).byStr = ts.byStr := by
  unfold addEncs
  induction encs generalizing ts with
  | nil => exact ⟨rfl, rfl⟩
  | cons e encs ih =>
    rw [List.foldl_cons]
    obtain ⟨h1, h2⟩ := ih (ts.addEncoding e.1 (top :: e.2))
    rw [h1, h2, addEncoding_tokens, addEncoding_byStr]
    exact ⟨rfl, rfl⟩

theorem encOf_addEncs (ts : CSet) (top : Nat) (encs : List (Char × List Nat))
    (hnd : (encs.map Prod.fst).Nodup) (c : Char) :
    (∀ e, (c, e) ∈ encs → encOf (addEncs ts top encs) c = some (top :: e)) ∧
    (c ∉ encs.map Prod.fst → encOf (addEncs ts top encs) c = encOf ts c) := by
  unfold addEncs
  induction encs generalizing ts with
  | nil => exact ⟨by simp, fun _ => rfl⟩
  | cons x encs ih =>
    rw [List.foldl_cons]
    rw [List.map_cons, List.nodup_cons] at hnd
    obtain ⟨h1, h2⟩ := ih (ts.addEncoding x.1 (top :: x.2)) hnd.2
    refine ⟨?_, ?_⟩
    · intro e he
      rcases List.mem_cons.1 he with he | he
      · rw [← he] at hnd
        rw [h2 hnd.1, encOf_addEncoding _ _ (by simp), ← he, if_pos rfl]
      · exact h1 e he
    · intro hc
      rw [List.map_cons, List.mem_cons, not_or] at hc
      rw [h2 hc.2, encOf_addEncoding _ _ (by simp), if_neg hc.1]

theorem made_addEncs {ts : CSet} (h : Made ts) (top : Nat) (encs : List (Char × List Nat)) :
    Made (addEncs ts top encs) := by
  unfold addEncs
  induction encs generalizing ts with
  | nil => exact h
  | cons e encs ih => exact ih (.encoding _ _ h)

/-- The state of the loop over the top splits when the characters of `pre` are done. -/
structure CharsInv (u : Char → Nat) (w nExt : Nat) (pre : Counts) (ts : CSet) (tops : List Char) : Prop where
  made : Made ts
  tokens : ts.tokens = (List.range nExt).map (fun i => CToken.ext (i % 256)) ++ tops.map CToken.char
  sub : ∀ c ∈ tops, c ∈ pre.map Prod.fst
  nodup : tops.Nodup
  enc : ∀ c, c ∈ pre.map Prod.fst ↔ ∃ e, encOf ts c = some e
  own : ∀ c i, tops[i]? = some c → encOf ts c = some [nExt + i]
  code : ∀ c e, c ∉ tops → encOf ts c = some e → ∃ t ds, e = t :: ds ∧ nExt ≤ t ∧ t < ts.tokens.length ∧
    ds ≠ [] ∧ ∀ d ∈ ds, d < nExt
  inj : ∀ c c' e, encOf ts c = some e → encOf ts c' = some e → c = c'
  short : ∀ c e, encOf ts c = some e → ShortFor (u c) (e.length - 2) w

theorem CharsInv.length {u : Char → Nat} {w nExt : Nat} {pre : Counts} {ts : CSet} {tops : List Char} (h : CharsInv u w nExt pre ts tops) :
    ts.tokens.length = nExt + tops.length := by rw [h.tokens]; simp

theorem inj_of_nodup_snd {l : List (Char × List Nat)} (h : (l.map Prod.snd).Nodup) {c c' : Char} {e : List Nat}
    (h1 : (c, e) ∈ l) (h2 : (c', e) ∈ l) : c = c' := by
  induction l with
  | nil => cases h1
  | cons x l ih =>
    rw [List.map_cons, List.nodup_cons] at h
    rcases List.mem_cons.1 h1 with h1 | h1 <;> rcases List.mem_cons.1 h2 with h2 | h2
    · rw [← h1] at h2; exact (congrArg Prod.fst h2).symm
    · rw [← h1] at h; exact absurd (List.mem_map.2 ⟨_, h2, rfl⟩) h.1
    · rw [← h2] at h; exact absurd (List.mem_map.2 ⟨_, h1, rfl⟩) h.1
    · exact ih h.2 h1 h2

theorem CharsInv.group {u : Char → Nat} {w nExt : Nat} {pre : Counts} {ts : CSet} {tops : List Char}
    (h : CharsInv u w nExt pre ts tops) {a b : Counts} {top : Char × Nat} (ho : Ordered (pre ++ (a ++ top :: b)))
    {encs : List (Char × List Nat)} (hg : GoodEnc u nExt (a ++ b) encs)
    (hsc : ShortCodes u w encs) (htw : u top.1 ≤ w) :
    CharsInv u w nExt (pre ++ (a ++ top :: b)) (addEncs (ts.addCharToken top.1) (nExt + tops.length) encs)
      (tops ++ [top.1]) := by
  have hnd : ((pre ++ (a ++ top :: b)).map Prod.fst).Nodup := by
    rw [List.Nodup, List.pairwise_map]
    exact ho.sorted.imp (fun hlt => ne_of_lt hlt)
  have hlen := h.length
  have hmapped : (pre ++ (a ++ top :: b)).map Prod.fst =
      pre.map Prod.fst ++ (a.map Prod.fst ++ top.1 :: b.map Prod.fst) := by simp
  rw [hmapped, List.nodup_append] at hnd
  obtain ⟨hnp, hng, hdis⟩ := hnd
  have hng' : (top.1 :: (a.map Prod.fst ++ b.map Prod.fst)).Nodup := List.perm_middle.nodup_iff.1 hng
  rw [List.nodup_cons] at hng'
  have hperm : (encs.map Prod.fst).Perm (a.map Prod.fst ++ b.map Prod.fst) := by
    have := hg.characters
    rwa [List.map_append] at this
  have hencs : (encs.map Prod.fst).Nodup := hperm.nodup_iff.2 hng'.2
  have htopenc : top.1 ∉ encs.map Prod.fst := fun hm => hng'.1 (hperm.mem_iff.1 hm)
  have htoppre : top.1 ∉ pre.map Prod.fst := fun hm => hdis _ hm top.1 (by simp) rfl
  have hencpre : ∀ c ∈ encs.map Prod.fst, c ∉ pre.map Prod.fst := by
    intro c hc hm
    refine hdis c hm c ?_ rfl
    have := hperm.mem_iff.1 hc
    rcases List.mem_append.1 this with h | h
    · exact List.mem_append_left _ h
    · exact List.mem_append_right _ (List.mem_cons_of_mem _ h)
  -- the encodings of the new set
  have kTop : encOf (addEncs (ts.addCharToken top.1) (nExt + tops.length) encs) top.1 =
      some [nExt + tops.length] := by
    rw [(encOf_addEncs _ _ encs hencs top.1).2 htopenc, encOf_addCharToken, if_pos rfl, hlen]
  have kEnc : ∀ c e, (c, e) ∈ encs → encOf (addEncs (ts.addCharToken top.1) (nExt + tops.length) encs) c =
      some ((nExt + tops.length) :: e) := fun c e he => (encOf_addEncs _ _ encs hencs c).1 e he
  have kOld : ∀ c, c ≠ top.1 → c ∉ encs.map Prod.fst →
      encOf (addEncs (ts.addCharToken top.1) (nExt + tops.length) encs) c = encOf ts c := by
    intro c h1 h2
    rw [(encOf_addEncs _ _ encs hencs c).2 h2, encOf_addCharToken, if_neg h1]
  have kPre : ∀ c ∈ pre.map Prod.fst,
      encOf (addEncs (ts.addCharToken top.1) (nExt + tops.length) encs) c = encOf ts c := by
    intro c hc
    exact kOld c (fun e => htoppre (e ▸ hc)) (fun hm => hencpre c hm hc)
  have kInv : ∀ c e, encOf (addEncs (ts.addCharToken top.1) (nExt + tops.length) encs) c = some e →
      (c = top.1 ∧ e = [nExt + tops.length]) ∨ (∃ e', (c, e') ∈ encs ∧ e = (nExt + tops.length) :: e') ∨
      (c ∈ pre.map Prod.fst ∧ encOf ts c = some e) := by
    intro c e he
    by_cases h1 : c = top.1
    · subst h1
      rw [kTop] at he
      exact .inl ⟨rfl, (Option.some.inj he).symm⟩
    · by_cases h2 : c ∈ encs.map Prod.fst
      · obtain ⟨⟨c', e'⟩, hm, rfl⟩ := List.mem_map.1 h2
        rw [kEnc _ _ hm] at he
        exact .inr (.inl ⟨e', hm, (Option.some.inj he).symm⟩)
      · rw [kOld c h1 h2] at he
        exact .inr (.inr ⟨(h.enc c).2 ⟨e, he⟩, he⟩)
  have hmemG : ∀ c, c ∈ (pre ++ (a ++ top :: b)).map Prod.fst ↔
      c ∈ pre.map Prod.fst ∨ c = top.1 ∨ c ∈ encs.map Prod.fst := by
    intro c
    rw [hmapped, hperm.mem_iff]
    simp only [List.mem_append, List.mem_cons]
    tauto
  -- the first token of an old encoding
  have kHead : ∀ c e, encOf ts c = some e → ∃ t ds, e = t :: ds ∧ nExt ≤ t ∧ t < nExt + tops.length := by
    intro c e he
    by_cases hc : c ∈ tops
    · obtain ⟨i, hi, hi'⟩ := List.getElem_of_mem hc
      have := h.own c i (by rw [List.getElem?_eq_getElem hi, hi'])
      rw [he] at this
      exact ⟨nExt + i, [], Option.some.inj this, by omega, by omega⟩
    · obtain ⟨t, ds, h1, h2, h3, _⟩ := h.code c e hc he
      exact ⟨t, ds, h1, h2, by omega⟩
  have htoks : (addEncs (ts.addCharToken top.1) (nExt + tops.length) encs).tokens = ts.tokens ++ [.char top.1] := by
    rw [(addEncs_tokens _ _ _).1]
    unfold CSet.addCharToken
    rw [addEncoding_tokens]
  refine ⟨made_addEncs (.char _ h.made) _ _, ?_, ?_, ?_, ?_, ?_, ?_, ?_, ?_⟩
  · rw [htoks, h.tokens, List.map_append, List.append_assoc]
    rfl
  · intro c hc
    rw [hmemG]
    rcases List.mem_append.1 hc with hc | hc
    · exact .inl (h.sub c hc)
    · exact .inr (.inl (List.mem_singleton.1 hc))
  · rw [List.nodup_append]
    refine ⟨h.nodup, by simp, ?_⟩
    intro c hc d hd e
    rw [List.mem_singleton.1 hd] at e
    exact htoppre (e ▸ h.sub c hc)
  · intro c
    rw [hmemG]
    constructor
    · rintro (hc | hc | hc)
      · rw [kPre c hc]; exact (h.enc c).1 hc
      · subst hc; exact ⟨_, kTop⟩
      · obtain ⟨⟨c', e'⟩, hm, rfl⟩ := List.mem_map.1 hc
        exact ⟨_, kEnc _ _ hm⟩
    · rintro ⟨e, he⟩
      rcases kInv c e he with ⟨h1, _⟩ | ⟨e', h1, _⟩ | ⟨h1, _⟩
      · exact .inr (.inl h1)
      · exact .inr (.inr (List.mem_map.2 ⟨_, h1, rfl⟩))
      · exact .inl h1
  · intro c i hi
    by_cases hlt : i < tops.length
    · rw [List.getElem?_append_left hlt] at hi
      rw [kPre c (h.sub c (List.mem_of_getElem? hi))]
      exact h.own c i hi
    · rw [List.getElem?_append_right (by omega)] at hi
      have h0 : i - tops.length = 0 := by
        by_contra hne
        rw [List.getElem?_eq_none (by simp; omega)] at hi
        cases hi
      rw [h0] at hi
      have : c = top.1 := (Option.some.inj hi).symm
      have e : i = tops.length := by omega
      rw [this, e, kTop]
  · intro c e hc he
    rw [htoks, List.length_append, List.length_singleton]
    rcases kInv c e he with ⟨h1, _⟩ | ⟨e', h1, h2⟩ | ⟨h1, h2⟩
    · exact absurd (by simp [h1]) hc
    · exact ⟨_, e', h2, by omega, by omega, hg.nonempty _ h1, hg.digits _ h1⟩
    · obtain ⟨t, ds, k1, k2, k3, k4⟩ := h.code c e (fun hm => hc (List.mem_append_left _ hm)) h2
      exact ⟨t, ds, k1, k2, by omega, k4⟩
  · intro c c' e he he'
    rcases kInv c e he with ⟨h1, h2⟩ | ⟨e1, h1, h2⟩ | ⟨h1, h2⟩ <;>
      rcases kInv c' e he' with ⟨h1', h2'⟩ | ⟨e1', h1', h2'⟩ | ⟨h1', h2'⟩
    · rw [h1, h1']
    · rw [h2] at h2'
      simp only [List.cons.injEq, true_and] at h2'
      exact absurd h2'.symm (hg.nonempty _ h1')
    · obtain ⟨t, ds, k1, k2, k3⟩ := kHead c' e h2'
      rw [h2] at k1
      simp only [List.cons.injEq] at k1
      omega
    · rw [h2] at h2'
      simp only [List.cons.injEq, true_and] at h2'
      exact absurd h2' (hg.nonempty _ h1)
    · rw [h2] at h2'
      simp only [List.cons.injEq, true_and] at h2'
      subst h2'
      exact inj_of_nodup_snd hg.nodup h1 h1'
    · obtain ⟨t, ds, k1, k2, k3⟩ := kHead c' e h2'
      rw [h2] at k1
      simp only [List.cons.injEq] at k1
      omega
    · obtain ⟨t, ds, k1, k2, k3⟩ := kHead c e h2
      rw [h2'] at k1
      simp only [List.cons.injEq] at k1
      omega
    · obtain ⟨t, ds, k1, k2, k3⟩ := kHead c e h2
      rw [h2'] at k1
      simp only [List.cons.injEq] at k1
      omega
    · exact h.inj c c' e h2 h2'
  · intro c e he
    rcases kInv c e he with ⟨h1, h2⟩ | ⟨e', h1, h2⟩ | ⟨_, h2⟩
    · subst h1 h2
      unfold ShortFor
      simpa using htw
    · subst h2
      have := hsc _ h1
      have e1 : ((nExt + tops.length) :: e').length - 2 = e'.length - 1 := by simp
      rw [e1]
      exact this
    · exact h.short c e h2

theorem charsInv_new (u : Char → Nat) (w nExt : Nat) : CharsInv u w nExt [] (CSet.new nExt) [] := by
  have hn : ∀ c, encOf (CSet.new nExt) c = none := by
    intro c
    unfold encOf CSet.new
    split <;> rfl
  refine ⟨.new nExt, by simp [CSet.new], by simp, List.nodup_nil, ?_, by simp, ?_, ?_, ?_⟩
  · intro c; rw [hn]; simp
  · intro c e _ h; rw [hn] at h; cases h
  · intro c c' e h; rw [hn] at h; cases h
  · intro c e h; rw [hn] at h; cases h

theorem charsLoop_spec {u : Char → Nat} {w nExt : Nat} (hx : 2 ≤ nExt) (nodes : List HuffmanNode) :
    ∀ (pre : Counts) (ts : CSet) (tops : List Char), Ordered (pre ++ nodes.flatMap leaves) →
    Agrees u (pre ++ nodes.flatMap leaves) → weight (pre ++ nodes.flatMap leaves) ≤ w →
    CharsInv u w nExt pre ts tops →
    ∃ out tops', charsLoop (pre ++ nodes.flatMap leaves) nExt (nodes.map nodeToSplit) tops.length ts = .ok out ∧
      tops'.length = tops.length + nodes.length ∧ CharsInv u w nExt (pre ++ nodes.flatMap leaves) out tops' := by
  induction nodes with
  | nil =>
    intro pre ts tops _ _ _ h
    exact ⟨ts, tops, rfl, rfl, by simpa using h⟩
  | cons n nodes ih =>
    intro pre ts tops ho hag hw h
    rw [List.flatMap_cons] at ho hag hw ⊢
    have hn : Ordered (leaves n) := ho.sublist
      ((List.sublist_append_left _ _).trans (List.sublist_append_right _ _))
    have hagn : Agrees u (leaves n) := fun q hq =>
      hag q (List.mem_append_right _ (List.mem_append_left _ hq))
    have hop : Ordered (pre ++ leaves n) := ho.sublist
      (.append (List.Sublist.refl _) (List.sublist_append_left _ _))
    rw [List.map_cons, charsLoop, groupBounds_spec ho]
    simp only [R.ok_bind]
    have next : ∀ ts', CharsInv u w nExt (pre ++ leaves n) ts' (tops ++ [(nodeToSplit n).top]) →
        ∃ out tops', charsLoop (pre ++ (leaves n ++ nodes.flatMap leaves)) nExt (nodes.map nodeToSplit)
          (tops.length + 1) ts' = .ok out ∧ tops'.length = tops.length + (n :: nodes).length ∧
          CharsInv u w nExt (pre ++ (leaves n ++ nodes.flatMap leaves)) out tops' := by
      intro ts' h'
      obtain ⟨out, tops', g1, g2, g3⟩ := ih (pre ++ leaves n) ts' (tops ++ [(nodeToSplit n).top])
        (by rw [List.append_assoc]; exact ho) (by rw [List.append_assoc]; exact hag)
        (by rw [List.append_assoc]; exact hw) h'
      rw [List.append_assoc] at g1 g3
      rw [List.length_append, List.length_singleton] at g1 g2
      exact ⟨out, tops', g1, by rw [g2, List.length_cons]; omega, g3⟩
    by_cases hl : pre.length + (leaves n).length = pre.length + 1
    · rw [if_pos hl]
      have e := leaves_single hn (by omega)
      refine next _ ?_
      have := h.group (a := []) (b := []) (top := ((nodeToSplit n).top, (nodeToSplit n).topCount))
        (by rw [List.nil_append, ← e]; exact hop) (goodEnc_nil u nExt) (by intro x hx; cases hx) (by
          rw [← hagn ((nodeToSplit n).top, (nodeToSplit n).topCount) (by rw [e]; simp)]
          have := weight_mem (l := pre ++ (leaves n ++ nodes.flatMap leaves))
            (p := ((nodeToSplit n).top, (nodeToSplit n).topCount)) (by rw [e]; simp)
          exact Nat.le_trans this hw)
      rw [List.nil_append, ← e] at this
      exact this
    · rw [if_neg hl]
      obtain ⟨a, b, e, hsub⟩ := subCounts_spec ho
      rw [hsub]
      simp only [R.ok_bind]
      have hab : Ordered (a ++ b) := hn.sublist (by
        rw [e]; exact .append (List.Sublist.refl _) (List.sublist_cons_self _ _))
      obtain ⟨sub, hr, hg⟩ := extEncoding_spec (u := u) (nExt := nExt) (by omega) ((a ++ b).length + 1) (a ++ b) hab
        (agrees_ab hagn e) (by omega)
      have hsc := (extEncoding_short hx _ _ _ hab (agrees_ab hagn e) hr).1
      rw [hr]
      simp only [R.ok_bind]
      refine next _ ?_
      have hwab : weight (a ++ b) ≤ w := by
        have h1 : weight (leaves n) = weight a + weight (((nodeToSplit n).top, (nodeToSplit n).topCount) :: b) := by
          rw [e, weight_append]
        have h2 : weight (((nodeToSplit n).top, (nodeToSplit n).topCount) :: b) =
          (nodeToSplit n).topCount + weight b := by unfold weight; simp
        rw [weight_append, weight_append] at hw
        rw [weight_append]
        omega
      have := h.group (a := a) (b := b) (top := ((nodeToSplit n).top, (nodeToSplit n).topCount))
        (by rw [← e]; exact hop) hg (fun x hx => (hsc x hx).mono hwab) (by
          rw [← hagn ((nodeToSplit n).top, (nodeToSplit n).topCount) (by rw [e]; simp)]
          have := weight_mem (l := pre ++ (leaves n ++ nodes.flatMap leaves))
            (p := ((nodeToSplit n).top, (nodeToSplit n).topCount)) (by rw [e]; simp)
          exact Nat.le_trans this hw)
      rw [← e] at this
      exact this

/-- `optimize_chars` makes a set in which every character has its own encoding. -/
theorem optimizeChars_spec {u : Char → Nat} {counts : Counts} (ho : Ordered counts) (hag : Agrees u counts)
    {nChar nExt : Nat} (hc : 1 ≤ nChar) (hx : 2 ≤ nExt) :
    ∃ ts tops, optimizeChars counts nChar nExt = .ok ts ∧ tops.length = min nChar counts.length ∧
      CharsInv u (weight counts) nExt counts ts tops := by
  obtain ⟨nodes, h1, h2, h3, _⟩ := optimizeSplits_tight counts hc
  obtain ⟨ts, tops, g1, g2, g3⟩ := charsLoop_spec (u := u) (w := weight counts) hx nodes [] (CSet.new nExt) []
    (by rw [List.nil_append, h3]; exact ho) (by rw [List.nil_append, h3]; exact hag)
    (by rw [List.nil_append, h3]) (charsInv_new u _ nExt)
  rw [List.nil_append, h3] at g1 g3
  refine ⟨ts, tops, ?_, by simpa [h2] using g2, g3⟩
  unfold optimizeChars
  rw [h1, R.ok_bind]
  exact g1

end Chars
end Tokens
