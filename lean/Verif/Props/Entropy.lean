import Verif.Model.Entropy
import Verif.Proofs.Limits

/-!
# Property C120: the entropy of literals of the first generation

Read together with `Verif/Spec/Coding.lean`.
-/

namespace Tokens.Props
open Tokens Spec Old

/-- How often byte `b` was counted as a literal. -/
def literalUses (st : OStats) (b : UInt8) : Nat := st.literalCount.getD b.toNat 0

/-- The counts of the 256 literals, as an array of 256 numbers. -/
theorem literalUses_list {st : OStats} (h : st.literalCount.length = 256) :
    allBytes.map (literalUses st) = st.literalCount := by
  apply List.ext_getElem
  · rw [List.length_map, allBytes_length, h]
  · intro i h1 h2
    have hi : i < 256 := by omega
    rw [List.getElem_map]
    have e : allBytes[i]'(by rw [allBytes_length]; omega) = UInt8.ofNat i := by
      unfold allBytes
      rw [List.getElem_map, List.getElem_range]
    rw [e]
    unfold literalUses
    rw [UInt8.toNat_ofNat_of_lt' hi, List.getD_eq_getElem?_getD, List.getElem?_eq_getElem h2]
    rfl

theorem entropyLoop_eq {total : Nat} (cs : List Nat) : ∀ e : ℝ,
    entropyLoop total cs e * total = e * total + (cs.map (fun c : Nat => (c : ℝ) * Real.logb 2 (total / c))).sum := by
  induction cs with
  | nil => intro e; simp [entropyLoop]
  | cons c cs ih =>
    intro e
    rw [entropyLoop, List.map_cons, List.sum_cons]
    split
    · rename_i hc
      dsimp only
      rw [ih]
      have hc' : (c : ℝ) ≠ 0 := by exact_mod_cast hc.ne'
      rcases eq_or_ne (total : ℝ) 0 with h0 | h0
      · rw [h0]; simp
      · have : Real.logb 2 ((c : ℝ) / total) = - Real.logb 2 (total / c) := by
          rw [← Real.logb_inv, inv_div]
        rw [this]
        field_simp
        ring
    · rename_i hc
      have : c = 0 := by omega
      subst this
      rw [ih]; simp

theorem entropy_map (u : UInt8 → Nat) (l : List UInt8) (S : ℝ) :
    (l.map (fun b => (u b : ℝ) * Real.logb 2 (S / u b))).sum =
      ((l.map u).map (fun c : Nat => (c : ℝ) * Real.logb 2 (S / c))).sum := by
  rw [List.map_map]; rfl

/-- **C120**.  Where unknown bytes are one token with a distribution, `dist_entropy` is the entropy per literal:
times the number of literals, it is the entropy of all of them.  For other sets it is 0, as without literals. -/
theorem C120_entropy (ts : OSet) (st : OStats) (h : st.literalCount.length = 256) :
    (ts.literal ∈ [.dist2, .dist4, .dist8] →
      ts.distEntropy st * st.literalCount.sum = entropyBits (literalUses st)) ∧
    ((ts.literal ∉ [.dist2, .dist4, .dist8] ∨ ∀ b, literalUses st b = 0) → ts.distEntropy st = 0) := by
  have hsum : (allBytes.map (literalUses st)).sum = st.literalCount.sum := by rw [literalUses_list h]
  constructor
  · intro hd
    have hf : ts.hasDistFallback = true := by
      unfold OSet.hasDistFallback
      cases hl : ts.literal <;> simp_all
    have e : entropyBits (literalUses st) =
        (st.literalCount.map (fun c : Nat => (c : ℝ) * Real.logb 2 (st.literalCount.sum / c))).sum := by
      unfold entropyBits
      rw [hsum, entropy_map, literalUses_list h]
    rw [e]
    unfold OSet.distEntropy
    rw [if_neg (by rw [hf]; simp)]
    dsimp only
    split
    · rename_i h0
      rw [h0]
      simp only [Nat.cast_zero, mul_zero, zero_div, Real.logb_zero]
      rw [List.map_const', List.sum_replicate, smul_zero]
    · rw [entropyLoop_eq, zero_mul, zero_add]
  · rintro (hd | h0)
    · have hf : ts.hasDistFallback = false := by
        unfold OSet.hasDistFallback
        cases hl : ts.literal <;> simp_all
      unfold OSet.distEntropy
      rw [if_pos hf]
    · have : st.literalCount.sum = 0 := by
        rw [← hsum, List.map_congr_left (g := fun _ => 0) (fun b _ => h0 b), List.map_const', List.sum_replicate, smul_zero]
      unfold OSet.distEntropy
      split
      · rfl
      · dsimp only; rw [if_pos this]

theorem oneSymbol_readable : ReadableCode (k := 256) (fun b => [⟨b.toNat, UInt8.toNat_lt b⟩]) := by
  intro s
  induction s with
  | nil =>
    intro t e
    cases t with
    | nil => rfl
    | cons b t => cases e
  | cons a s ih =>
    intro t e
    cases t with
    | nil => cases e
    | cons b t =>
      rw [List.flatMap_cons, List.flatMap_cons, List.cons_append, List.cons_append] at e
      obtain ⟨e1, e2⟩ := List.cons.inj e
      have e1 : a = b := UInt8.toNat_inj.1 (congrArg Fin.val e1)
      rw [e1, ih t e2]

theorem term_nonneg {c total : Nat} (hle : c ≤ total) : (0 : ℝ) ≤ (c : ℝ) * Real.logb 2 (total / c) := by
  rcases Nat.eq_zero_or_pos c with rfl | hc
  · simp
  · have hc' : (0 : ℝ) < c := by exact_mod_cast hc
    refine mul_nonneg hc'.le (Real.logb_nonneg (by norm_num) ?_)
    rw [le_div_iff₀ hc', one_mul]
    exact_mod_cast hle

theorem term_zero {c total : Nat} (hle : c ≤ total) (h : (c : ℝ) * Real.logb 2 (total / c) = 0) : c = 0 ∨ c = total := by
  rcases Nat.eq_zero_or_pos c with hc | hc
  · exact .inl hc
  · right
    have hc' : (0 : ℝ) < c := by exact_mod_cast hc
    by_contra hne
    have hlt : (c : ℝ) < total := by exact_mod_cast lt_of_le_of_ne hle hne
    have : 0 < Real.logb 2 (total / c) := Real.logb_pos (by norm_num) (by rw [lt_div_iff₀ hc', one_mul]; exact hlt)
    exact absurd h (mul_pos hc' this).ne'

/-- **C120**.  `dist_entropy` is never negative and at most 8 bits. -/
theorem C120_range (ts : OSet) (st : OStats) (h : st.literalCount.length = 256) :
    0 ≤ ts.distEntropy st ∧ ts.distEntropy st ≤ 8 := by
  have hE := C120_entropy ts st h
  have hsum : (allBytes.map (literalUses st)).sum = st.literalCount.sum := by rw [literalUses_list h]
  by_cases hd : ts.literal ∈ [.dist2, .dist4, .dist8]
  · have he := hE.1 hd
    rcases Nat.eq_zero_or_pos st.literalCount.sum with h0 | hpos
    · have hz : ts.distEntropy st = 0 := hE.2 (.inr (fun b => by
        have hle : literalUses st b ≤ (allBytes.map (literalUses st)).sum :=
          List.single_le_sum (fun _ _ => Nat.zero_le _) _ (List.mem_map_of_mem (mem_allBytes b))
        omega))
      rw [hz]; norm_num
    · have hp : (0 : ℝ) < st.literalCount.sum := by exact_mod_cast hpos
      constructor
      · have h1 : 0 ≤ entropyBits (literalUses st) := by
          unfold entropyBits
          apply List.sum_nonneg
          intro x hx
          obtain ⟨b, hb, rfl⟩ := List.mem_map.1 hx
          exact term_nonneg (List.single_le_sum (fun _ _ => Nat.zero_le _) _ (List.mem_map_of_mem hb))
        rw [← he] at h1
        exact nonneg_of_mul_nonneg_left h1 hp
      · have h1 := entropy_le_code (by norm_num) oneSymbol_readable (literalUses st)
        have e8 : Real.logb 2 ((256 : Nat) : ℝ) = 8 := by
          have : ((256 : Nat) : ℝ) = 2 ^ (8 : ℝ) := by norm_num
          rw [this, Real.logb_rpow (by norm_num) (by norm_num)]
        have ec : codeTotal (fun b : UInt8 => [(⟨b.toNat, UInt8.toNat_lt b⟩ : Fin 256)]) (literalUses st) =
            st.literalCount.sum := by
          unfold codeTotal
          simp only [List.length_singleton, Nat.one_mul]
          rw [← hsum]
        rw [e8, ec, ← he, mul_comm] at h1
        exact le_of_mul_le_mul_left h1 hp
  · rw [hE.2 (.inl hd)]; norm_num

/-- **C120**.  It is a lower bound: no way to write the literals in bits takes fewer bits per literal on average. -/
theorem C120_lower_bound (ts : OSet) (st : OStats) (h : st.literalCount.length = 256)
    (code : UInt8 → List (Fin 2)) (hcode : ReadableCode code) :
    ts.distEntropy st * st.literalCount.sum ≤ codeTotal code (literalUses st) := by
  by_cases hd : ts.literal ∈ [.dist2, .dist4, .dist8]
  · rw [(C120_entropy ts st h).1 hd]
    have := entropy_le_code (by norm_num) hcode (literalUses st)
    have e1 : Real.logb 2 ((2 : Nat) : ℝ) = 1 := by
      rw [Nat.cast_ofNat]; exact Real.logb_self_eq_one (by norm_num)
    rwa [e1, mul_one] at this
  · rw [(C120_entropy ts st h).2 (.inl hd), zero_mul]
    exact Nat.cast_nonneg _

/-- **C120**.  For sets with a distribution it is 0 only if at most one byte occurs as a literal. -/
theorem C120_zero_iff (ts : OSet) (st : OStats) (h : st.literalCount.length = 256)
    (hd : ts.literal ∈ [.dist2, .dist4, .dist8]) :
    ts.distEntropy st = 0 ↔ ∀ a b, 0 < literalUses st a → 0 < literalUses st b → a = b := by
  have he := (C120_entropy ts st h).1 hd
  have hsum : (allBytes.map (literalUses st)).sum = st.literalCount.sum := by rw [literalUses_list h]
  have hle : ∀ b, literalUses st b ≤ (allBytes.map (literalUses st)).sum := fun b =>
    List.single_le_sum (fun _ _ => Nat.zero_le _) _ (List.mem_map_of_mem (mem_allBytes b))
  have hone : ∀ (l : List UInt8) (a b : UInt8), l.Nodup → a ∈ l → b ∈ l → a ≠ b →
      literalUses st a + literalUses st b ≤ (l.map (literalUses st)).sum := by
    intro l
    induction l with
    | nil => intro a b _ ha; cases ha
    | cons x l ih =>
      intro a b hnd ha hb hab
      rw [List.map_cons, List.sum_cons]
      have hin : ∀ y ∈ l, literalUses st y ≤ (l.map (literalUses st)).sum := fun y hy =>
        List.single_le_sum (fun _ _ => Nat.zero_le _) _ (List.mem_map_of_mem hy)
      rcases List.mem_cons.1 ha with rfl | ha'
      · rcases List.mem_cons.1 hb with rfl | hb'
        · exact absurd rfl hab
        · exact Nat.add_le_add_left (hin b hb') _
      · rcases List.mem_cons.1 hb with rfl | hb'
        · have := hin a ha'; omega
        · have := ih a b (List.nodup_cons.1 hnd).2 ha' hb' hab; omega
  constructor
  · intro hz a b ha hb
    by_contra hab
    rw [hz, zero_mul] at he
    have hall : ∀ b, (literalUses st b : ℝ) * Real.logb 2 ((allBytes.map (literalUses st)).sum / literalUses st b) = 0 := by
      intro b
      have hnn : ∀ x ∈ allBytes.map (fun b => (literalUses st b : ℝ) *
          Real.logb 2 ((allBytes.map (literalUses st)).sum / literalUses st b)), 0 ≤ x := by
        intro x hx
        obtain ⟨b, _, rfl⟩ := List.mem_map.1 hx
        exact term_nonneg (hle b)
      have h1 := List.single_le_sum hnn _ (List.mem_map_of_mem (mem_allBytes b))
      have h2 := hnn _ (List.mem_map_of_mem (mem_allBytes b))
      unfold entropyBits at he
      rw [← he] at h1
      exact le_antisymm h1 h2
    have h1 := term_zero (hle a) (hall a)
    have h2 := hone allBytes a b allBytes_nodup (mem_allBytes a) (mem_allBytes b) hab
    omega
  · intro hall
    rcases Nat.eq_zero_or_pos st.literalCount.sum with h0 | hpos
    · exact (C120_entropy ts st h).2 (.inr (fun b => by have := hle b; omega))
    · have hp : (0 : ℝ) < st.literalCount.sum := by exact_mod_cast hpos
      have hz : entropyBits (literalUses st) = 0 := by
        unfold entropyBits
        apply List.sum_eq_zero
        intro x hx
        obtain ⟨b, _, rfl⟩ := List.mem_map.1 hx
        rcases Nat.eq_zero_or_pos (literalUses st b) with h0 | hb
        · rw [h0, Nat.cast_zero, zero_mul]
        · have htot : (allBytes.map (literalUses st)).sum = literalUses st b := by
            have : ∀ l : List UInt8, l.Nodup → (l.map (literalUses st)).sum ≤ literalUses st b := by
              intro l
              induction l with
              | nil => intro _; exact Nat.zero_le _
              | cons x l ih =>
                intro hnd
                obtain ⟨h1, h2⟩ := List.nodup_cons.1 hnd
                rw [List.map_cons, List.sum_cons]
                by_cases hxb : x = b
                · have : (l.map (literalUses st)).sum = 0 := by
                    apply List.sum_eq_zero
                    intro y hy
                    obtain ⟨z, hz, rfl⟩ := List.mem_map.1 hy
                    by_contra hne
                    have : z = b := hall z b (by omega) hb
                    exact h1 (by rw [hxb, ← this]; exact hz)
                  rw [this, hxb]; exact Nat.le_refl _
                · have : literalUses st x = 0 := by
                    by_contra hne
                    exact hxb (hall x b (by omega) hb)
                  rw [this, Nat.zero_add]
                  exact ih h2
            exact Nat.le_antisymm (this allBytes allBytes_nodup) (hle b)
          rw [htot, div_self (by exact_mod_cast hb.ne'), Real.logb_one, mul_zero]
      rw [hz] at he
      exact (mul_eq_zero.1 he).resolve_right hp.ne'

-- the hypotheses are met: literals 0 and 1 were seen 3 and 5 times
example (ts : OSet) (st : OStats) (hl : ts.literal = .dist8)
    (hc : st.literalCount = 3 :: 5 :: List.replicate 254 0) : 0 < ts.distEntropy st ∧ ts.distEntropy st ≤ 8 := by
  have h : st.literalCount.length = 256 := by
    rw [hc, List.length_cons, List.length_cons, List.length_replicate]
  have hd : ts.literal ∈ [LiteralEncoding.dist2, .dist4, .dist8] := by rw [hl]; decide
  refine ⟨lt_of_le_of_ne (C120_range ts st h).1 (Ne.symm ?_), (C120_range ts st h).2⟩
  rw [Ne, C120_zero_iff ts st h hd]
  intro hall
  have h0 : literalUses st 0 = 3 := by unfold literalUses; rw [hc]; rfl
  have h1 : literalUses st 1 = 5 := by unfold literalUses; rw [hc]; rfl
  exact absurd (hall 0 1 (by omega) (by omega)) (by decide)

end Tokens.Props
