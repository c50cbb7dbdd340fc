import Verif.Proofs.Share
import Verif.Model.Main

/-! The test that ends `optimize_with_increasing_data`. -/

namespace Tokens
open Input Main

theorem round53_hi {q : ℚ} (h : 0 ≤ q) : round53 q ≤ q * (1 + 1 / 2 ^ 53) := by
  have := (abs_le.1 (round53_err q)).2
  rw [abs_of_nonneg h] at this
  linarith

theorem round53_lo {q : ℚ} (h : 0 ≤ q) : q * (1 - 1 / 2 ^ 53) ≤ round53 q := by
  have := (abs_le.1 (round53_err q)).1
  rw [abs_of_nonneg h] at this
  linarith

/-- A quotient of two converted integers is right up to one part in 2^50. -/
theorem quot_err (s : Nat) {t : Nat} (ht : 0 < t) :
    round53 (round53 s / round53 t) ≤ (s : ℚ) / t * (1 + 1 / 2 ^ 50) ∧
    (s : ℚ) / t * (1 - 1 / 2 ^ 50) ≤ round53 (round53 s / round53 t) := by
  have hs : (0 : ℚ) ≤ s := by exact_mod_cast Nat.zero_le s
  have ht' : (0 : ℚ) < t := by exact_mod_cast ht
  have hS := round53_nonneg hs
  have hT := round53_nat_pos ht
  have hq : 0 ≤ round53 (s : ℚ) / round53 t := div_nonneg hS hT.le
  have hx : (0 : ℚ) ≤ s / t := div_nonneg hs ht'.le
  have s1 := round53_hi hs
  have s2 := round53_lo hs
  have t1 := round53_hi ht'.le
  have t2 := round53_lo ht'.le
  constructor
  · have h1 : round53 (s : ℚ) / round53 t ≤ (s * (1 + 1 / 2 ^ 53)) / (t * (1 - 1 / 2 ^ 53)) := by
      rw [div_le_div_iff₀ hT (mul_pos ht' (by norm_num))]
      exact mul_le_mul s1 t2 (mul_nonneg ht'.le (by norm_num)) (mul_nonneg hs (by norm_num))
    have h2 : ((s : ℚ) * (1 + 1 / 2 ^ 53)) / (t * (1 - 1 / 2 ^ 53)) =
        s / t * ((1 + 1 / 2 ^ 53) / (1 - 1 / 2 ^ 53)) := by rw [mul_div_mul_comm]
    have h3 := round53_hi hq
    rw [h2] at h1
    have h4 := mul_le_mul_of_nonneg_right h1 (show (0 : ℚ) ≤ 1 + 1 / 2 ^ 53 by norm_num)
    refine le_trans h3 (le_trans h4 ?_)
    rw [mul_assoc]
    exact mul_le_mul_of_nonneg_left (by norm_num) hx
  · have h1 : ((s : ℚ) * (1 - 1 / 2 ^ 53)) / (t * (1 + 1 / 2 ^ 53)) ≤ round53 (s : ℚ) / round53 t := by
      rw [div_le_div_iff₀ (mul_pos ht' (by norm_num)) hT]
      exact mul_le_mul s2 t1 hT.le hS
    have h2 : ((s : ℚ) * (1 - 1 / 2 ^ 53)) / (t * (1 + 1 / 2 ^ 53)) =
        s / t * ((1 - 1 / 2 ^ 53) / (1 + 1 / 2 ^ 53)) := by rw [mul_div_mul_comm]
    have h3 := round53_lo hq
    rw [h2] at h1
    have h4 := mul_le_mul_of_nonneg_right h1 (show (0 : ℚ) ≤ 1 - 1 / 2 ^ 53 by norm_num)
    refine le_trans ?_ (le_trans h4 h3)
    rw [mul_assoc]
    exact mul_le_mul_of_nonneg_left (by norm_num) hx

/-- If the test succeeds the ratios differ by less than 0.50001 percent. -/
theorem closeEnough_spec {st full : TokenStats} (hs : 0 < full.scannedBytes) (ht : 0 < full.totalTokens)
    (h : closeEnough st full = true) :
    0 < st.totalTokens ∧
    |(st.scannedBytes : ℚ) / st.totalTokens - full.scannedBytes / full.totalTokens| <
      50001 / 10000000 * (full.scannedBytes / full.totalTokens) := by
  have hs' : (0 : ℚ) < full.scannedBytes := by exact_mod_cast hs
  have ht' : (0 : ℚ) < full.totalTokens := by exact_mod_cast ht
  have hy : (0 : ℚ) < full.scannedBytes / full.totalTokens := div_pos hs' ht'
  unfold closeEnough bytesPerToken at h
  rw [ofNat_div ht] at h
  obtain ⟨b1, b2⟩ := quot_err full.scannedBytes ht
  have hB : 0 < round53 (round53 (full.scannedBytes : ℚ) / round53 full.totalTokens) :=
    round53_pos (div_pos (round53_nat_pos hs) (round53_nat_pos ht))
  generalize round53 (round53 (full.scannedBytes : ℚ) / round53 full.totalTokens) = B at *
  rcases Nat.eq_zero_or_pos st.totalTokens with h0 | h0
  · exfalso
    rw [h0] at h
    by_cases hz : round53 (st.scannedBytes : ℚ) = 0
    · simp [F64.ofNat, F64.div, round53_zero, hz, F64.sub, F64.abs, F64.lt] at h
    · have := round53_nonneg (q := (st.scannedBytes : ℚ)) (by exact_mod_cast Nat.zero_le _)
      simp only [F64.ofNat, F64.div, Nat.cast_zero, round53_zero, hz, if_true, if_false, F64.sub, F64.abs,
        F64.lt] at h
      simp [not_lt.2 hB.le] at h
  · refine ⟨h0, ?_⟩
    rw [ofNat_div h0] at h
    obtain ⟨a1, a2⟩ := quot_err st.scannedBytes h0
    have hx : (0 : ℚ) ≤ (st.scannedBytes : ℚ) / st.totalTokens :=
      div_nonneg (by exact_mod_cast Nat.zero_le _) (by exact_mod_cast Nat.zero_le _)
    generalize round53 (round53 (st.scannedBytes : ℚ) / round53 st.totalTokens) = A at *
    simp only [F64.sub, F64.abs, F64.div, hB.ne', if_false, F64.lt, decide_eq_true_eq] at h
    have h1 : |round53 (A - B)| / B < 5 / 1000 := by
      by_contra hge
      exact absurd (round53_mono (not_lt.1 hge)) (not_le.2 h)
    rw [div_lt_iff₀ hB] at h1
    have h2 := round53_err (A - B)
    have h3 : |A - B| ≤ |round53 (A - B)| + |round53 (A - B) - (A - B)| := by
      have := abs_sub_abs_le_abs_sub (A - B) (round53 (A - B))
      rw [abs_sub_comm (A - B) (round53 (A - B))] at this
      linarith
    generalize |round53 (A - B)| = c at *
    generalize |round53 (A - B) - (A - B)| = e at *
    generalize (st.scannedBytes : ℚ) / st.totalTokens = x at *
    generalize (full.scannedBytes : ℚ) / full.totalTokens = y at *
    have h4 := le_abs_self (A - B)
    have h5 := neg_abs_le (A - B)
    generalize |A - B| = D at *
    rw [abs_lt]
    constructor <;> linarith

/-- If the test fails the ratios differ by more than 0.49999 percent. -/
theorem notClose_spec {st full : TokenStats} (hs : 0 < full.scannedBytes) (ht : 0 < full.totalTokens)
    (h : ¬ closeEnough st full = true) :
    49999 / 10000000 * ((full.scannedBytes : ℚ) / full.totalTokens) <
      |(st.scannedBytes : ℚ) / st.totalTokens - full.scannedBytes / full.totalTokens| := by
  have hs' : (0 : ℚ) < full.scannedBytes := by exact_mod_cast hs
  have ht' : (0 : ℚ) < full.totalTokens := by exact_mod_cast ht
  have hy : (0 : ℚ) < full.scannedBytes / full.totalTokens := div_pos hs' ht'
  rcases Nat.eq_zero_or_pos st.totalTokens with h0 | h0
  · rw [h0]
    simp only [Nat.cast_zero, div_zero, zero_sub, abs_neg, abs_of_pos hy]
    linarith
  · unfold closeEnough bytesPerToken at h
    rw [ofNat_div ht, ofNat_div h0] at h
    obtain ⟨b1, b2⟩ := quot_err full.scannedBytes ht
    obtain ⟨a1, a2⟩ := quot_err st.scannedBytes h0
    have hB : 0 < round53 (round53 (full.scannedBytes : ℚ) / round53 full.totalTokens) :=
      round53_pos (div_pos (round53_nat_pos hs) (round53_nat_pos ht))
    have hx : (0 : ℚ) ≤ (st.scannedBytes : ℚ) / st.totalTokens :=
      div_nonneg (by exact_mod_cast Nat.zero_le _) (by exact_mod_cast Nat.zero_le _)
    generalize round53 (round53 (full.scannedBytes : ℚ) / round53 full.totalTokens) = B at *
    generalize round53 (round53 (st.scannedBytes : ℚ) / round53 st.totalTokens) = A at *
    simp only [F64.sub, F64.abs, F64.div, hB.ne', if_false, F64.lt, decide_eq_true_eq, not_lt] at h
    have h0' : 0 ≤ |round53 (A - B)| / B := div_nonneg (abs_nonneg _) hB.le
    have h1 := round53_lo (q := 5 / 1000) (by norm_num)
    have h2 := round53_hi h0'
    have h3 : 5 / 1000 * (1 - 1 / 2 ^ 53) ≤ |round53 (A - B)| / B * (1 + 1 / 2 ^ 53) := by linarith
    have h4 : 5 / 1000 * (1 - 1 / 2 ^ 53) / (1 + 1 / 2 ^ 53) ≤ |round53 (A - B)| / B := by
      rw [div_le_iff₀ (by norm_num)]; exact h3
    rw [le_div_iff₀ hB] at h4
    have h5 := round53_err (A - B)
    have h6 : |round53 (A - B)| ≤ |A - B| + |round53 (A - B) - (A - B)| := by
      have := abs_sub_abs_le_abs_sub (round53 (A - B)) (A - B)
      linarith
    generalize |round53 (A - B)| = c at *
    generalize |round53 (A - B) - (A - B)| = e at *
    generalize (st.scannedBytes : ℚ) / st.totalTokens = x at *
    generalize (full.scannedBytes : ℚ) / full.totalTokens = y at *
    have h7 : |A - B| * (1 + 1 / 2 ^ 53) ≥ 5 / 1000 * (1 - 1 / 2 ^ 53) / (1 + 1 / 2 ^ 53) * B := by linarith
    have h8 : 49999999 / 10000000000 * B ≤ |A - B| := by
      norm_num at h7
      linarith
    by_contra hge
    rw [not_lt, abs_le] at hge
    obtain ⟨g1, g2⟩ := hge
    rcases le_total 0 (A - B) with hp | hp
    · rw [abs_of_nonneg hp] at h8
      linarith
    · rw [abs_of_nonpos hp] at h8
      linarith

end Tokens
