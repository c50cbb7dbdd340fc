import Verif.Model.Float
import Mathlib.Tactic.Linarith
import Mathlib.Tactic.FieldSimp
import Mathlib.Tactic.Ring
import Mathlib.Tactic.Positivity
import Mathlib.Tactic.NormNum
import Mathlib.Tactic.Push

/-! Rounding to 53 bits: monotone, exact on small integers, relative error at most 2^-53. -/

namespace Tokens

theorem roundEven_near (x : ℚ) : |(roundEven x : ℚ) - x| ≤ 1 / 2 := by
  have h1 := Int.floor_le x
  have h2 := Int.lt_floor_add_one x
  unfold roundEven
  simp only
  split
  · rw [abs_le]; constructor <;> linarith
  · split
    · rw [abs_le]; constructor <;> push_cast <;> linarith
    · split <;> rw [abs_le] <;> constructor <;> push_cast <;> linarith

theorem roundEven_int (n : ℤ) : roundEven (n : ℚ) = n := by
  simp [roundEven]

theorem roundEven_floor (x : ℚ) : roundEven x = ⌊x⌋ ∨ roundEven x = ⌊x⌋ + 1 := by
  unfold roundEven
  simp only
  split
  · exact .inl rfl
  · split
    · exact .inr rfl
    · split
      · exact .inl rfl
      · exact .inr rfl

theorem roundEven_mono {x y : ℚ} (h : x ≤ y) : roundEven x ≤ roundEven y := by
  have hf : ⌊x⌋ ≤ ⌊y⌋ := Int.floor_le_floor h
  rcases Int.lt_or_eq_of_le hf with hlt | heq
  · rcases roundEven_floor x with h1 | h1 <;> rcases roundEven_floor y with h2 | h2 <;> omega
  · unfold roundEven
    simp only
    rw [← heq]
    split_ifs <;> first | omega | (exfalso; linarith)

theorem ulp_pos (q : ℚ) : 0 < ulp q := zpow_pos (by norm_num) _

theorem pow_split (k : ℤ) : (2 : ℚ) ^ k = 2 ^ 52 * 2 ^ (k - 52) := by
  rw [show k = 52 + (k - 52) by ring, zpow_add₀ (by norm_num)]
  norm_num

/-- A positive number has 53 bits before the point when measured in `ulp`s. -/
theorem ulp_lo {q : ℚ} (h : 0 < q) : 2 ^ 52 * ulp q ≤ q := by
  have := Int.zpow_log_le_self (b := 2) (by norm_num) h
  push_cast at this
  rw [pow_split] at this
  exact this

theorem ulp_hi (q : ℚ) : q < 2 ^ 53 * ulp q := by
  have := Int.lt_zpow_succ_log_self (b := 2) (by norm_num) q
  push_cast at this
  rw [zpow_add₀ (by norm_num), pow_split] at this
  unfold ulp
  linarith

theorem roundPos_lo {q : ℚ} (h : 0 < q) : 2 ^ 52 * ulp q ≤ roundPos q := by
  have h1 := ulp_lo h
  have h0 := ulp_pos q
  have : ((2 ^ 52 : ℤ) : ℚ) ≤ q / ulp q := by
    rw [le_div_iff₀ h0]; push_cast; exact h1
  have := roundEven_mono this
  rw [roundEven_int] at this
  unfold roundPos
  refine mul_le_mul_of_nonneg_right ?_ h0.le
  exact_mod_cast this

theorem roundPos_hi (q : ℚ) : roundPos q ≤ 2 ^ 53 * ulp q := by
  have h1 := ulp_hi q
  have h0 := ulp_pos q
  have : q / ulp q ≤ ((2 ^ 53 : ℤ) : ℚ) := by
    rw [div_le_iff₀ h0]; push_cast; exact h1.le
  have := roundEven_mono this
  rw [roundEven_int] at this
  unfold roundPos
  refine mul_le_mul_of_nonneg_right ?_ h0.le
  exact_mod_cast this

theorem roundPos_pos {q : ℚ} (h : 0 < q) : 0 < roundPos q :=
  lt_of_lt_of_le (mul_pos (by norm_num) (ulp_pos q)) (roundPos_lo h)

theorem roundPos_mono {a b : ℚ} (h : 0 < a) (hab : a ≤ b) : roundPos a ≤ roundPos b := by
  have hl := Int.log_mono_right (b := 2) h hab
  rcases Int.lt_or_eq_of_le hl with hlt | heq
  · refine le_trans (roundPos_hi a) (le_trans ?_ (roundPos_lo (lt_of_lt_of_le h hab)))
    unfold ulp
    have : (2 : ℚ) ^ (Int.log 2 a - 52) * 2 ≤ 2 ^ (Int.log 2 b - 52) := by
      rw [← zpow_add_one₀ (by norm_num)]
      exact zpow_le_zpow_right₀ (by norm_num) (by omega)
    linarith
  · have hu : ulp a = ulp b := by unfold ulp; rw [heq]
    have h0 := ulp_pos b
    unfold roundPos
    rw [hu]
    refine mul_le_mul_of_nonneg_right ?_ h0.le
    exact_mod_cast roundEven_mono (div_le_div_of_nonneg_right hab h0.le)

theorem roundPos_err {q : ℚ} (h : 0 < q) : |roundPos q - q| ≤ q / 2 ^ 53 := by
  have h0 := ulp_pos q
  have h1 := ulp_lo h
  have h2 := roundEven_near (q / ulp q)
  have e : roundPos q - q = ((roundEven (q / ulp q) : ℚ) - q / ulp q) * ulp q := by
    unfold roundPos
    field_simp
  rw [e, abs_mul, abs_of_pos h0]
  calc _ ≤ 1 / 2 * ulp q := mul_le_mul_of_nonneg_right h2 h0.le
    _ ≤ q / 2 ^ 53 := by
        rw [le_div_iff₀ (by norm_num)]
        linarith

theorem roundPos_nat {n : Nat} (h0 : 0 < n) (h : n ≤ 2 ^ 53) : roundPos (n : ℚ) = n := by
  rcases Nat.lt_or_eq_of_le h with hlt | heq
  · -- an integral multiple of the unit
    have hlog : Int.log 2 (n : ℚ) ≤ 52 := by
      have : Int.log 2 (n : ℚ) < 53 := by
        rw [← Int.lt_zpow_iff_log_lt (by norm_num) (by exact_mod_cast h0)]
        have : (n : ℚ) < (2 : ℚ) ^ 53 := by exact_mod_cast hlt
        exact_mod_cast this
      omega
    obtain ⟨k, hk⟩ : ∃ k : ℕ, Int.log 2 (n : ℚ) - 52 = -(k : ℤ) :=
      ⟨(52 - Int.log 2 (n : ℚ)).toNat, by omega⟩
    unfold roundPos ulp
    rw [hk, zpow_neg]
    have e : (n : ℚ) / ((2 : ℚ) ^ (k : ℤ))⁻¹ = ((n * 2 ^ k : ℤ) : ℚ) := by
      push_cast
      rw [div_inv_eq_mul]
      norm_cast
    rw [e, roundEven_int]
    push_cast
    rw [zpow_natCast]
    field_simp
  · subst heq
    have hl : Int.log 2 (((2 ^ 53 : Nat) : ℚ)) = 53 := by
      have := Int.log_zpow (R := ℚ) (b := 2) (by norm_num) 53
      push_cast at this ⊢
      exact_mod_cast this
    unfold roundPos ulp
    rw [hl]
    have e : (((2 ^ 53 : Nat) : ℚ)) / (2 : ℚ) ^ (53 - 52 : ℤ) = ((2 ^ 52 : ℤ) : ℚ) := by norm_num
    rw [e, roundEven_int]
    norm_num

theorem round53_zero : round53 0 = 0 := by simp [round53]

theorem round53_pos {q : ℚ} (h : 0 < q) : 0 < round53 q := by
  unfold round53; rw [if_pos h]; exact roundPos_pos h

theorem round53_neg (q : ℚ) : round53 (-q) = - round53 q := by
  unfold round53
  rcases lt_trichotomy q 0 with h | h | h
  · rw [if_pos (by linarith), if_neg (by linarith), if_pos h, neg_neg]
  · subst h; simp
  · rw [if_neg (by linarith), if_pos (by linarith), if_pos h, neg_neg]

theorem round53_nonneg {q : ℚ} (h : 0 ≤ q) : 0 ≤ round53 q := by
  rcases lt_or_eq_of_le h with h | h
  · exact (round53_pos h).le
  · rw [← h, round53_zero]

/-- Rounding is monotone. -/
theorem round53_mono {a b : ℚ} (h : a ≤ b) : round53 a ≤ round53 b := by
  rcases lt_or_ge 0 a with ha | ha
  · unfold round53
    rw [if_pos ha, if_pos (lt_of_lt_of_le ha h)]
    exact roundPos_mono ha h
  · rcases lt_or_ge b 0 with hb | hb
    · have := roundPos_mono (a := -b) (b := -a) (by linarith) (by linarith)
      unfold round53
      rw [if_neg (by linarith), if_pos (by linarith), if_neg (by linarith), if_pos hb]
      linarith
    · have h1 := round53_nonneg hb
      have h2 := round53_nonneg (q := -a) (by linarith)
      rw [round53_neg] at h2
      linarith

/-- Rounding has a relative error of at most 2^-53. -/
theorem round53_err (q : ℚ) : |round53 q - q| ≤ |q| / 2 ^ 53 := by
  rcases lt_trichotomy q 0 with h | h | h
  · have := roundPos_err (q := -q) (by linarith)
    unfold round53
    rw [if_neg (by linarith), if_pos h, abs_of_neg h]
    rw [show -roundPos (-q) - q = -(roundPos (-q) - -q) by ring, abs_neg]
    exact this
  · subst h; simp [round53]
  · unfold round53
    rw [if_pos h, abs_of_pos h]
    exact roundPos_err h

/-- Integers up to 2^53 are not changed. -/
theorem round53_nat {n : Nat} (h : n ≤ 2 ^ 53) : round53 (n : ℚ) = n := by
  rcases Nat.eq_zero_or_pos n with rfl | h0
  · simp [round53]
  · unfold round53
    rw [if_pos (by exact_mod_cast h0)]
    exact roundPos_nat h0 h

theorem round53_nat_pos {n : Nat} (h : 0 < n) : 0 < round53 (n : ℚ) := round53_pos (by exact_mod_cast h)

end Tokens
