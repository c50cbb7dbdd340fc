import Verif.Proofs.Float
import Verif.Proofs.Sampler3

/-! How much `sample_from_file` takes. -/

namespace Tokens
open Spec Input

theorem lessShare_zero (size fileSize : Nat) : lessShare size fileSize 0 0 = false := by
  simp [lessShare, F64.ofNat, F64.div, F64.lt, round53_zero]

theorem ofNat_div {a b : Nat} (hb : 0 < b) :
    (F64.ofNat a).div (F64.ofNat b) = .fin (round53 (round53 a / round53 b)) := by
  have := round53_nat_pos hb
  simp [F64.ofNat, F64.div, this.ne']

theorem lessShare_eq {size fileSize d r : Nat} (hF : 0 < fileSize) (hr : 0 < r) :
    lessShare size fileSize d r =
      decide (round53 (round53 d / round53 r) < round53 (round53 size / round53 fileSize)) := by
  unfold lessShare
  rw [ofNat_div hr, ofNat_div hF]
  rfl

theorem lessShare_first {size fileSize r : Nat} (hs : 0 < size) (hF : 0 < fileSize) (hr : 0 < r) :
    lessShare size fileSize 0 r = true := by
  rw [lessShare_eq hF hr]
  have : round53 (round53 ((0 : Nat) : ℚ) / round53 r) = 0 := by simp [round53_zero]
  rw [this, decide_eq_true_eq]
  exact round53_pos (div_pos (round53_nat_pos hs) (round53_nat_pos hF))

/-- A share that the program finds too small is too small. -/
theorem lessShare_true {size fileSize d r : Nat} (hF : 0 < fileSize) (h1 : size ≤ 2 ^ 53)
    (h2 : fileSize ≤ 2 ^ 53) (h3 : d ≤ 2 ^ 53) (h4 : r ≤ 2 ^ 53)
    (h : lessShare size fileSize d r = true) : d * fileSize < size * r := by
  rcases Nat.eq_zero_or_pos r with rfl | hr
  · exfalso
    revert h
    unfold lessShare
    rw [ofNat_div hF]
    by_cases hd : round53 (d : ℚ) = 0
    · simp [F64.ofNat, F64.div, F64.lt, round53_zero, hd]
    · simp only [F64.ofNat, Nat.cast_zero, round53_zero, F64.div, hd, if_true, if_false, F64.lt,
        decide_eq_true_eq]
      have := round53_nonneg (q := (d : ℚ)) (by exact_mod_cast Nat.zero_le d)
      intro h
      linarith
  · rw [lessShare_eq hF hr, round53_nat h1, round53_nat h2, round53_nat h3, round53_nat h4,
      decide_eq_true_eq] at h
    have hlt : (d : ℚ) / r < size / fileSize := by
      by_contra hge
      exact absurd (round53_mono (not_lt.1 hge)) (not_le.2 h)
    rw [div_lt_div_iff₀ (by exact_mod_cast hr) (by exact_mod_cast hF)] at hlt
    exact_mod_cast hlt

/-- A share that the program finds large enough is large enough, up to one part in `fileSize`. -/
theorem lessShare_false {size fileSize d r : Nat} (hF : 0 < fileSize) (h1 : size ≤ fileSize)
    (h2 : fileSize ≤ 2 ^ 52) (h3 : d ≤ r) (h4 : r ≤ fileSize) (hr : 0 < r)
    (h : lessShare size fileSize d r = false) : size * r ≤ d * fileSize + size := by
  rw [lessShare_eq hF hr, round53_nat (n := size) (by omega), round53_nat (n := fileSize) (by omega),
    round53_nat (n := d) (by omega), round53_nat (n := r) (by omega), decide_eq_false_iff_not, not_lt] at h
  have hr' : (0 : ℚ) < r := by exact_mod_cast hr
  have hF' : (0 : ℚ) < fileSize := by exact_mod_cast hF
  have hd' : (0 : ℚ) ≤ d := by exact_mod_cast Nat.zero_le d
  have hs' : (0 : ℚ) ≤ size := by exact_mod_cast Nat.zero_le size
  have hF52 : (fileSize : ℚ) ≤ 2 ^ 52 := by exact_mod_cast h2
  have hrF : (r : ℚ) ≤ fileSize := by exact_mod_cast h4
  have ex := round53_err ((d : ℚ) / r)
  have ey := round53_err ((size : ℚ) / fileSize)
  have hx : (0 : ℚ) ≤ d / r := div_nonneg hd' hr'.le
  have hy : (0 : ℚ) ≤ size / fileSize := div_nonneg hs' hF'.le
  rw [abs_of_nonneg hx] at ex
  rw [abs_of_nonneg hy] at ey
  have ex' := (abs_le.1 ex).2
  have ey' := (abs_le.1 ey).1
  have key : (size : ℚ) / fileSize - size / fileSize / 2 ^ 53 ≤ d / r + d / r / 2 ^ 53 := by linarith
  by_cases hc : size * r ≤ d * fileSize
  · omega
  · have hc' : (d : ℚ) * fileSize < size * r := by exact_mod_cast not_le.1 hc
    have e1 : (size : ℚ) / fileSize * (fileSize * r) = size * r := by field_simp
    have e2 : (d : ℚ) / r * (fileSize * r) = d * fileSize := by field_simp
    have hm := mul_le_mul_of_nonneg_right key (mul_pos hF' hr').le
    have hm' : (size : ℚ) * r - size * r / 2 ^ 53 ≤ d * fileSize + d * fileSize / 2 ^ 53 := by
      calc (size : ℚ) * r - size * r / 2 ^ 53
          = ((size : ℚ) / fileSize - size / fileSize / 2 ^ 53) * (fileSize * r) := by
            rw [sub_mul, e1, div_mul_eq_mul_div, e1]
        _ ≤ _ := hm
        _ = _ := by rw [add_mul, e2, div_mul_eq_mul_div, e2]
    have hsr : (size : ℚ) * r ≤ size * 2 ^ 52 := mul_le_mul_of_nonneg_left (by linarith) hs'
    have : (size : ℚ) * r ≤ d * fileSize + size := by
      have : (size : ℚ) * r / 2 ^ 53 + d * fileSize / 2 ^ 53 ≤ size := by
        rw [← add_div, div_le_iff₀ (by norm_num)]
        linarith
      linarith
    exact_mod_cast this

/-- Bounds on what is selected, for any test that is right up to one part in `F`. -/
theorem selectParas_size {less : Nat → Nat → Bool} {s F M : Nat} (hs : 0 < s) (hsF : s ≤ F)
    (hU : ∀ d r, d ≤ r → r ≤ F → less d r = true → d * F < s * r)
    (hL : ∀ d r, d ≤ r → r ≤ F → 0 < r → less d r = false → s * r ≤ d * F + s)
    (ps : List Bytes) (hM : ∀ p ∈ ps, p.length ≤ M) (data : Bytes) (r : Nat) (hdr : data.length ≤ r)
    (hrF : r + ps.flatten.length = F) (h1 : data.length < s + M)
    (h2 : s * r ≤ data.length * F + s * (M + 1)) :
    (selectParas less ps data r).length < s + M ∧
      s * F ≤ (selectParas less ps data r).length * F + s * (M + 1) := by
  induction ps generalizing data r with
  | nil =>
    simp only [List.flatten_nil, List.length_nil, Nat.add_zero] at hrF
    subst hrF
    exact ⟨h1, h2⟩
  | cons p ps ih =>
    rw [selectParas]
    have hp := hM p (by simp)
    simp only [List.flatten_cons, List.length_append] at hrF
    have hM' : ∀ q ∈ ps, q.length ≤ M := fun q hq => hM q (by simp [hq])
    cases hl : less data.length r with
    | true =>
      simp only [if_true]
      have hd := hU _ _ hdr (by omega) hl
      have hds : data.length < s := by
        have : data.length * F < s * F := lt_of_lt_of_le hd (Nat.mul_le_mul_left _ (by omega))
        exact Nat.lt_of_mul_lt_mul_right this
      refine ih hM' _ _ (by rw [List.length_append]; omega) (by omega) (by rw [List.length_append]; omega) ?_
      rw [List.length_append]
      have := Nat.mul_le_mul_right p.length hsF
      have e1 : s * (r + p.length) = s * r + s * p.length := by ring
      have e2 : (data.length + p.length) * F = data.length * F + F * p.length := by ring
      omega
    | false =>
      simp only [Bool.false_eq_true, if_false]
      refine ih hM' _ _ (by omega) (by omega) h1 ?_
      have hsp := Nat.mul_le_mul_left s hp
      have e1 : s * (r + p.length) = s * r + s * p.length := by ring
      have e2 : s * (M + 1) = s * M + s := by ring
      rcases Nat.eq_zero_or_pos r with rfl | hr
      · omega
      · have := hL _ _ hdr (by omega) hr hl
        omega

end Tokens
