import Verif.Spec.Coding
import Verif.Proofs.Family
import Verif.Proofs.Bytes
import Mathlib.InformationTheory.Coding.KraftMcMillan
import Mathlib.Analysis.SpecialFunctions.Log.Basic

/-!
Codes for bytes: the inequality of Kraft and McMillan, and the entropy as a lower bound.
-/

namespace Tokens
open Spec

theorem ReadableCode.injective {k : Nat} {code : UInt8 → List (Fin k)} (h : ReadableCode code) :
    Function.Injective code := by
  intro a b e
  have := h [a] [b] (by simpa using e)
  simpa using this

/-- Kraft and McMillan for codes of bytes. -/
theorem kraft_bytes {k : Nat} (hk : 0 < k) {code : UInt8 → List (Fin k)} (h : ReadableCode code) :
    (allBytes.map (fun b => (1 / (k : ℝ)) ^ (code b).length)).sum ≤ 1 := by
  classical
  have : Nonempty (Fin k) := ⟨⟨0, hk⟩⟩
  let S : Finset (List (Fin k)) := allBytes.toFinset.image code
  have hS : ∀ w, w ∈ S ↔ ∃ b, code b = w := by
    intro w
    simp only [S, Finset.mem_image, List.mem_toFinset]
    constructor
    · rintro ⟨b, _, e⟩; exact ⟨b, e⟩
    · rintro ⟨b, e⟩; exact ⟨b, mem_allBytes b, e⟩
  have pre : ∀ L : List (List (Fin k)), (∀ w ∈ L, w ∈ (S : Set (List (Fin k)))) → ∃ s : Bytes, s.map code = L := by
    intro L
    induction L with
    | nil => intro _; exact ⟨[], rfl⟩
    | cons w L ih =>
      intro hL
      obtain ⟨s, hs⟩ := ih (fun x hx => hL x (List.mem_cons_of_mem _ hx))
      obtain ⟨b, hb⟩ := (hS w).1 (hL w (by simp))
      exact ⟨b :: s, by rw [List.map_cons, hs, hb]⟩
  have hud : InformationTheory.UniquelyDecodable (S : Set (List (Fin k))) := by
    intro L1 L2 h1 h2 e
    obtain ⟨s, rfl⟩ := pre L1 h1
    obtain ⟨t, rfl⟩ := pre L2 h2
    rw [← List.flatMap_def, ← List.flatMap_def] at e
    rw [h s t e]
  have hkr := InformationTheory.kraft_mcmillan_inequality hud
  rw [Finset.sum_image (fun a _ b _ e => ReadableCode.injective h e), List.sum_toFinset _ allBytes_nodup] at hkr
  simpa only [Fintype.card_fin] using hkr

/-- The inequality of Gibbs, for lists. -/
theorem gibbs_list {α : Type} (l : List α) (u : α → Nat) (len : α → Nat) {k : Nat} (hk : 0 < k) {S : ℝ} (hS : 0 ≤ S)
    (hpos : ∀ a ∈ l, 0 < u a → 0 < S) :
    (l.map (fun a => (u a : ℝ) * Real.log (S / u a))).sum ≤
      (l.map (fun a => ((len a * u a : Nat) : ℝ))).sum * Real.log k +
      S * (l.map (fun a => (1 / (k : ℝ)) ^ len a)).sum - ((l.map u).sum : Nat) := by
  induction l with
  | nil => simp
  | cons a l ih =>
    have ih := ih (fun x hx => hpos x (List.mem_cons_of_mem _ hx))
    simp only [List.map_cons, List.sum_cons]
    have hk' : (0 : ℝ) < k := by exact_mod_cast hk
    have key : (u a : ℝ) * Real.log (S / u a) ≤ ((len a * u a : Nat) : ℝ) * Real.log k +
        S * (1 / (k : ℝ)) ^ len a - u a := by
      rcases Nat.eq_zero_or_pos (u a) with h0 | h0
      · rw [h0]
        have : 0 ≤ S * (1 / (k : ℝ)) ^ len a := by positivity
        simp only [Nat.cast_zero, zero_mul, Nat.mul_zero]
        linarith
      · have hu : (0 : ℝ) < u a := by exact_mod_cast h0
        have hS' := hpos a (by simp) h0
        have hx : 0 < S / u a * (1 / (k : ℝ)) ^ len a := by positivity
        have h1 := Real.log_le_sub_one_of_pos hx
        rw [Real.log_mul (by positivity) (by positivity), Real.log_pow, one_div, Real.log_inv] at h1
        have h2 := mul_le_mul_of_nonneg_left h1 hu.le
        have e : (u a : ℝ) * (S / u a * (1 / (k : ℝ)) ^ len a - 1) = S * (1 / (k : ℝ)) ^ len a - u a := by
          field_simp
        rw [← one_div, e] at h2
        push_cast at h2 ⊢
        nlinarith [h2]
    push_cast at ih key ⊢
    nlinarith [ih, key]

theorem entropy_log (u : UInt8 → Nat) : entropyBits u * Real.log 2 =
    (allBytes.map (fun b => (u b : ℝ) * Real.log ((allBytes.map u).sum / u b))).sum := by
  unfold entropyBits
  generalize (((allBytes.map u).sum : Nat) : ℝ) = S
  induction allBytes with
  | nil => simp
  | cons b l ih =>
    have h2 : Real.log 2 ≠ 0 := (Real.log_pos (by norm_num)).ne'
    simp only [List.map_cons, List.sum_cons, add_mul, ih]
    congr 1
    unfold Real.logb
    field_simp

/-- No readable code needs fewer symbols than the entropy. -/
theorem entropy_le_code {k : Nat} (hk : 0 < k) {code : UInt8 → List (Fin k)} (h : ReadableCode code)
    (u : UInt8 → Nat) : entropyBits u ≤ codeTotal code u * Real.logb 2 k := by
  have h2 : 0 < Real.log 2 := Real.log_pos (by norm_num)
  have hg := gibbs_list allBytes u (fun b => (code b).length) hk (S := ((allBytes.map u).sum : Nat))
    (Nat.cast_nonneg _) (fun a ha h0 => by
      have : u a ≤ (allBytes.map u).sum := List.single_le_sum (fun _ _ => Nat.zero_le _) _ (List.mem_map_of_mem ha)
      exact_mod_cast lt_of_lt_of_le h0 this)
  have hkr := kraft_bytes hk h
  rw [← entropy_log] at hg
  have hS : (0 : ℝ) ≤ ((allBytes.map u).sum : Nat) := Nat.cast_nonneg _
  have h3 := mul_le_mul_of_nonneg_left hkr hS
  have e : ((allBytes.map (fun b => (((code b).length * u b : Nat) : ℝ))).sum) = (codeTotal code u : ℝ) := by
    unfold codeTotal
    induction allBytes with
    | nil => simp
    | cons b l ih => simp only [List.map_cons, List.sum_cons, Nat.cast_add, ih]
  rw [e] at hg
  have h4 : entropyBits u * Real.log 2 ≤ codeTotal code u * Real.log k := by linarith
  unfold Real.logb
  rw [← mul_div_assoc, le_div_iff₀ h2]
  exact h4

end Tokens
