import Verif.Proofs.CharsHuff
import Verif.Proofs.Traceback

/-! `count_chars` of the character-based optimizer. -/

namespace Tokens
namespace Chars

theorem countChar_spec (counts : List Nat) (c : Char) :
    ∃ out, countChar counts c = .ok out ∧ ∀ i, out.getD i 0 = counts.getD i 0 + if c.toNat = i then 1 else 0 := by
  have hget : ∀ (k i : Nat), (counts ++ List.replicate k 0).getD i 0 = counts.getD i 0 := by
    intro k i
    simp only [List.getD_eq_getElem?_getD]
    by_cases h : i < counts.length
    · rw [List.getElem?_append_left h]
    · rw [List.getElem?_append_right (by omega), List.getElem?_eq_none (l := counts) (by omega), List.getElem?_replicate]
      split <;> rfl
  unfold countChar
  by_cases h : c.toNat ≥ counts.length
  · rw [if_pos h, addAt_of (by simp; omega)]
    refine ⟨_, rfl, fun i => ?_⟩
    rw [getD_set, hget, hget]
    by_cases hi : c.toNat = i
    · subst hi
      rw [if_pos ⟨rfl, by simp; omega⟩, if_pos rfl]
    · rw [if_neg (by tauto), if_neg hi, Nat.add_zero]
  · rw [if_neg h, addAt_of (by omega)]
    refine ⟨_, rfl, fun i => ?_⟩
    rw [getD_set]
    by_cases hi : c.toNat = i
    · subst hi
      rw [if_pos ⟨rfl, by omega⟩, if_pos rfl]
    · rw [if_neg (by tauto), if_neg hi, Nat.add_zero]

theorem countAll_spec (cs : Text) : ∀ (counts : List Nat),
    ∃ out, countAll cs counts = .ok out ∧ ∀ i, out.getD i 0 = counts.getD i 0 + (cs.map Char.toNat).count i := by
  induction cs with
  | nil => intro counts; exact ⟨counts, rfl, by simp⟩
  | cons c cs ih =>
    intro counts
    obtain ⟨mid, h1, h2⟩ := countChar_spec counts c
    obtain ⟨out, h3, h4⟩ := ih mid
    refine ⟨out, ?_, ?_⟩
    · rw [countAll, h1, R.ok_bind]; exact h3
    · intro i
      rw [h4, h2, List.map_cons, List.count_cons]
      by_cases hc : c.toNat = i
      · simp [hc]; omega
      · simp [hc]

theorem fromU32_toNat {n : Nat} (h : n.isValidChar) : ∃ c, fromU32 n = some c ∧ c.toNat = n := by
  unfold fromU32
  rw [if_pos h]
  refine ⟨_, rfl, ?_⟩
  unfold Char.ofNat
  rw [dif_pos h]
  rfl

theorem toNat_inj {c d : Char} (h : c.toNat = d.toNat) : c = d := by
  apply Char.ext
  exact UInt32.toNat_inj.1 h

theorem collect_spec (l : List Nat) : ∀ (n : Nat), (∀ i, 0 < l.getD i 0 → (n + i).isValidChar) →
    ∃ out, collect (l.zipIdx n) = .ok out ∧ Ordered out ∧
      ∀ c m, (c, m) ∈ out ↔ n ≤ c.toNat ∧ 0 < m ∧ m = l.getD (c.toNat - n) 0 := by
  induction l with
  | nil =>
    intro n _
    refine ⟨[], rfl, ⟨List.Pairwise.nil, by simp⟩, ?_⟩
    intro c m
    simp only [List.not_mem_nil, List.getD_nil, false_iff]
    omega
  | cons a l ih =>
    intro n hv
    obtain ⟨out, h1, h2, h3⟩ := ih (n + 1) (by
      intro i hi
      have := hv (i + 1) (by simpa using hi)
      rwa [show n + 1 + i = n + (i + 1) by omega])
    have hge : ∀ (c : Char) (_ : Nat), n + 1 ≤ c.toNat → ((a :: l).getD (c.toNat - n) 0 = l.getD (c.toNat - (n + 1)) 0) := by
      intro c _ hc
      obtain ⟨d, hd⟩ : ∃ d, c.toNat - n = d + 1 := ⟨c.toNat - n - 1, by omega⟩
      rw [hd, show c.toNat - (n + 1) = d by omega]
      rfl
    rw [List.zipIdx_cons]
    unfold collect
    by_cases ha : a > 0
    · rw [if_pos ha]
      obtain ⟨c0, g1, g2⟩ := fromU32_toNat (hv 0 (by simpa using ha))
      rw [Nat.add_zero] at g1 g2
      rw [g1, unwrapR_some, R.ok_bind, h1, R.ok_bind]
      refine ⟨_, rfl, ⟨List.Pairwise.cons ?_ h2.sorted, ?_⟩, ?_⟩
      · rintro ⟨c, m⟩ hp
        have := ((h3 c m).1 hp).1
        show c0.toNat < c.toNat
        omega
      · intro p hp
        rcases List.mem_cons.1 hp with rfl | hp
        · exact ha
        · exact h2.pos p hp
      · intro c m
        rw [List.mem_cons, h3]
        constructor
        · rintro (e | ⟨k1, k2, k3⟩)
          · simp only [Prod.mk.injEq] at e
            obtain ⟨rfl, rfl⟩ := e
            refine ⟨by omega, ha, ?_⟩
            rw [g2, Nat.sub_self]
            rfl
          · exact ⟨by omega, k2, by rw [hge c m k1]; exact k3⟩
        · rintro ⟨k1, k2, k3⟩
          by_cases hc : c.toNat = n
          · left
            have : c = c0 := toNat_inj (by omega)
            subst this
            rw [hc, Nat.sub_self] at k3
            rw [k3]
            rfl
          · right
            exact ⟨by omega, k2, by rw [← hge c m (by omega)]; exact k3⟩
    · rw [if_neg ha]
      refine ⟨out, h1, h2, ?_⟩
      intro c m
      rw [h3]
      constructor
      · rintro ⟨k1, k2, k3⟩
        exact ⟨by omega, k2, by rw [hge c m k1]; exact k3⟩
      · rintro ⟨k1, k2, k3⟩
        by_cases hc : c.toNat = n
        · rw [hc, Nat.sub_self] at k3
          simp only [List.getD_cons_zero] at k3
          omega
        · exact ⟨by omega, k2, by rw [← hge c m (by omega)]; exact k3⟩

theorem count_toNat (cs : Text) (c : Char) : (cs.map Char.toNat).count c.toNat = cs.count c := by
  induction cs with
  | nil => rfl
  | cons d cs ih =>
    rw [List.map_cons, List.count_cons, List.count_cons, ih]
    by_cases h : d = c
    · simp [h]
    · have : ¬ d.toNat = c.toNat := fun e => h (toNat_inj e)
      simp [h, this]

/-- `count_chars` gives the characters of the samples in order, with the numbers of their occurrences. -/
theorem countChars_spec (samples : List Text) :
    ∃ counts, countChars samples = .ok counts ∧ Ordered counts ∧
      ∀ c m, (c, m) ∈ counts ↔ c ∈ samples.flatten ∧ m = samples.flatten.count c := by
  obtain ⟨l, h1, h2⟩ := countAll_spec samples.flatten []
  have hl : ∀ i, l.getD i 0 = (samples.flatten.map Char.toNat).count i := by
    intro i; rw [h2]; simp
  obtain ⟨out, h3, h4, h5⟩ := collect_spec l 0 (by
    intro i hi
    rw [hl, List.count_pos_iff] at hi
    obtain ⟨c, _, rfl⟩ := List.mem_map.1 hi
    rw [Nat.zero_add]
    exact c.valid)
  refine ⟨out, ?_, h4, ?_⟩
  · unfold countChars
    rw [h1, R.ok_bind]
    exact h3
  · intro c m
    rw [h5, Nat.sub_zero, hl, count_toNat]
    constructor
    · rintro ⟨_, k2, k3⟩
      exact ⟨List.count_pos_iff.1 (by omega), k3⟩
    · rintro ⟨k1, k2⟩
      exact ⟨Nat.zero_le _, by rw [k2]; exact List.count_pos_iff.2 k1, k2⟩

end Chars
end Tokens
