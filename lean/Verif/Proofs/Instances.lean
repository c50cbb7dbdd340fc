import Verif.Proofs.Loop

/-! The three byte optimizers behave. -/

set_option linter.unusedSimpArgs false
set_option linter.unusedVariables false

namespace Tokens
open Spec TokenSet Batch OptimizeBytes

namespace Optimize

variable {p : Processing} {ty : TokenType}

theorem byteTokens_le {ts : TokenSet} (h : Usable ts) : (byteTokens ts).length ≤ 256 := by
  have hn : (byteTokens ts).Nodup := (pieceBytes h.accepted).1
  rw [← allBytes_length]
  exact List.Subperm.length_le (List.subperm_of_subset hn (fun b _ => mem_allBytes b))

def BitsFam (p : Processing) (ty : TokenType) (ts : TokenSet) : Prop :=
  BitsFamily ts ∧ ts.tokenType = ty ∧ ts.processing = p

def BytesFam (p : Processing) (ts : TokenSet) : Prop := BytesFamily ts ∧ ts.processing = p

def HuffFam (p : Processing) (ts : TokenSet) : Prop :=
  HuffFamily ts ∧ ts.processing = p ∧ 3 ≤ shortCount ts ∧ shortCount ts ≤ 258

theorem bits_ext {ts : TokenSet} (h : BitsFamily ts) {q : Nat × Nat} (hq : bitsParams ts.tokenType = some q) :
    ts.nExt = q.1 := by
  obtain ⟨len, h1, _⟩ := h.params
  rw [h1] at hq
  cases hq
  rfl

theorem bits_behaves {q : Nat × Nat} (hq : bitsParams ty = some q) {ntokens : Nat}
    (hn : ntokens ≤ q.1 + 256) : Behaves simple (BitsFam p ty) q.1 (q.1 + 256) ntokens where
  family h := .inl h.1
  keep := by
    rintro a b ⟨h1, h2, h3⟩ hu hs hh _
    exact ⟨bits_of h1 hu hs, by rw [hh.tokenType, h2], by rw [hh.processing, h3]⟩
  bounds := by
    rintro ts ⟨h1, h2, h3⟩
    have := bits_ext h1 (by rw [h2]; exact hq)
    have := byteTokens_le h1.toUsable
    unfold shortCount
    omega
  min_lo := by
    rintro ts ⟨h1, h2, h3⟩
    unfold minBytesExtTokens
    rw [h2]
    cases ty <;> simp [bitsParams] at hq <;> subst hq <;> simp
  opt := by
    rintro st n ⟨h1, h2, h3⟩ hc hlo hhi
    have e := bits_ext h1 (by rw [h2]; exact hq)
    obtain ⟨ts', g1, g2, g3, g4, g5, g6, _⟩ := simple_spec h1 hc (k := n - q.1) (by omega)
    refine ⟨ts', by rw [← g1]; congr 1; omega, ⟨g2, by rw [g3.tokenType, h2], by rw [g3.processing, h3]⟩, g5, ?_⟩
    unfold shortCount
    rw [g4, g3.nExt]
    omega

theorem bits_monotone {q : Nat × Nat} (hq : bitsParams ty = some q) : Monotone simple (BitsFam p ty) := by
  rintro st ts' ⟨h1, h2, h3⟩ hc hok
  have hle := byteTokens_le h1.toUsable
  unfold shortCount at hok
  rcases Nat.lt_or_ge (byteTokens st.tokenSet).length 256 with hl | hl
  · exact simple_best h1 hc (k := (byteTokens st.tokenSet).length + 1) (by omega)
      (by rw [← hok]; rfl) h1 rfl (by omega)
  · have := simple_big h1 hc (k := (byteTokens st.tokenSet).length + 1) (by omega)
    rw [show st.tokenSet.nExt + ((byteTokens st.tokenSet).length + 1) =
      st.tokenSet.nExt + (byteTokens st.tokenSet).length + 1 from rfl, hok] at this
    cases this

theorem bytes_all {ts : TokenSet} (h : BytesFamily ts) : shortCount ts = 256 := by
  obtain ⟨h1, _, _, h4⟩ := pieceBytes h.accepted
  have hp : (byteTokens ts).Perm allBytes := by
    rw [List.perm_ext_iff_of_nodup h1 allBytes_nodup]
    intro b
    refine ⟨fun _ => mem_allBytes b, fun _ => ?_⟩
    rcases h4 b with h | h'
    · exact h
    · rw [h.noSeq] at h'; simp at h'
  unfold shortCount
  rw [h.noExt, hp.length_eq, allBytes_length]

theorem bytes_behaves {ntokens : Nat} : Behaves noop (BytesFam p) 256 256 ntokens where
  family h := .inr (.inl h.1)
  keep := by
    rintro a b ⟨h1, h3⟩ hu hs hh _
    exact ⟨bytes_of h1 hu hs, by rw [hh.processing, h3]⟩
  bounds := by
    rintro ts ⟨h1, h3⟩
    have := bytes_all h1
    omega
  min_lo := by
    rintro ts ⟨h1, h3⟩
    unfold minBytesExtTokens
    simp only [h1.type, Nat.le_refl]
  opt := by
    rintro st n ⟨h1, h3⟩ hc hlo hhi
    refine ⟨_, rfl, ⟨h1, h3⟩, rfl, ?_⟩
    rw [bytes_all h1]
    omega

theorem bytes_monotone : Monotone noop (BytesFam p) := by
  intro st ts' h hc hok
  cases hok
  exact Nat.le_refl _

theorem huff_behaves {ntokens : Nat} : Behaves huff (HuffFam p) 3 258 ntokens where
  family h := .inr (.inr h.1)
  keep := by
    rintro a b ⟨h1, h3, h4⟩ hu hs hh e
    exact ⟨huff_of h1 hu hs, by rw [hh.processing, h3], by rw [e]; exact h4⟩
  bounds h := h.2.2
  min_lo := by
    rintro ts ⟨h1, h3⟩
    unfold minBytesExtTokens
    simp only [h1.type, Nat.le_refl]
  opt := by
    rintro st n ⟨h1, h3, h4⟩ hc hlo hhi
    obtain ⟨ts', g1, g2, g3, g4, g5, _, _, g6, _⟩ := huff_spec h1.accepted hc (huff_single h1) hlo
    have e : shortCount ts' = min n 258 := g6
    refine ⟨ts', g1, ⟨g2, by rw [g3, h3], by omega⟩, g5, e⟩

end Optimize
end Tokens
