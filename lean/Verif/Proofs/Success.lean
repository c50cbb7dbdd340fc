import Verif.Proofs.Commands
import Verif.Proofs.Close
import Verif.Props.Optimum

/-! There is data on which `optimize_with_increasing_data` succeeds: four-bit tokens, and nothing else. -/

namespace Tokens
open Spec TokenSet Optimize Batch Main Input

/-- With ext tokens only, everything costs the code length times the number of bytes. -/
theorem digits_cost {ts : TokenSet} (hf : BitsFamily ts) (hn : ts.tokens.length = ts.nExt) {len : Nat}
    (hp : bitsParams ts.tokenType = some (ts.nExt, len)) {ps : List Piece} {x : Bytes} (h : Spells ts ps x) :
    (output ts ps).length = len * x.length := by
  have hno : ∀ s, Token.str s ∉ ts.tokens := by
    intro s hs
    let l : List Token := (List.range ts.nExt).map (fun i => Token.ext (UInt8.ofNat i))
    have hl : l.Nodup := by
      refine List.Nodup.map_on ?_ List.nodup_range
      intro i hi j hj e
      have hi := List.mem_range.1 hi
      have hj := List.mem_range.1 hj
      have hfew := hf.few
      injection e with e
      have := congrArg UInt8.toNat e
      rw [UInt8.toNat_ofNat_of_lt' (by show i < 256; omega), UInt8.toNat_ofNat_of_lt' (by show j < 256; omega)] at this
      exact this
    have hsub : Token.str s :: l ⊆ ts.tokens := by
      intro t ht
      rcases List.mem_cons.1 ht with rfl | ht
      · exact hs
      · obtain ⟨i, hi, rfl⟩ := List.mem_map.1 ht
        have hi := List.mem_range.1 hi
        have hfew := hf.few
        refine (hf.exts _).2 ?_
        rw [UInt8.toNat_ofNat_of_lt' (by show i < 256; omega)]
        exact hi
    have hnd : (Token.str s :: l).Nodup := by
      refine List.nodup_cons.2 ⟨?_, hl⟩
      intro ht
      obtain ⟨i, _, e⟩ := List.mem_map.1 ht
      cases e
    have := hnd.length_le_of_subset hsub
    simp [l] at this
    omega
  obtain ⟨len', hp', hc⟩ := hf.params
  rw [hp] at hp'
  have e := Option.some.inj hp'
  simp only [Prod.mk.injEq, true_and] at e
  subst e
  induction h with
  | nil => simp [output]
  | @cons p s ps t h1 _ ih =>
    have : (p.output ts).length = len * s.length := by
      cases p with
      | tok i =>
        rw [Piece.string_tok] at h1
        exact absurd (List.mem_of_getElem? h1) (hno s)
      | seq j =>
        obtain ⟨b, ds, he, h2, _⟩ := hc _ (seq_meaning h1)
        simp only [Prod.mk.injEq] at he
        have hl := congrArg List.length he.2
        simp at hl
        rw [he.1, hl, h2]
        simp
    unfold output at ih ⊢
    rw [List.flatMap_cons, List.length_append, this, ih, List.length_append, Nat.mul_add]

theorem digits_total {ts : TokenSet} (hf : BitsFamily ts) (hn : ts.tokens.length = ts.nExt) {len : Nat}
    (hp : bitsParams ts.tokenType = some (ts.nExt, len)) {samples : List Bytes} {n : Option Nat} {st : TokenStats}
    (h : tokenizeFileSync ts samples n = .ok st) :
    st.scannedBytes = samples.flatten.length ∧ st.totalTokens = len * samples.flatten.length := by
  obtain ⟨_, h1, _, seg, h2, h3⟩ := Props.C05_accounting ts hf.inRange samples n st h
  have e : (samples.map (fun x => (output ts (seg x)).length)).sum = len * samples.flatten.length := by
    clear h h1 h3
    induction samples with
    | nil => simp
    | cons x l ih =>
      have := ih (fun y hy => h2 y (by simp [hy]))
      simp only [List.map_cons, List.sum_cons, List.flatten_cons, List.length_append, this,
        digits_cost hf hn hp (h2 x (by simp)).1, Nat.mul_add]
  exact ⟨by rw [h1, List.length_flatten], by rw [h3, e]⟩

/-- A file of two paragraphs. -/
def twoParas (n : Nat) : Bytes := 97 :: 10 :: 10 :: List.replicate (n + 1) 98

theorem splitLines_replicate (n : Nat) : splitLines (List.replicate (n + 1) 98) = [List.replicate (n + 1) 98] := by
  induction n with
  | zero => rfl
  | succ n ih =>
    rw [List.replicate_succ, splitLines, if_neg (by decide), ih]

theorem twoParas_length (n : Nat) : (twoParas n).length = n + 4 := by
  unfold twoParas
  simp only [List.length_cons, List.length_replicate]

theorem twoParas_ascii (n : Nat) : ∀ b ∈ twoParas n, b < 128 := by
  intro b hb
  unfold twoParas at hb
  simp only [List.mem_cons] at hb
  rcases hb with rfl | rfl | rfl | hb
  · decide
  · decide
  · decide
  · rw [List.eq_of_mem_replicate hb]; decide

theorem twoParas_sample (n size c : Nat) (hs : 0 < size) :
    sampleFromFile (twoParas n) size c = .ok ⟨List.replicate (n + 1) 98, c⟩ := by
  unfold sampleFromFile
  rw [sampleLoop_eq _ _ (fun l h => (splitLines_isLine _ l h).1)]
  have e : paraSplit (splitLines (twoParas n)) [] = [[97, 10, 10], List.replicate (n + 1) 98] := by
    unfold twoParas
    have h1 : splitLines (97 :: 10 :: 10 :: List.replicate (n + 1) 98) =
        [[97, 10], [10], List.replicate (n + 1) 98] := by
      have h2 := splitLines_replicate n
      generalize List.replicate (n + 1) (98 : UInt8) = x at *
      simp [splitLines, h2]
    rw [h1, List.replicate_succ]
    generalize List.replicate n (98 : UInt8) = x
    simp [paraSplit, endsBlank]
  rw [e]
  have hl := twoParas_length n
  have l0 := lessShare_zero size (twoParas n).length
  have l1 : lessShare size (twoParas n).length 0 3 = true := lessShare_first hs (by omega) (by omega)
  generalize List.replicate (n + 1) (98 : UInt8) = x
  simp only [selectParas, List.length_nil, l0, Bool.false_eq_true, if_false, List.length_cons, Nat.zero_add]
  rw [l1]
  simp

/-- If both are plain digits, the sample is always close enough. -/
theorem digits_close {st full : TokenStats} {a b len : Nat} (ha : 0 < a) (hb : 0 < b) (hl : 0 < len)
    (h1 : st.scannedBytes = a) (h2 : st.totalTokens = len * a) (h3 : full.scannedBytes = b)
    (h4 : full.totalTokens = len * b) : closeEnough st full = true := by
  by_contra hc
  have h := notClose_spec (by omega) (by rw [h4]; exact Nat.mul_pos hl hb) hc
  rw [h1, h2, h3, h4] at h
  have ha' : (a : ℚ) ≠ 0 := by exact_mod_cast ha.ne'
  have hb' : (b : ℚ) ≠ 0 := by exact_mod_cast hb.ne'
  have hl' : (0 : ℚ) < len := by exact_mod_cast hl
  have e1 : (a : ℚ) / ((len * a : Nat) : ℚ) = 1 / len := by
    push_cast
    field_simp
  have e2 : (b : ℚ) / ((len * b : Nat) : ℚ) = 1 / len := by
    push_cast
    field_simp
  rw [e1, e2, sub_self, abs_zero] at h
  have : 0 < 1 / (len : ℚ) := by positivity
  linarith

/-- On a file of two paragraphs that is large enough, with sixteen tokens of four bits,
`optimize_with_increasing_data` succeeds. -/
theorem increasing_success (m : Machine) (hm : MachineOk m) (n : Nat) (h24 : 2 ^ 24 + 1 < n + 4) (k : Option Nat) :
    ∃ st saved, Increasing m (twoParas n) 16 .raw .bits4 k (2 ^ 24 + 1) none (.ok st) saved := by
  have hi : GoodInput .bits4 .raw 16 none := by show 16 ≤ 16 ∧ 16 ≤ 16 + 256; omega
  have hl := twoParas_length n
  obtain ⟨env, h1, h2, h3, h4⟩ := sampleEnv_ok hm (twoParas n) (2 ^ 24 + 1) k
  obtain ⟨st, w, ho⟩ := optimize_exists h2 hi
  obtain ⟨st0, e, hres, hw⟩ := optimize_good h2 hi ho
  have e := Except.ok.inj e
  subst e
  have hlen := Props.C49_bits_exact env h2 .bits4 (16, 2) rfl .raw 16 none hi st w ho
  have hb : BitsFamily st.tokenSet := by
    rcases hw.family with h' | h' | h'
    · exact h'
    · have := h'.type; rw [hw.type] at this; cases this
    · have := h'.type; rw [hw.type] at this; cases this
  have hx := bits_ext hb (q := (16, 2)) (by rw [hw.type]; rfl)
  have hp : bitsParams st.tokenSet.tokenType = some (st.tokenSet.nExt, 2) := by rw [hw.type, hx]; rfl
  have hnn : st.tokenSet.tokens.length = st.tokenSet.nExt := by rw [hlen, hx]
  have hu := Tokens.Family.usable hw.family
  obtain ⟨r, hr⟩ := tokenized_exists hm (twoParas n) hu.accepted hu.inRange k
  rcases tokenized_good hm hu.accepted hu.inRange hr with ⟨st', rfl, g1, short, sd, g2, g3, g4⟩ | ⟨short, e, g1, g2⟩
  · rw [g1] at g4
    obtain ⟨f1, f2⟩ := digits_total hb hnn hp g4
    rw [g3] at f1 f2
    obtain ⟨full, q1, q2⟩ := hres.stats
    obtain ⟨d1, d2⟩ := digits_total hb hnn hp q1
    have hsamp : env.sampler.samples.flatten = List.replicate (n + 1) 98 := by
      unfold sampleEnv memoryEnv at h1
      rw [twoParas_sample n _ _ (by omega), R.ok_bind] at h1
      have hrep : ∀ b ∈ List.replicate (n + 1) (98 : UInt8), b < 128 := by
        intro b hb; rw [List.eq_of_mem_replicate hb]; decide
      generalize List.replicate (n + 1) (98 : UInt8) = x at *
      obtain ⟨⟨samples, s1, s2⟩, _⟩ := Props.C25_ascii_exact_partial x hrep (1 <<< 20) (by decide) (fun _ => 1)
      rw [s1, R.ok_bind] at h1
      rw [← Except.ok.inj h1]
      exact s2
    rw [hsamp, List.length_replicate] at d1 d2
    refine ⟨st', w.saved, .stop (by omega) h1 (fun t ht => nomatch ht) ho hr ⟨?_, ?_⟩⟩
    · have : (1 <<< 24 : Nat) = 2 ^ 24 := by decide
      omega
    · refine digits_close (a := n + 1) (b := n + 4) (len := 2) (by omega) (by omega) (by omega) ?_ ?_ ?_ ?_
      · rw [q2]; exact d1
      · rw [q2]; exact d2
      · rw [f1, hl]
      · rw [f2, hl]
  · exfalso
    obtain ⟨_, s, h, _⟩ := Props.C25_ascii_exact_partial (twoParas n) (twoParas_ascii n) (2 ^ 24) (by decide) short
    rw [g1] at h
    cases h

end Tokens
