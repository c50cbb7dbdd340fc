import Verif.Proofs.CountChars

/-!
# Property C44: counting characters
-/

namespace Tokens.Props
open Tokens Spec Input Main

/-- **C44** (the part that holds).  For every text, whatever order the hash map lists its keys in:
`count_chars` prints the number of characters of the file; it prints exactly the characters below 256
that occur, in order and once each, with the number of their occurrences; these and the characters from
256 on add up to the total; and if there is a character from 256 on, the maximum reported is the largest
character of the file.  Missing: the maximum of other files (`C44_violated_max`), and the counts of
characters from 256 on, which are not printed (`C44_violated_sum`). -/
theorem C44_counts_partial (order : List Nat → List Nat) (ho : ∀ l, (order l).Perm l) (text : Text) :
    ∃ r, countChars order (utf8Encode text) = .ok r ∧ r.total = text.length ∧
      (∀ c n, (c, n) ∈ r.printed ↔
        c < 256 ∧ 0 < n ∧ n = text.countP (fun x => x.toNat == c)) ∧
      r.printed.Pairwise (fun a b => a.1 < b.1) ∧
      (r.printed.map Prod.snd).sum + text.countP (fun x => decide (256 ≤ x.toNat)) = r.total ∧
      ((∃ c ∈ text, 256 ≤ c.toNat) →
        (∃ c ∈ text, c.toNat = r.maxChar) ∧ ∀ c ∈ text, c.toNat ≤ r.maxChar) ∧
      ((∀ c ∈ text, c.toNat < 256) → r.maxChar = 0) := by
  obtain ⟨ts, h1, h2⟩ := lines_decode (splitLines (utf8Encode text)) text (splitLines_flatten _)
    (splitLines_ends _)
  obtain ⟨s, g1, g2, g3, g4, g5⟩ := countLines_spec ts ⟨0, List.replicate 256 0, []⟩ List.length_replicate
  rw [h2] at g2 g4 g5
  refine ⟨_, by unfold countChars; rw [h1, g1, R.ok_bind], by simpa only [Nat.zero_add] using g2, ?_,
    printed_sorted s.low, ?_, ?_, ?_⟩
  · intro c n
    rw [mem_printed]
    have hz : ∀ n c, (List.replicate n 0).getD c 0 = 0 := by
      intro n c
      rw [List.getD, List.getElem?_replicate]
      split <;> rfl
    constructor
    · rintro ⟨h, hn⟩
      have hc : c < 256 := by rw [← g3]; exact (List.getElem?_eq_some_iff.1 h).1
      have := g4 c hc
      rw [hz, List.getD, h] at this
      exact ⟨hc, hn, by simpa [occ] using this⟩
    · rintro ⟨hc, hn, e⟩
      have := g4 c hc
      rw [hz, List.getD, List.getElem?_eq_getElem (by omega)] at this
      rw [List.getElem?_eq_getElem (by omega), e]
      exact ⟨by simpa [occ] using this, by rw [← e]; exact hn⟩
  · rw [printed_sum]
    have hlow : s.low = (List.range 256).map (occ text) := by
      apply List.ext_getElem
      · rw [g3, List.length_map, List.length_range]
      · intro i h3 h4
        have := g4 i (by omega)
        rw [List.getD, List.getElem?_eq_getElem h3] at this
        simp only [Option.getD_some, List.getD, List.getElem?_replicate] at this
        rw [List.getElem_map, List.getElem_range, this]
        split <;> simp
    rw [hlow, sum_occ]
    have hs : (fun x : Char => decide (256 ≤ x.toNat)) = fun x => !decide (x.toNat < 256) := by
      funext x
      by_cases h : x.toNat < 256
      · have h' : ¬ 256 ≤ x.toNat := by omega
        rw [decide_eq_true h, decide_eq_false h']; rfl
      · have h' : 256 ≤ x.toNat := by omega
        rw [decide_eq_false h, decide_eq_true h']; rfl
    show _ = s.total
    rw [hs, g2, List.length_eq_countP_add_countP (p := fun c : Char => decide (c.toNat < 256))]
    show _ = 0 + _
    rw [Nat.zero_add]
    congr 2
    funext x
    cases decide (x.toNat < 256) <;> rfl
  · rintro ⟨c, hc, hcn⟩
    obtain ⟨m1, m2, m3⟩ := maxKey_fold (order (s.counts.map Prod.fst)) 0
    have hk : ∀ k, k ∈ order (s.counts.map Prod.fst) ↔ ∃ c ∈ text, c.toNat = k ∧ 256 ≤ k := by
      intro k; rw [(ho _).mem_iff, g5 k]; simp
    have hb : ∀ c ∈ text, c.toNat ≤ maxKey (order (s.counts.map Prod.fst)) := by
      intro d hd
      by_cases h : 256 ≤ d.toNat
      · exact m2 _ ((hk _).2 ⟨d, hd, rfl, h⟩)
      · have := m2 _ ((hk _).2 ⟨c, hc, rfl, hcn⟩)
        show _ ≤ List.foldl _ 0 _
        omega
    refine ⟨?_, hb⟩
    rcases m3 with h | h
    · have := hb c hc
      unfold maxKey at this
      omega
    · obtain ⟨d, hd, e, _⟩ := (hk _).1 h
      exact ⟨d, hd, e⟩
  · intro h
    have : s.counts.map Prod.fst = [] := by
      rw [List.eq_nil_iff_forall_not_mem]
      intro k hk
      rcases (g5 k).1 hk with h' | ⟨c, hc, rfl, h'⟩
      · simp at h'
      · have := h c hc; omega
    show maxKey (order (s.counts.map Prod.fst)) = 0
    rw [this, (ho []).eq_nil]
    rfl

/-- **C44**.  A file that is not UTF-8 makes `count_chars` panic, and only such a file does. -/
theorem C44_panics_iff (order : List Nat → List Nat) (ho : ∀ l, (order l).Perm l) (file : Bytes) :
    (∃ e, countChars order file = .error e) ↔ validUtf8 file = false := by
  constructor
  · rintro ⟨e, he⟩
    cases hv : validUtf8 file with
    | false => rfl
    | true =>
      obtain ⟨cs, rfl⟩ := validUtf8_iff.1 hv
      obtain ⟨r, h, _⟩ := C44_counts_partial order ho cs
      rw [he] at h; cases h
  · intro hv
    have key : ∀ (ls : List Bytes) (s : CharCounts), s.low.length = 256 → validUtf8 ls.flatten = false →
        ∃ e, countLines s ls = .error e := by
      intro ls
      induction ls with
      | nil => intro s _ h; rw [List.flatten_nil, validUtf8_nil] at h; cases h
      | cons l ls ih =>
        intro s hs h
        rw [countLines]
        cases hd : utf8Decode l with
        | none => exact ⟨_, rfl⟩
        | some t =>
          obtain ⟨low, counts, h1, h2, _⟩ := countLine_spec t s.low s.counts hs
          simp only [h1, R.ok_bind]
          refine ih _ h2 ?_
          cases hv' : validUtf8 ls.flatten with
          | false => rfl
          | true =>
            have := validUtf8_append (show validUtf8 l = true by unfold validUtf8; rw [hd]; rfl) hv'
            rw [List.flatten_cons] at h
            rw [h] at this
            cases this
    obtain ⟨e, he⟩ := key (splitLines file) ⟨0, List.replicate 256 0, []⟩ List.length_replicate
      (by rw [splitLines_flatten]; exact hv)
    exact ⟨e, by unfold countChars; rw [he]; rfl⟩

/-- What C44 says about the maximum. -/
def MaxRight (text : Text) : Prop :=
  ∀ order : List Nat → List Nat, (∀ l, (order l).Perm l) → ∀ r,
    countChars order (utf8Encode text) = .ok r →
    (∃ c ∈ text, c.toNat = r.maxChar) ∧ ∀ c ∈ text, c.toNat ≤ r.maxChar

/-- **C44** is violated for the maximum: it is wrong for every file whose characters are all below 256
but not all zero, such as "a". -/
theorem C44_violated_max (text : Text) (h : ∀ c ∈ text, c.toNat < 256) (h0 : ∃ c ∈ text, c.toNat ≠ 0) :
    ¬ MaxRight text := by
  intro hm
  obtain ⟨r, h1, _, _, _, _, _, h2⟩ := C44_counts_partial (fun l => l) (fun _ => List.Perm.refl _) text
  obtain ⟨c, hc, hne⟩ := h0
  have := (hm (fun l => l) (fun _ => List.Perm.refl _) r h1).2 c hc
  rw [h2 h] at this
  omega

example : (∀ c ∈ ['a'], c.toNat < 256) ∧ ∃ c ∈ ['a'], c.toNat ≠ 0 := by decide

/-- **C44** is violated for the counts: those printed add up to the total only if no character is 256 or
above. -/
theorem C44_violated_sum (order : List Nat → List Nat) (ho : ∀ l, (order l).Perm l) (text : Text)
    (r : CharReport) (hr : countChars order (utf8Encode text) = .ok r) :
    (r.printed.map Prod.snd).sum = r.total ↔ ∀ c ∈ text, c.toNat < 256 := by
  obtain ⟨r', h1, h2, _, _, h3, _⟩ := C44_counts_partial order ho text
  have := Except.ok.inj (h1.symm.trans hr)
  subst this
  have h4 : (text.countP (fun x => decide (256 ≤ x.toNat)) = 0) ↔ ∀ c ∈ text, c.toNat < 256 := by
    rw [List.countP_eq_zero]
    constructor
    · intro h c hc; have := h c hc; simp at this; exact this
    · intro h c hc; have := h c hc; simp; exact this
  rw [← h4]
  omega

-- "aé\n" and a character from beyond 256
example : (countChars (fun l => l) (utf8Encode ['a', 'é', '\n', 'a', 'Ω'])).toOption.map
    (fun r => (r.total, r.printed, r.maxChar)) = some (5, [(10, 1), (97, 2), (233, 1)], 937) := by
  decide +kernel

end Tokens.Props
