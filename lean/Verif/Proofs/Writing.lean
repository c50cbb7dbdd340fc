import Verif.Model.Writing
import Verif.Proofs.ProcessBytes

/-! What is written when writing may fail. -/

set_option linter.unusedSimpArgs false
set_option linter.unusedVariables false

namespace Tokens
namespace Writing
open Main Processing Input

theorem putAll_split {b written left : Bytes} {ok : Bool} (h : PutAll b written left ok) :
    written ++ left = b ∧ (ok = true ↔ left = []) := by
  induction h with
  | done => simp
  | some hn hle _ ih => exact ⟨by rw [List.append_assoc, ih.1, List.take_append_drop], ih.2⟩
  | interrupted _ _ ih => exact ih
  | fail hb => simp [hb]

theorem putAll_true {b written left : Bytes} (h : PutAll b written left true) : written = b ∧ left = [] := by
  obtain ⟨h1, h2⟩ := putAll_split h
  have := h2.1 rfl
  subst this
  exact ⟨by simpa using h1, rfl⟩

theorem putAll_false {b written left : Bytes} (h : PutAll b written left false) :
    written ++ left = b ∧ left ≠ [] := by
  obtain ⟨h1, h2⟩ := putAll_split h
  exact ⟨h1, fun e => by have := h2.2 e; cases this⟩

theorem putAll_all (b : Bytes) : PutAll b b [] true := by
  cases b with
  | nil => exact .done
  | cons x b =>
    have := PutAll.some (b := x :: b) (n := (x :: b).length) (by simp) (Nat.le_refl _)
      (written := []) (left := []) (ok := true) (by rw [List.drop_length]; exact .done)
    rw [List.take_length, List.append_nil] at this
    exact this

/-- Any part of the bytes may be written before an error. -/
theorem putAll_part (a b : Bytes) (hb : b ≠ []) : PutAll (a ++ b) a b false := by
  cases a with
  | nil => exact .fail hb
  | cons x a =>
    have := PutAll.some (b := (x :: a) ++ b) (n := (x :: a).length) (by simp) (by simp)
      (written := []) (left := b) (ok := false) (by
        rw [List.drop_left']
        · exact .fail hb
        · rfl)
    rw [List.take_left' rfl, List.append_nil] at this
    exact this

theorem makeRoom_true {s s' : Writer} {b : Bytes} (h : MakeRoom s b s' true) :
    s'.file ++ s'.buf = s.file ++ s.buf ∧ (b.length > capacity - s.buf.length → s'.buf = []) ∧
      (b.length ≤ capacity - s.buf.length → s' = s) := by
  generalize ht : true = t at h
  cases h with
  | fits h => exact ⟨rfl, fun h' => absurd h (by omega), fun _ => rfl⟩
  | flush h hp =>
    subst ht
    obtain ⟨e1, e2⟩ := putAll_true hp
    subst e1 e2
    exact ⟨by simp, fun _ => rfl, fun h' => absurd h (by omega)⟩

/-- `write_all`: either all of it is in the file or in the buffer, or an end of it is missing. -/
theorem writeAll_ok {s s' : Writer} {b : Bytes} {ok : Bool} (h : WriteAll s b s' ok)
    (hc : s.buf.length ≤ capacity) :
    s'.buf.length ≤ capacity ∧ (ok = true → s'.file ++ s'.buf = s.file ++ s.buf ++ b) ∧
      (ok = false → ∃ rest, rest ≠ [] ∧ s.file ++ s.buf ++ b = s'.file ++ s'.buf ++ rest) := by
  cases h with
  | copy h =>
    refine ⟨?_, fun _ => by simp, fun e => by cases e⟩
    simp only [List.length_append]
    omega
  | stuck h hm =>
    generalize ht : false = t at hm
    cases hm with
    | fits => cases ht
    | flush h' hp =>
      subst ht
      obtain ⟨e1, e2⟩ := putAll_false hp
      have hl := congrArg List.length e1
      rw [List.length_append] at hl
      refine ⟨?_, fun e => (by cases e), fun _ => ⟨b, ?_, by rw [← e1]; simp⟩⟩
      · simp only []
        omega
      · rintro rfl
        simp at h'
  | buffer h hm hb =>
    obtain ⟨h1, h2, h3⟩ := makeRoom_true hm
    refine ⟨?_, fun _ => by rw [← h1]; simp, fun e => by cases e⟩
    simp only [List.length_append]
    by_cases hf : b.length > capacity - s.buf.length
    · rw [h2 hf]; simp; omega
    · rw [h3 (by omega)]; omega
  | @direct s1 written left ok h hm hb hp =>
    obtain ⟨h1, h2, h3⟩ := makeRoom_true hm
    have hnil : s1.buf = [] := by
      by_cases hf : b.length > capacity - s.buf.length
      · exact h2 hf
      · have : s.buf.length = 0 := by omega
        rw [h3 (by omega)]
        exact List.length_eq_zero_iff.1 this
    obtain ⟨e1, e2⟩ := putAll_split hp
    rw [hnil, List.append_nil] at h1
    refine ⟨by rw [hnil]; simp, ?_, ?_⟩
    · intro hok
      have := e2.1 hok
      subst this
      rw [List.append_nil] at e1
      rw [hnil, e1, h1]; simp
    · intro hok
      refine ⟨left, fun e => ?_, ?_⟩
      · have := e2.2 e
        rw [hok] at this; cases this
      · rw [hnil, ← h1, ← e1]; simp

/-- What the loop writes is a beginning of what it should write; without an error, all of it. -/
theorem loop_ok {db : CharTables} {ls : List Bytes} {s s' : Writer} {r : R Unit} (h : Loop db ls s s' r)
    (hc : s.buf.length ≤ capacity) {full : Bytes} {flag : Bool}
    (hf : processBytesLoop db (s.file ++ s.buf) ls = .ok (full, flag)) :
    s'.buf.length ≤ capacity ∧ (r = .ok () → flag = true ∧ s'.file ++ s'.buf = full) ∧
      (r ≠ .ok () → ∃ rest, full = s'.file ++ s'.buf ++ rest ∧ (flag = true → rest ≠ [])) := by
  have ext : ∀ (ls : List Bytes) (w full : Bytes) (flag : Bool), processBytesLoop db w ls = .ok (full, flag) →
      ∃ z, full = w ++ z := by
    intro ls
    induction ls with
    | nil =>
      intro w full flag h
      have := Except.ok.inj h
      exact ⟨[], by rw [(Prod.mk.inj this).1]; simp⟩
    | cons l ls ih =>
      intro w full flag h
      rw [processBytesLoop] at h
      cases hd : utf8Decode l with
      | none =>
        rw [hd] at h
        have := Except.ok.inj h
        exact ⟨[], by rw [(Prod.mk.inj this).1]; simp⟩
      | some t =>
        rw [hd] at h
        cases hp : process db (chomp t) with
        | error e => simp only [hp, R.error_bind] at h; cases h
        | ok p =>
          simp only [hp, R.ok_bind] at h
          obtain ⟨z, e⟩ := ih _ _ _ h
          exact ⟨utf8Encode p ++ [10] ++ z, by rw [e]; simp⟩
  induction h generalizing full flag with
  | done =>
    have := Prod.mk.inj (Except.ok.inj hf)
    exact ⟨hc, fun _ => ⟨this.2.symm, this.1⟩, fun h => absurd rfl h⟩
  | badLine h =>
    rw [processBytesLoop, h] at hf
    have := Prod.mk.inj (Except.ok.inj hf)
    exact ⟨hc, fun e => (by cases e), fun _ => ⟨[], by rw [this.1]; simp, fun e => by rw [← this.2] at e; cases e⟩⟩
  | panic h hp =>
    rw [processBytesLoop, h] at hf
    simp only [hp, R.error_bind] at hf
    cases hf
  | @failText l ls s s' t p h hp hw =>
    rw [processBytesLoop, h] at hf
    simp only [hp, R.ok_bind] at hf
    obtain ⟨z, e⟩ := ext _ _ _ _ hf
    obtain ⟨k1, _, k3⟩ := writeAll_ok hw hc
    obtain ⟨rest, hr, e'⟩ := k3 rfl
    refine ⟨k1, fun e => (by cases e), fun _ => ⟨rest ++ [10] ++ z, ?_, by simp⟩⟩
    rw [e, e']; simp
  | @failNewline l ls s s' s'' t p h hp hw hn =>
    rw [processBytesLoop, h] at hf
    simp only [hp, R.ok_bind] at hf
    obtain ⟨z, e⟩ := ext _ _ _ _ hf
    obtain ⟨k1, k2, _⟩ := writeAll_ok hw hc
    obtain ⟨g1, _, g3⟩ := writeAll_ok hn k1
    obtain ⟨rest, hr, e'⟩ := g3 rfl
    refine ⟨g1, fun e => (by cases e), fun _ => ⟨rest ++ z, ?_, fun _ => by simp [hr]⟩⟩
    rw [e, ← k2 rfl, e']; simp
  | @line l ls s s' s'' s3 r t p h hp hw hn hl ih =>
    rw [processBytesLoop, h] at hf
    simp only [hp, R.ok_bind] at hf
    obtain ⟨k1, k2, _⟩ := writeAll_ok hw hc
    obtain ⟨g1, g2, _⟩ := writeAll_ok hn k1
    refine ih g1 ?_
    rw [g2 rfl, k2 rfl]
    exact hf

/-- `write_all` of a short piece, without an error. -/
theorem writeAll_exists (s : Writer) (b : Bytes) : ∃ s', WriteAll s b s' true := by
  by_cases h : b.length < capacity - s.buf.length
  · exact ⟨_, .copy h⟩
  · have hm : ∃ s', MakeRoom s b s' true := by
      by_cases h' : b.length ≤ capacity - s.buf.length
      · exact ⟨_, .fits h'⟩
      · exact ⟨_, .flush (by omega) (putAll_all _)⟩
    obtain ⟨s', hm⟩ := hm
    by_cases hc : b.length < capacity
    · exact ⟨_, .buffer h hm hc⟩
    · exact ⟨_, .direct h hm hc (putAll_all _)⟩

theorem loop_exists (db : CharTables) (ls : List Bytes) (s : Writer) {w full : Bytes}
    (hf : processBytesLoop db w ls = .ok (full, true)) : ∃ s', Loop db ls s s' (.ok ()) := by
  induction ls generalizing s w with
  | nil => exact ⟨_, .done⟩
  | cons l ls ih =>
    rw [processBytesLoop] at hf
    cases hd : utf8Decode l with
    | none => rw [hd] at hf; have := Prod.mk.inj (Except.ok.inj hf); cases this.2
    | some t =>
      rw [hd] at hf
      cases hp : process db (chomp t) with
      | error e => simp only [hp, R.error_bind] at hf; cases hf
      | ok p =>
        simp only [hp, R.ok_bind] at hf
        obtain ⟨s1, h1⟩ := writeAll_exists s (utf8Encode p)
        obtain ⟨s2, h2⟩ := writeAll_exists s1 [10]
        obtain ⟨s3, h3⟩ := ih s2 hf
        exact ⟨s3, .line hd hp h1 h2 h3⟩

/-- A short output stays in the buffer until the end. -/
theorem loop_buffered (db : CharTables) (ls : List Bytes) (w full : Bytes)
    (hf : processBytesLoop db w ls = .ok (full, true)) (hl : full.length < capacity) :
    Loop db ls ⟨[], w⟩ ⟨[], full⟩ (.ok ()) := by
  have ext : ∀ (ls : List Bytes) (w full : Bytes) (flag : Bool), processBytesLoop db w ls = .ok (full, flag) →
      w.length ≤ full.length := by
    intro ls
    induction ls with
    | nil =>
      intro w full flag h
      rw [(Prod.mk.inj (Except.ok.inj h)).1]
    | cons l ls ih =>
      intro w full flag h
      rw [processBytesLoop] at h
      cases hd : utf8Decode l with
      | none =>
        rw [hd] at h
        rw [(Prod.mk.inj (Except.ok.inj h)).1]
      | some t =>
        rw [hd] at h
        cases hp : process db (chomp t) with
        | error e => simp only [hp, R.error_bind] at h; cases h
        | ok p =>
          simp only [hp, R.ok_bind] at h
          have := ih _ _ _ h
          simp only [List.length_append] at this
          omega
  induction ls generalizing w with
  | nil =>
    have := (Prod.mk.inj (Except.ok.inj hf)).1
    subst this
    exact .done
  | cons l ls ih =>
    rw [processBytesLoop] at hf
    cases hd : utf8Decode l with
    | none => rw [hd] at hf; have := Prod.mk.inj (Except.ok.inj hf); cases this.2
    | some t =>
      rw [hd] at hf
      cases hp : process db (chomp t) with
      | error e => simp only [hp, R.error_bind] at hf; cases hf
      | ok p =>
        simp only [hp, R.ok_bind] at hf
        have hlen := ext _ _ _ _ hf
        simp only [List.length_append, List.length_singleton] at hlen
        refine .line hd hp (.copy ?_) (.copy ?_) (ih _ hf)
        · simp only []; omega
        · simp only [List.length_append, List.length_singleton]; omega

end Writing
end Tokens

namespace Tokens
namespace Writing
open Main Processing Input

/-- One byte stays in the buffer. -/
theorem writeAll_one {s s' : Writer} {c : UInt8} (h : WriteAll s [c] s' true) : s'.buf ≠ [] := by
  generalize ht : true = t at h
  cases h with
  | copy => simp
  | stuck => cases ht
  | buffer => simp
  | direct _ _ hc => simp [capacity] at hc

/-- After a line, the buffer is not empty. -/
theorem loop_nonempty {db : CharTables} {ls : List Bytes} {s s' : Writer} {r : R Unit} (h : Loop db ls s s' r)
    (hr : r = .ok ()) (hne : ls ≠ [] ∨ s.buf ≠ []) : s'.buf ≠ [] := by
  induction h with
  | done => simpa using hne
  | badLine => cases hr
  | panic => cases hr
  | failText => cases hr
  | failNewline => cases hr
  | line _ _ _ hn _ ih => exact ih hr (.inr (writeAll_one hn))

end Writing
end Tokens
