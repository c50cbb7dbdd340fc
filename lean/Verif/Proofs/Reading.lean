import Verif.Model.Reading
import Verif.Proofs.Sampler2
import Verif.Proofs.Writing

/-! Lines arrive whole however they are delivered (for C83). -/

namespace Tokens
namespace Reading
open Input Main

theorem splitLines_nl (pre post : Bytes) (h : (10 : UInt8) ∉ pre) :
    splitLines (pre ++ 10 :: post) = (pre ++ [10]) :: splitLines post := by
  induction pre with
  | nil => simp [splitLines]
  | cons b pre ih =>
    simp only [List.mem_cons, not_or] at h
    rw [List.cons_append, splitLines, if_neg (Ne.symm h.1), ih h.2]
    rfl

theorem splitLines_last (l : Bytes) (h : (10 : UInt8) ∉ l) (hne : l ≠ []) : splitLines l = [l] := by
  induction l with
  | nil => exact absurd rfl hne
  | cons b l ih =>
    simp only [List.mem_cons, not_or] at h
    rw [splitLines, if_neg (Ne.symm h.1)]
    cases l with
    | nil => rfl
    | cons c l => rw [ih h.2 (by simp)]

/-- what `read_until` has done -/
theorem readUntil_ok {buf rest got buf' rest' : Bytes} {ok : Bool} (h : ReadUntil buf rest got buf' rest' ok) :
    ok = true → (got = [] ∧ buf ++ rest = []) ∨
      (got ≠ [] ∧ splitLines (buf ++ rest) = got :: splitLines (buf' ++ rest') ) := by
  have key : ok = true → (∃ pre, (10 : UInt8) ∉ pre ∧ got = pre ++ [10] ∧ buf ++ rest = got ++ (buf' ++ rest')) ∨
      ((10 : UInt8) ∉ got ∧ buf ++ rest = got ∧ buf' ++ rest' = []) := by
    induction h with
    | @found pre post rest h => intro _; exact .inl ⟨pre, h, rfl, by simp⟩
    | @fill buf rest n got buf' rest' ok h hn hle hcap hr ih =>
      intro e
      rcases ih e with ⟨pre, h1, h2, h3⟩ | ⟨h1, h2, h3⟩
      · refine .inl ⟨buf ++ pre, by simp [h, h1], by rw [h2]; simp, ?_⟩
        rw [List.take_append_drop] at h3
        rw [h3]; simp
      · refine .inr ⟨by simp [h, h1], ?_, h3⟩
        rw [List.take_append_drop] at h2
        rw [h2]
    | @eof buf h => intro _; exact .inr ⟨h, by simp, rfl⟩
    | fail => intro e; cases e
  intro e
  rcases key e with ⟨pre, h1, h2, h3⟩ | ⟨h1, h2, h3⟩
  · right
    refine ⟨by rw [h2]; simp, ?_⟩
    rw [h3, h2, List.append_assoc]
    exact splitLines_nl _ _ h1
  · by_cases hg : got = []
    · left; exact ⟨hg, by rw [h2, hg]⟩
    · right
      refine ⟨hg, ?_⟩
      rw [h2, h3, splitLines_last _ h1 hg]; rfl

theorem readLines_spec {buf rest : Bytes} {ls : List Bytes} {ok : Bool} (h : ReadLines buf rest ls ok) :
    (ok = true → ls = splitLines (buf ++ rest)) ∧ ls <+: splitLines (buf ++ rest) := by
  induction h with
  | @done buf rest buf' rest' h =>
    rcases readUntil_ok h rfl with ⟨-, e⟩ | ⟨e, -⟩
    · rw [e]; exact ⟨fun _ => rfl, List.nil_prefix⟩
    · exact absurd rfl e
  | fail h => exact ⟨(by intro e; cases e), List.nil_prefix⟩
  | line hne h hl ih =>
    rcases readUntil_ok h rfl with ⟨e, -⟩ | ⟨-, e⟩
    · exact absurd e hne
    · rw [e]
      exact ⟨fun h => by rw [ih.1 h], List.prefix_cons_inj _ |>.2 ih.2⟩

/-- one line, read byte by byte -/
theorem readUntil_line (l rest : Bytes) (h : (10 : UInt8) ∉ l) (buf : Bytes) (hb : (10 : UInt8) ∉ buf) :
    ReadUntil buf (l ++ 10 :: rest) (buf ++ l ++ [10]) [] rest true := by
  induction l generalizing buf with
  | nil =>
    have := ReadUntil.fill (buf := buf) (rest := 10 :: rest) (n := 1) hb (by omega) (by simp)
      (by unfold Writing.capacity; omega) (ReadUntil.found (pre := []) (post := []) (rest := rest) (by simp))
    simpa using this
  | cons b l ih =>
    simp only [List.mem_cons, not_or] at h
    have := ReadUntil.fill (buf := buf) (rest := b :: (l ++ 10 :: rest)) (n := 1) hb (by omega) (by simp)
      (by unfold Writing.capacity; omega) (ih h.2 [b] (by simpa using h.1))
    simpa using this

theorem readUntil_end (l : Bytes) (h : (10 : UInt8) ∉ l) (buf : Bytes) (hb : (10 : UInt8) ∉ buf) :
    ReadUntil buf l (buf ++ l) [] [] true := by
  induction l generalizing buf with
  | nil => simpa using ReadUntil.eof hb
  | cons b l ih =>
    simp only [List.mem_cons, not_or] at h
    have := ReadUntil.fill (buf := buf) (rest := b :: l) (n := 1) hb (by omega) (by simp)
      (by unfold Writing.capacity; omega) (ih h.2 [b] (by simpa using h.1))
    simpa using this

theorem line_cases (data : Bytes) : data = [] ∨
    (∃ pre post, (10 : UInt8) ∉ pre ∧ data = pre ++ 10 :: post) ∨ ((10 : UInt8) ∉ data ∧ data ≠ []) := by
  by_cases h : (10 : UInt8) ∈ data
  · obtain ⟨pre, post, e, hn⟩ := List.eq_append_cons_of_mem h
    exact .inr (.inl ⟨pre, post, hn, e⟩)
  · by_cases e : data = []
    · exact .inl e
    · exact .inr (.inr ⟨h, e⟩)

/-- any beginning of the lines may be what arrives before a failure, and all of them may arrive -/
theorem readLines_exists (n : Nat) (data : Bytes) (hn : data.length ≤ n) (ls : List Bytes) (h : ls <+: splitLines data) :
    ReadLines [] data ls false ∧ (ls = splitLines data → ReadLines [] data ls true) := by
  induction n generalizing data ls with
  | zero =>
    have : data = [] := List.length_eq_zero_iff.1 (by omega)
    subst this
    have : ls = [] := by simpa [splitLines] using h
    subst this
    exact ⟨.fail (.fail (by simp)), fun _ => .done (.eof (by simp))⟩
  | succ n ih =>
    cases ls with
    | nil =>
      refine ⟨.fail (.fail (by simp)), fun e => ?_⟩
      rcases line_cases data with rfl | ⟨pre, post, h1, rfl⟩ | ⟨h1, h2⟩
      · exact .done (.eof (by simp))
      · rw [splitLines_nl _ _ h1] at e; cases e
      · rw [splitLines_last _ h1 h2] at e; cases e
    | cons l ls =>
      rcases line_cases data with rfl | ⟨pre, post, h1, rfl⟩ | ⟨h1, h2⟩
      · simp [splitLines] at h
      · rw [splitLines_nl _ _ h1] at h ⊢
        obtain ⟨rfl, h'⟩ := List.cons_prefix_cons.1 h
        have hlen : post.length ≤ n := by simp at hn; omega
        obtain ⟨i1, i2⟩ := ih post hlen ls h'
        have hr := readUntil_line pre post h1 [] (by simp)
        simp only [List.nil_append] at hr
        exact ⟨.line (by simp) hr i1, fun e => .line (by simp) hr (i2 (List.cons.inj e).2)⟩
      · rw [splitLines_last _ h1 h2] at h ⊢
        obtain ⟨rfl, h'⟩ := List.cons_prefix_cons.1 h
        have : ls = [] := by simpa using h'
        subst this
        have hr := readUntil_end l h1 [] (by simp)
        simp only [List.nil_append] at hr
        exact ⟨.line h2 hr (.fail (.fail (by simp))), fun _ => .line h2 hr (.done (.eof (by simp)))⟩

theorem pull_spec {rest got : Bytes} {ok : Bool} (h : Pull rest got ok) : (ok = true → got = rest) ∧ got <+: rest := by
  induction h with
  | done => exact ⟨fun _ => rfl, List.prefix_rfl⟩
  | @some rest n got ok hn hle h ih =>
    refine ⟨fun e => by rw [ih.1 e, List.take_append_drop], ?_⟩
    conv_rhs => rw [← List.take_append_drop n rest]
    exact (List.prefix_append_right_inj _).2 ih.2
  | fail => exact ⟨(by intro e; cases e), List.nil_prefix⟩

theorem pull_all (rest : Bytes) : Pull rest rest true := by
  cases rest with
  | nil => exact .done
  | cons b l =>
    have := Pull.some (rest := b :: l) (n := (b :: l).length) (got := []) (ok := true) (by simp) le_rfl
      (by rw [List.drop_length]; exact .done)
    simpa using this

theorem fileSlices_ok (file : Bytes) (size : Nat) (reads : Nat → Option Nat) (f i offset : Nat) (l : List Bytes)
    (h : fileSlices file size reads f i offset = .ok l) :
    Input.fileSlices file size (fun i => (reads i).getD 1) f i offset = .ok l := by
  induction f generalizing i offset l with
  | zero => exact h
  | succ f ih =>
    rw [fileSlices] at h
    cases hr : reads i with
    | none => rw [hr] at h; cases h
    | some short =>
      rw [hr] at h
      simp only at h
      rw [Input.fileSlices]
      simp only [hr, Option.getD_some]
      cases hn : fileNext file size offset short with
      | error e => rw [hn] at h; cases h
      | ok o =>
        rw [hn, R.ok_bind] at h
        rw [R.ok_bind]
        cases o with
        | none => exact h
        | some p =>
          obtain ⟨slice, offset'⟩ := p
          simp only at h ⊢
          cases hs : fileSlices file size reads f (i + 1) offset' with
          | error e => rw [hs] at h; cases h
          | ok l' =>
            rw [hs] at h
            rw [ih _ _ _ hs]
            exact h

theorem fileSlices_error (file : Bytes) (size : Nat) (reads : Nat → Option Nat) (short : Nat → Nat) (f i offset : Nat)
    (l : List Bytes) (hs : ∀ j, reads j = none ∨ reads j = some (short j))
    (h : Input.fileSlices file size short f i offset = .ok l) :
    fileSlices file size reads f i offset = .ok l ∨ fileSlices file size reads f i offset = .error .unwrapNone := by
  induction f generalizing i offset l with
  | zero => cases h
  | succ f ih =>
    rw [fileSlices]
    rcases hs i with hr | hr
    · rw [hr]; exact .inr rfl
    · rw [hr]
      simp only
      rw [Input.fileSlices] at h
      cases hn : fileNext file size offset (short i) with
      | error e => rw [hn] at h; cases h
      | ok o =>
        rw [hn, R.ok_bind] at h
        rw [R.ok_bind]
        cases o with
        | none => exact .inl h
        | some p =>
          obtain ⟨slice, offset'⟩ := p
          simp only at h ⊢
          cases hl : Input.fileSlices file size short f (i + 1) offset' with
          | error e => rw [hl] at h; cases h
          | ok l' =>
            rw [hl] at h
            rcases ih (i + 1) offset' l' hl with e | e
            · rw [e]; exact .inl h
            · rw [e]; exact .inr rfl

end Reading
end Tokens
