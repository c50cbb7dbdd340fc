import Verif.Proofs.OldCost

/-! Adding and removing tokens in sets of the first generation; the keys of the caches. -/

set_option linter.unusedVariables false

namespace Tokens.Old
open Tokens Spec.Old

theorem strings_nodup {ts : OSet} (h : SetOK ts) : (strings ts).Nodup := h.map.nodup

theorem strings_ne {ts : OSet} (h : SetOK ts) : ∀ s ∈ strings ts, s ≠ [] := by
  intro s hs
  obtain ⟨t, ht, rfl⟩ := List.mem_map.1 hs
  exact h.nonempty t ht

theorem byString_none {ts : OSet} (h : SetOK ts) {s : Bytes} : ts.byString s = none ↔ s ∉ strings ts := h.map.none_iff s

theorem addToken_new {ts : OSet} (h : SetOK ts) {s : Bytes} (hs : s ∉ strings ts) :
    ∃ ts', ts.addToken s = .ok ts' ∧ ts'.tokens = ts.tokens ++ [{ string := s, isMandatory := false, suffix := .none }] ∧
      strings ts' = strings ts ++ [s] ∧ fixed ts' = fixed ts ∧ ts'.literal = ts.literal := by
  have h0 := (byString_none h).2 hs
  unfold OSet.addToken
  rw [h0]
  refine ⟨_, rfl, rfl, ?_, ?_, rfl⟩
  · simp [strings]
  · simp [fixed]

theorem addToken_old {ts : OSet} (h : SetOK ts) {s : Bytes} (hs : s ∈ strings ts) (hf : s ∉ fixed ts) :
    ts.addToken s = .error .assertFailed := by
  cases hm : ts.byString s with
  | none => exact absurd hs ((byString_none h).1 hm)
  | some k =>
    obtain ⟨t, ht, rfl⟩ := (h.map s k).1 hm
    unfold OSet.addToken
    rw [hm]
    simp only [getR_of ht, R.ok_bind]
    have : t.isMandatory = false := by
      cases hb : t.isMandatory with
      | false => rfl
      | true =>
        exact absurd (List.mem_map_of_mem (List.mem_filter.2 ⟨List.mem_of_getElem? ht, hb⟩)) hf
    rw [this]
    rfl

theorem eraseIdx_perm {α : Type} {l : List α} {k : Nat} {a : α} (h : l[k]? = some a) : l.Perm (a :: l.eraseIdx k) := by
  induction l generalizing k with
  | nil => simp at h
  | cons b l ih =>
    cases k with
    | zero => simp only [List.getElem?_cons_zero, Option.some.injEq] at h; subst h; simp
    | succ k =>
      rw [List.getElem?_cons_succ] at h
      rw [List.eraseIdx_cons_succ]
      exact ((ih h).cons b).trans (.swap _ _ _)

theorem filter_eraseIdx {α : Type} {l : List α} {k : Nat} {a : α} (h : l[k]? = some a) {P : α → Bool} (hp : P a = false) :
    (l.eraseIdx k).filter P = l.filter P := by
  induction l generalizing k with
  | nil => simp at h
  | cons b l ih =>
    cases k with
    | zero =>
      simp only [List.getElem?_cons_zero, Option.some.injEq] at h
      subst h
      simp [hp]
    | succ k =>
      rw [List.getElem?_cons_succ] at h
      rw [List.eraseIdx_cons_succ, List.filter_cons, List.filter_cons, ih h]

theorem removeToken_some {ts : OSet} (h : SetOK ts) {s : Bytes} (hs : s ∈ strings ts) (hf : s ∉ fixed ts) :
    ∃ ts', ts.removeToken s = .ok ts' ∧ (strings ts).Perm (s :: strings ts') ∧ fixed ts' = fixed ts ∧
      ts'.literal = ts.literal ∧ ts'.tokens.length + 1 = ts.tokens.length := by
  cases hm : ts.byString s with
  | none => exact absurd hs ((byString_none h).1 hm)
  | some k =>
    obtain ⟨t, ht, rfl⟩ := (h.map s k).1 hm
    have hb : t.isMandatory = false := by
      cases hb : t.isMandatory with
      | false => rfl
      | true =>
        exact absurd (List.mem_map_of_mem (List.mem_filter.2 ⟨List.mem_of_getElem? ht, hb⟩)) hf
    unfold OSet.removeToken
    rw [hm]
    simp only [unwrapR_some, R.ok_bind, getR_of ht, hb, Bool.not_false, rassert_true rfl]
    have hp := eraseIdx_perm ht
    refine ⟨_, rfl, ?_, ?_, rfl, ?_⟩
    · simpa [strings] using hp.map OToken.string
    · simp only [fixed]; rw [filter_eraseIdx ht hb]
    · have := hp.length_eq
      simp only [List.length_cons] at this
      simp only []
      omega

theorem removeToken_fixed {ts : OSet} (h : SetOK ts) {s : Bytes} (hf : s ∈ fixed ts) :
    ts.removeToken s = .error .assertFailed := by
  obtain ⟨t, ht, rfl⟩ := List.mem_map.1 hf
  obtain ⟨ht1, ht2⟩ := List.mem_filter.1 ht
  obtain ⟨k, hk⟩ := List.mem_iff_getElem?.1 ht1
  have hm := (h.map t.string k).2 ⟨t, hk, rfl⟩
  unfold OSet.removeToken
  rw [hm]
  simp only [unwrapR_some, R.ok_bind, getR_of hk, ht2]
  rfl

theorem length_strings (ts : OSet) : (strings ts).length = ts.tokens.length := by simp [strings]

/-! ### Whole lists -/

theorem addAll_new (l : List Bytes) : ∀ {ts : OSet}, Made ts → l.Nodup → (∀ s ∈ l, s ∉ strings ts ∧ s ≠ []) →
    ∃ ts', addAll ts l = .ok ts' ∧ Made ts' ∧ strings ts' = strings ts ++ l ∧ fixed ts' = fixed ts ∧
      ts'.literal = ts.literal := by
  induction l with
  | nil => intro ts h _ _; exact ⟨ts, rfl, h, by simp, rfl, rfl⟩
  | cons s l ih =>
    intro ts h hn hs
    rw [List.nodup_cons] at hn
    have hs0 := hs s (by simp)
    obtain ⟨ts1, h1, h2, h3, h4, h5⟩ := addToken_new (made_ok h) hs0.1
    obtain ⟨ts2, g1, g2, g3, g4, g5⟩ := ih (.add h hs0.2 h1) hn.2 (fun x hx => by
      refine ⟨?_, (hs x (by simp [hx])).2⟩
      rw [h3, List.mem_append, List.mem_singleton]
      rintro (hc | rfl)
      · exact (hs x (by simp [hx])).1 hc
      · exact hn.1 hx)
    refine ⟨ts2, ?_, g2, ?_, g4.trans h4, g5.trans h5⟩
    · rw [addAll, h1]; exact g1
    · rw [g3, h3]; simp

/-- A text that comes twice, or that is a token already, cannot be added. -/
theorem addAll_dup (l : List Bytes) : ∀ {ts : OSet}, Made ts → (∀ s ∈ l, s ∉ fixed ts ∧ s ≠ []) →
    ¬ (l.Nodup ∧ ∀ s ∈ l, s ∉ strings ts) → addAll ts l = .error .assertFailed := by
  induction l with
  | nil => intro ts h _ hn; exact absurd ⟨List.nodup_nil, by simp⟩ hn
  | cons s l ih =>
    intro ts h hs hn
    have hs0 := hs s (by simp)
    by_cases hin : s ∈ strings ts
    · rw [addAll, addToken_old (made_ok h) hin hs0.1]
      rfl
    · obtain ⟨ts1, h1, h2, h3, h4, h5⟩ := addToken_new (made_ok h) hin
      rw [addAll, h1]
      refine ih (.add h hs0.2 h1) (fun x hx => ⟨by rw [h4]; exact (hs x (by simp [hx])).1, (hs x (by simp [hx])).2⟩) ?_
      rintro ⟨g1, g2⟩
      apply hn
      have hsl : s ∉ l := fun hsl => g2 s hsl (by rw [h3]; simp)
      refine ⟨List.nodup_cons.2 ⟨hsl, g1⟩, ?_⟩
      intro x hx
      rcases List.mem_cons.1 hx with rfl | hx
      · exact hin
      · intro hc
        exact g2 x hx (by rw [h3]; simp [hc])

theorem removeAll_some (l : List Bytes) : ∀ {ts : OSet}, Made ts → l.Nodup → (∀ s ∈ l, s ∈ strings ts ∧ s ∉ fixed ts) →
    ∃ ts', removeAll ts l = .ok ts' ∧ Made ts' ∧ (strings ts).Perm (l ++ strings ts') ∧ fixed ts' = fixed ts ∧
      ts'.literal = ts.literal := by
  induction l with
  | nil => intro ts h _ _; exact ⟨ts, rfl, h, by simp, rfl, rfl⟩
  | cons s l ih =>
    intro ts h hn hs
    rw [List.nodup_cons] at hn
    have hs0 := hs s (by simp)
    obtain ⟨ts1, h1, h2, h3, h4, h5⟩ := removeToken_some (made_ok h) hs0.1 hs0.2
    obtain ⟨ts2, g1, g2, g3, g4, g5⟩ := ih (.remove h h1) hn.2 (fun x hx => by
      have := hs x (by simp [hx])
      refine ⟨?_, by rw [h3]; exact this.2⟩
      rcases List.mem_cons.1 (h2.mem_iff.1 this.1) with rfl | hc
      · exact absurd hx hn.1
      · exact hc)
    refine ⟨ts2, ?_, g2, ?_, g4.trans h3, g5.trans h4⟩
    · rw [removeAll, h1]; exact g1
    · exact h2.trans (by rw [List.cons_append]; exact g3.cons s)

/-! ### The keys of the caches -/

theorem split_zero {a b : Bytes} {r r' : Bytes} (ha : (0 : UInt8) ∉ a) (hb : (0 : UInt8) ∉ b)
    (h : a ++ 0 :: r = b ++ 0 :: r') : a = b ∧ r = r' := by
  induction a generalizing b with
  | nil =>
    cases b with
    | nil => simpa using h
    | cons y b =>
      rw [List.nil_append, List.cons_append] at h
      injection h with h1 h2
      exact absurd (h1 ▸ List.mem_cons_self) hb
  | cons x a ih =>
    cases b with
    | nil =>
      rw [List.nil_append, List.cons_append] at h
      injection h with h1 h2
      exact absurd (h1 ▸ List.mem_cons_self) ha
    | cons y b =>
      rw [List.cons_append, List.cons_append] at h
      injection h with h1 h2
      obtain ⟨h3, h4⟩ := ih (fun hm => ha (.tail _ hm)) (fun hm => hb (.tail _ hm)) h2
      exact ⟨by rw [h1, h3], h4⟩

theorem split_plain {a b : Bytes} {r r' : Bytes} (ha : (0 : UInt8) ∉ a ∨ a = [0]) (hb : (0 : UInt8) ∉ b ∨ b = [0])
    (hna : a ≠ []) (hnb : b ≠ []) (h : a ++ 0 :: r = b ++ 0 :: r') : a = b ∧ r = r' := by
  have first : ∀ {c : Bytes} {q : Bytes}, (0 : UInt8) ∉ c → c ≠ [] → ∀ {q'}, c ++ q = 0 :: q' → False := by
    intro c q h0 hne q' e
    cases c with
    | nil => exact hne rfl
    | cons x c =>
      rw [List.cons_append] at e
      injection e with e1 _
      exact h0 (e1 ▸ List.mem_cons_self)
  rcases ha with ha | rfl
  · rcases hb with hb | rfl
    · exact split_zero ha hb h
    · exact (first ha hna h).elim
  · rcases hb with hb | rfl
    · exact (first hb hnb h.symm).elim
    · simpa using h

theorem flatMap_zero_inj : ∀ {l l' : List Bytes}, (∀ s ∈ l, ((0 : UInt8) ∉ s ∨ s = [0]) ∧ s ≠ []) →
    (∀ s ∈ l', ((0 : UInt8) ∉ s ∨ s = [0]) ∧ s ≠ []) →
    l.flatMap (· ++ [0]) = l'.flatMap (· ++ [0]) → l = l'
  | [], [], _, _, _ => rfl
  | [], s :: l', _, _, h => by
    rw [List.flatMap_nil, List.flatMap_cons] at h
    have := congrArg List.length h
    simp at this
  | s :: l, [], _, _, h => by
    rw [List.flatMap_nil, List.flatMap_cons] at h
    have := congrArg List.length h
    simp at this
  | s :: l, s' :: l', h1, h2, h => by
    rw [List.flatMap_cons, List.flatMap_cons, List.append_assoc, List.append_assoc] at h
    obtain ⟨e1, e2⟩ := split_plain (h1 s (by simp)).1 (h2 s' (by simp)).1 (h1 s (by simp)).2 (h2 s' (by simp)).2 h
    rw [e1, flatMap_zero_inj (fun x hx => h1 x (by simp [hx])) (fun x hx => h2 x (by simp [hx])) e2]

theorem cacheKey_perm {ts ts' : OSet} (hok : SetOK ts) (hok' : SetOK ts') (h : NoZero ts) (h' : NoZero ts')
    (hk : cacheKey ts = cacheKey ts') : (strings ts).Perm (strings ts') := by
  unfold cacheKey at hk
  have := flatMap_zero_inj
    (fun s hs => ⟨h s ((List.mergeSort_perm _ _).mem_iff.1 hs), strings_ne hok s ((List.mergeSort_perm _ _).mem_iff.1 hs)⟩)
    (fun s hs => ⟨h' s ((List.mergeSort_perm _ _).mem_iff.1 hs), strings_ne hok' s ((List.mergeSort_perm _ _).mem_iff.1 hs)⟩) hk
  exact (List.mergeSort_perm _ bytesLe).symm.trans (this ▸ List.mergeSort_perm _ bytesLe)

end Tokens.Old
