import Verif.Proofs.JsonRead
import Mathlib.Data.List.Induction

/-! Reading JSON texts: exactly which texts are read, and as what. -/

set_option linter.unusedSimpArgs false
set_option linter.unusedVariables false

namespace Tokens
open Spec
namespace JsonRead

/-! ### Members by key -/

theorem lookup_if (k a : Text) (x : Json) (l : List (Text × Json)) :
    ((a, x) :: l).lookup k = if k = a then some x else l.lookup k := by
  rw [List.lookup_cons]
  by_cases e : k = a
  · subst e; simp
  · rw [if_neg e, beq_eq_false_iff_ne.2 e]

theorem lookup_insertKey (k : Text) (v : Json) (l : List (Text × Json))
    (h : (l.map Prod.fst).Pairwise (· < ·)) (k' : Text) :
    (insertKey k v l).lookup k' = if k' = k then some v else l.lookup k' := by
  induction l with
  | nil =>
    simp only [insertKey, lookup_if, List.lookup_nil]
  | cons m l ih =>
    obtain ⟨a, x⟩ := m
    rw [List.map_cons, List.pairwise_cons] at h
    rw [insertKey]
    by_cases h1 : k < a
    · rw [if_pos h1, lookup_if]
    · rw [if_neg h1]
      by_cases h2 : k = a
      · subst h2
        rw [if_pos rfl, lookup_if, lookup_if]
        by_cases e : k' = k
        · simp [e]
        · simp [e]
      · rw [if_neg h2, lookup_if, lookup_if, ih h.2]
        by_cases e : k' = a
        · subst e
          simp [Ne.symm h2]
        · simp [e]

theorem keys_insertKey (k : Text) (v : Json) (l : List (Text × Json)) (a : Text)
    (h : a ∈ (insertKey k v l).map Prod.fst) : a = k ∨ a ∈ l.map Prod.fst := by
  induction l with
  | nil => simpa [insertKey] using h
  | cons m l ih =>
    obtain ⟨b, x⟩ := m
    rw [insertKey] at h
    by_cases h1 : k < b
    · rw [if_pos h1] at h; simpa using h
    · rw [if_neg h1] at h
      by_cases h2 : k = b
      · rw [if_pos h2] at h
        simp only [List.map_cons, List.mem_cons] at h ⊢
        rcases h with h | h
        · exact .inl h
        · exact .inr (.inr h)
      · rw [if_neg h2] at h
        simp only [List.map_cons, List.mem_cons] at h ⊢
        rcases h with h | h
        · exact .inr (.inl h)
        · rcases ih h with h | h
          · exact .inl h
          · exact .inr (.inr h)

theorem sorted_insertKey (k : Text) (v : Json) (l : List (Text × Json))
    (h : (l.map Prod.fst).Pairwise (· < ·)) : ((insertKey k v l).map Prod.fst).Pairwise (· < ·) := by
  induction l with
  | nil => simp [insertKey]
  | cons m l ih =>
    obtain ⟨b, x⟩ := m
    have h' := h
    rw [List.map_cons, List.pairwise_cons] at h
    rw [insertKey]
    by_cases h1 : k < b
    · rw [if_pos h1, List.map_cons, List.pairwise_cons]
      refine ⟨?_, h'⟩
      intro a ha
      rw [List.map_cons, List.mem_cons] at ha
      rcases ha with rfl | ha
      · exact h1
      · exact lt_trans h1 (h.1 a ha)
    · rw [if_neg h1]
      by_cases h2 : k = b
      · subst h2
        rw [if_pos rfl]
        exact h'
      · rw [if_neg h2, List.map_cons, List.pairwise_cons]
        refine ⟨?_, ih h.2⟩
        intro a ha
        rcases keys_insertKey k v l a ha with rfl | ha
        · exact lt_of_le_of_ne (not_lt.1 h1) (Ne.symm h2)
        · exact h.1 a ha

/-- What inserting one member after the other makes. -/
def insertAll (acc l : List (Text × Json)) : List (Text × Json) :=
  l.foldl (fun a m => insertKey m.1 m.2 a) acc

theorem sorted_insertAll (l acc : List (Text × Json)) (h : (acc.map Prod.fst).Pairwise (· < ·)) :
    ((insertAll acc l).map Prod.fst).Pairwise (· < ·) := by
  induction l generalizing acc with
  | nil => exact h
  | cons m l ih => exact ih _ (sorted_insertKey m.1 m.2 acc h)

theorem lookup_insertAll (l : List (Text × Json)) (k : Text) :
    (insertAll [] l).lookup k = l.reverse.lookup k := by
  induction l using List.reverseRec with
  | nil => rfl
  | append_singleton l m ih =>
    have hs : ((insertAll [] l).map Prod.fst).Pairwise (· < ·) := sorted_insertAll l [] (by simp)
    have e : insertAll [] (l ++ [m]) = insertKey m.1 m.2 (insertAll [] l) := by
      simp [insertAll, List.foldl_append]
    obtain ⟨a, x⟩ := m
    rw [e, lookup_insertKey _ _ _ hs, ih, List.reverse_append, List.reverse_cons, List.reverse_nil,
      List.nil_append, List.cons_append, List.nil_append, lookup_if]

theorem lookup_none_of {l : List (Text × Json)} {k : Text} (h : k ∉ l.map Prod.fst) : l.lookup k = none := by
  rw [List.lookup_eq_none_iff]
  intro p hp
  have : k ≠ p.1 := fun e => h (e ▸ List.mem_map.2 ⟨p, hp, rfl⟩)
  simpa using this

theorem sorted_ext (l l' : List (Text × Json)) (h : (l.map Prod.fst).Pairwise (· < ·))
    (h' : (l'.map Prod.fst).Pairwise (· < ·)) (he : ∀ k, l.lookup k = l'.lookup k) : l = l' := by
  induction l generalizing l' with
  | nil =>
    cases l' with
    | nil => rfl
    | cons m l' =>
      obtain ⟨b, y⟩ := m
      have := he b
      simp [lookup_if] at this
  | cons m l ih =>
    cases l' with
    | nil =>
      obtain ⟨b, y⟩ := m
      have := he b
      simp [lookup_if] at this
    | cons m' l' =>
      obtain ⟨a, x⟩ := m
      obtain ⟨b, y⟩ := m'
      rw [List.map_cons, List.pairwise_cons] at h h'
      have hab : a = b := by
        rcases lt_trichotomy a b with g | g | g
        · have := he a
          have hn : ((b, y) :: l').lookup a = none := by
            apply lookup_none_of
            rw [List.map_cons, List.mem_cons]
            rintro (e | e)
            · exact absurd g (e ▸ lt_irrefl _)
            · exact absurd (lt_trans g (h'.1 a e)) (lt_irrefl _)
          rw [hn] at this
          simp [lookup_if] at this
        · exact g
        · have := he b
          have hn : ((a, x) :: l).lookup b = none := by
            apply lookup_none_of
            rw [List.map_cons, List.mem_cons]
            rintro (e | e)
            · exact absurd g (e ▸ lt_irrefl _)
            · exact absurd (lt_trans g (h.1 b e)) (lt_irrefl _)
          rw [hn] at this
          simp [lookup_if] at this
      subst hab
      have hx := he a
      simp only [lookup_if, if_true, Option.some.injEq] at hx
      subst hx
      rw [ih l' h.2 h'.2]
      intro k
      by_cases hk : k = a
      · subst hk
        rw [lookup_none_of (fun e => absurd (h.1 k e) (lt_irrefl _)),
          lookup_none_of (fun e => absurd (h'.1 k e) (lt_irrefl _))]
      · have := he k
        simpa [lookup_if, hk] using this

theorem byKey_keys (l : List (Text × Json)) :
    (byKey l).map Prod.fst = (l.map Prod.fst).dedup.mergeSort (fun a b => decide (a ≤ b)) := by
  simp [byKey, Function.comp_def]

theorem byKey_sorted (l : List (Text × Json)) : ((byKey l).map Prod.fst).Pairwise (· < ·) := by
  rw [byKey_keys]
  have h1 := List.pairwise_mergeSort (le := fun a b : Text => decide (a ≤ b))
    (fun a b c h1 h2 => by simp only [decide_eq_true_eq] at *; exact le_trans h1 h2)
    (fun a b => by simpa using le_total a b) (l.map Prod.fst).dedup
  have h2 : ((l.map Prod.fst).dedup.mergeSort (fun a b => decide (a ≤ b))).Nodup :=
    (List.mergeSort_perm _ _).nodup_iff.2 (List.nodup_dedup _)
  refine (h1.and h2).imp ?_
  intro a b hab
  exact lt_of_le_of_ne (by simpa using hab.1) hab.2

theorem lookup_map_mem (f : Text → Json) (ks : List Text) (k : Text) :
    (ks.map (fun k => (k, f k))).lookup k = if k ∈ ks then some (f k) else none := by
  induction ks with
  | nil => rfl
  | cons a ks ih =>
    rw [List.map_cons, lookup_if, ih]
    by_cases e : k = a
    · subst e; simp
    · simp [e]

theorem lookup_byKey (l : List (Text × Json)) (k : Text) : (byKey l).lookup k = l.reverse.lookup k := by
  rw [byKey, lookup_map_mem]
  have hm : k ∈ (l.map Prod.fst).dedup.mergeSort (fun a b => decide (a ≤ b)) ↔ k ∈ l.map Prod.fst := by
    rw [(List.mergeSort_perm _ _).mem_iff, List.mem_dedup]
  by_cases h : k ∈ l.map Prod.fst
  · rw [if_pos (hm.2 h)]
    cases e : l.reverse.lookup k with
    | some x => rfl
    | none =>
      rw [List.lookup_eq_none_iff] at e
      obtain ⟨p, hp, rfl⟩ := List.mem_map.1 h
      have := e p (by simpa using hp)
      simp at this
  · rw [if_neg (fun g => h (hm.1 g)), lookup_none_of]
    rw [List.map_reverse, List.mem_reverse]
    exact h

theorem insertAll_eq (l : List (Text × Json)) : insertAll [] l = byKey l :=
  sorted_ext _ _ (sorted_insertAll l [] (by simp)) (byKey_sorted l)
    (fun k => by rw [lookup_insertAll, lookup_byKey])

/-! ### Every JSON text that is not nested too deep is read -/

theorem readNumber_stored (n : Int) {r : Text} (hr : Stop r) :
    readNumber ((toString n).toList ++ r) = some (stored (.num n), r) := by
  rw [stored]
  by_cases hn : -2 ^ 63 ≤ n ∧ n < 2 ^ 64
  · rw [if_pos hn, readNumber_int n hr hn.1 hn.2]
  · rw [if_neg hn, toString_int]
    cases n with
    | ofNat n =>
      have := readNumber_of (sg := []) (fp := []) (ep := []) (.inl rfl) (toDigits_int n) (.inl rfl)
        (.inl rfl) hr
      simp only [List.nil_append, List.append_nil] at this
      simp only [Json.renderInt]
      rw [this]
      have hn : ¬ n < 2 ^ 64 := by
        intro h
        apply hn
        constructor
        · have : (0 : Int) ≤ Int.ofNat n := Int.natCast_nonneg n
          omega
        · show ((n : Nat) : Int) < 2 ^ 64
          omega
      rw [if_pos (by decide), if_neg (by decide), Nat.ofDigitChars_ten_toDigits, if_neg hn]
    | negSucc n =>
      have := readNumber_of (sg := ['-']) (fp := []) (ep := []) (.inr rfl) (toDigits_int (n + 1)) (.inl rfl)
        (.inl rfl) hr
      simp only [List.append_nil] at this
      simp only [Json.renderInt]
      rw [List.cons_append, List.nil_append] at this
      rw [this]
      have hn : ¬ (n + 1 ≤ 2 ^ 63) := by
        intro h
        apply hn
        constructor <;> omega
      rw [if_pos (by decide), if_pos trivial, Nat.ofDigitChars_ten_toDigits, if_neg (fun g => hn g.2)]

theorem insertAll_cons (acc : List (Text × Json)) (k : Text) (v : Json) (l : List (Text × Json)) :
    insertAll acc ((k, v) :: l) = insertAll (insertKey k v acc) l := rfl

mutual
theorem value_stored {t : Text} {v : Json} (h : Denotes t v) (r : Text) (f d : Nat) (hr : Stop r)
    (hd : depth v < d) (hf : 2 * (t.length + r.length) ≤ f) :
    value f d (t ++ r) = some (stored v, r) := by
  have hf1 : ∃ g, f = g + 1 := by
    obtain ⟨c, u, rfl, _⟩ := denotes_head h
    simp at hf
    exact ⟨f - 1, by omega⟩
  obtain ⟨g, rfl⟩ := hf1
  cases h with
  | null => rfl
  | «true» => rfl
  | «false» => rfl
  | int n =>
    have := readNumber_stored n hr
    obtain ⟨c, u, h3, h4⟩ := int_head n
    have hh := number_head h4
    rw [h3, List.cons_append] at this ⊢
    simp only [value, hh.2.2.2.1, hh.2.2.2.2.1, hh.2.2.2.2.2.1, hh.2.2.2.2.2.2.1, hh.2.2.2.2.2.2.2.1,
      hh.2.2.2.2.2.2.2.2, if_false]
    exact this
  | negZero => exact readNumber_negZero hr
  | float hfl =>
    have := readNumber_float hfl hr
    obtain ⟨c, u, h3, h4⟩ := float_head hfl
    have hh := number_head h4
    rw [h3, List.cons_append] at this ⊢
    simp only [value, hh.2.2.2.1, hh.2.2.2.2.1, hh.2.2.2.2.2.1, hh.2.2.2.2.2.2.1, hh.2.2.2.2.2.2.2.1,
      hh.2.2.2.2.2.2.2.2, if_false]
    rw [← h3] at this ⊢
    exact this
  | @str t s hc =>
    have := readStr_chars hc r
    simp only [List.cons_append, List.append_assoc, List.nil_append, value, if_true, this,
      Option.map_some, stored]
  | @emptyArr w hw =>
    rw [depth] at hd
    simp only [List.cons_append, List.append_assoc, List.nil_append, value]
    rw [if_neg (by decide), if_pos (by decide), if_neg (by omega), skipWs_append hw, skipWs_cons (by decide)]
    rfl
  | @arr t l he =>
    rw [depth] at hd
    simp only [List.cons_append, List.append_assoc, List.nil_append, value]
    rw [if_neg (by decide), if_pos (by decide), if_neg (by omega)]
    obtain ⟨c, u, h1, h2⟩ := elements_head he (']' :: r)
    have := elements_stored he r [] g (d - 1) (by omega) (by simp at hf ⊢; omega)
    rw [h1] at this ⊢
    simp only [if_neg h2]
    simpa [stored] using this
  | @emptyObj w hw =>
    rw [depth] at hd
    simp only [List.cons_append, List.append_assoc, List.nil_append, value]
    rw [if_neg (by decide), if_neg (by decide), if_pos (by decide), if_neg (by omega), skipWs_append hw,
      skipWs_cons (by decide)]
    have e : byKey [] = [] := by simp [byKey]
    simp only [if_true, stored, storedObj, e]
  | @obj t l he =>
    rw [depth] at hd
    simp only [List.cons_append, List.append_assoc, List.nil_append, value]
    rw [if_neg (by decide), if_neg (by decide), if_pos (by decide), if_neg (by omega)]
    obtain ⟨u, h1⟩ := members_head he ('}' :: r)
    have := members_stored he r [] g (d - 1) (by omega) (by simp at hf ⊢; omega)
    rw [h1] at this ⊢
    simp only
    rw [if_neg (by decide), this, insertAll_eq, stored]

theorem elements_stored {t : Text} {l : List Json} (h : Elements t l) (r : Text) (acc : List Json)
    (f d : Nat) (hd : depthArr l < d)
    (hf : 2 * (t.length + 1 + r.length) + 1 ≤ f) :
    elements f d acc (skipWs (t ++ ']' :: r)) = some (.arr (acc ++ storedArr l), r) := by
  obtain ⟨g, rfl⟩ : ∃ g, f = g + 1 := ⟨f - 1, by omega⟩
  cases h with
  | @one w t w' v hw hdn hw' =>
    rw [depthArr] at hd
    simp only [List.append_assoc]
    rw [skip_denotes hw hdn, elements, value_stored hdn (w' ++ ']' :: r) g d (stop_ws hw' (by simp) r)
      (by omega) (by simp at hf ⊢; omega)]
    simp only [skipWs_append hw', skipWs_cons (show isWs ']' = false by decide)]
    rfl
  | @cons w t w' v t' l hw hdn hw' he =>
    rw [depthArr] at hd
    simp only [List.append_assoc]
    rw [skip_denotes hw hdn, elements, value_stored hdn (w' ++ (',' :: t' ++ ']' :: r)) g d
      (stop_ws hw' (by simp) _) (by omega) (by simp at hf ⊢; omega)]
    rw [List.cons_append]
    simp only [skipWs_append hw', skipWs_cons (show isWs ',' = false by decide), if_true]
    rw [elements_stored he r (acc ++ [stored v]) g d (by omega)
      (by simp at hf ⊢; omega), storedArr]
    simp

theorem members_stored {t : Text} {l : List (Text × Json)} (h : Members t l) (r : Text)
    (acc : List (Text × Json)) (f d : Nat) (hd : depthObj l < d)
    (hf : 2 * (t.length + 1 + r.length) + 1 ≤ f) :
    members f d acc (skipWs (t ++ '}' :: r)) = some (.obj (insertAll acc (storedObj l)), r) := by
  obtain ⟨g, rfl⟩ : ∃ g, f = g + 1 := ⟨f - 1, by omega⟩
  cases h with
  | @one w q s w₁ w₂ t w' v hw hk hw1 hw2 hdn hw' =>
    rw [depthObj] at hd
    simp only [List.append_assoc, List.cons_append]
    rw [skipWs_append hw, skipWs_cons (by decide), members, if_pos rfl, readStr_chars hk]
    simp only [skipWs_append hw1, skipWs_cons (show isWs ':' = false by decide), if_true]
    rw [skip_denotes hw2 hdn, value_stored hdn (w' ++ '}' :: r) g d (stop_ws hw' (by simp) r)
      (by omega) (by simp at hf ⊢; omega)]
    simp only [skipWs_append hw', skipWs_cons (show isWs '}' = false by decide)]
    rfl
  | @cons w q s w₁ w₂ t w' v t' l hw hk hw1 hw2 hdn hw' he =>
    rw [depthObj] at hd
    simp only [List.append_assoc, List.cons_append]
    rw [skipWs_append hw, skipWs_cons (by decide), members, if_pos rfl, readStr_chars hk]
    simp only [skipWs_append hw1, skipWs_cons (show isWs ':' = false by decide), if_true]
    rw [skip_denotes hw2 hdn, value_stored hdn (w' ++ (',' :: (t' ++ '}' :: r))) g d
      (stop_ws hw' (by simp) _) (by omega) (by simp at hf ⊢; omega)]
    simp only [skipWs_append hw', skipWs_cons (show isWs ',' = false by decide), if_true]
    rw [members_stored he r (insertKey s (stored v) acc) g d (by omega) (by simp at hf ⊢; omega), storedObj,
      insertAll_cons]
end

/-- A JSON text of a value nested fewer than 128 deep is read. -/
theorem parse_stored {t : Text} {v : Json} (h : JsonText t v) (hd : depth v < 128) :
    parse t = some (stored v) := by
  obtain ⟨w, t', w', hw, hw', rfl, hdn⟩ := h
  unfold parse
  rw [skip_denotes hw hdn, value_stored hdn w' _ 128 (stop_end hw') hd (by simp; omega)]
  simp only [skipWs_ws hw']
  rfl

end JsonRead
end Tokens
