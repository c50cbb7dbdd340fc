import Verif.Spec.Readme
import Verif.Proofs.Processing

/-! The decoder of the README undoes `process`; words are written the same in every context. -/

set_option linter.unusedSimpArgs false
set_option linter.unusedVariables false

namespace Tokens.Processing
open Spec
variable {db : CharTables} {K : Char → Prop} {up : Char → Char}

theorem decode_cap (m : Caps) (t : List Char) :
    readmeDecode db up m (Char.ofNat 0x14 :: t) = readmeDecode db up .first t := by
  cases m <;> rw [readmeDecode, if_pos rfl]

theorem decode_caps (m : Caps) (t : List Char) :
    readmeDecode db up m (Char.ofNat 0x15 :: t) = readmeDecode db up .all t := by
  cases m <;> rw [readmeDecode, if_neg (by decide), if_pos rfl]

theorem decode_first {c : Char} (h : c ≠ Char.ofNat 0x14 ∧ c ≠ Char.ofNat 0x15 ∧ c ≠ Char.ofNat 0x16)
    (t : List Char) :
    readmeDecode db up .first (c :: t) = up c :: readmeDecode db up .asIs t := by
  rw [readmeDecode, if_neg h.1, if_neg h.2.1, if_neg h.2.2]

theorem decode_plain (hK : Restores db K up) (w t : List Char) (hw : ∀ c ∈ w, K c) :
    readmeDecode db up .asIs (w ++ t) = w ++ readmeDecode db up .asIs t := by
  induction w with
  | nil => rfl
  | cons c w ih =>
    have hc := hw c (by simp)
    have h1 : c ≠ Char.ofNat 0x14 := fun e => hK.noMarker.1 (e ▸ hc)
    have h2 : c ≠ Char.ofNat 0x15 := fun e => hK.noMarker.2.1 (e ▸ hc)
    have h3 : c ≠ Char.ofNat 0x16 := fun e => hK.noMarker.2.2 (e ▸ hc)
    rw [List.cons_append, readmeDecode, if_neg h1, if_neg h2, if_neg h3]
    simp only [List.cons_append]
    rw [ih (fun x hx => hw x (by simp [hx]))]

theorem decode_all (hK : Restores db K up) (w t : List Char)
    (hw : ∀ c ∈ w, K c ∧ db.isUppercase c = true) :
    readmeDecode db up .all (w.map db.lowerFirst ++ t) = w ++ readmeDecode db up .all t := by
  induction w with
  | nil => rfl
  | cons c w ih =>
    have hc := hw c (by simp)
    have h := hK.lowNoMarker c hc.1 hc.2
    rw [List.map_cons, List.cons_append, readmeDecode, if_neg h.1, if_neg h.2.1, if_neg h.2.2]
    simp only [List.cons_append]
    rw [hK.back c hc.1 hc.2, ih (fun x hx => hw x (by simp [hx]))]

theorem decode_end (m : Caps) (t : List Char) :
    readmeDecode db up m (Char.ofNat 0x16 :: t) =
      (if wordStarts db t then [' '] else []) ++ readmeDecode db up .asIs t := by
  cases m <;> rw [readmeDecode, if_neg (by decide), if_neg (by decide), if_pos rfl] <;>
    split <;> simp

theorem decode_word (hK : Restores db K up) (w t : List Char) (hw : ∀ c ∈ w, K c) (hne : w ≠ []) :
    readmeDecode db up .asIs (caseMarked db w ++ [Char.ofNat 0x16] ++ t) =
      w ++ (if wordStarts db t then [' '] else []) ++ readmeDecode db up .asIs t := by
  rw [List.append_assoc, List.append_assoc, ← decode_end .asIs, List.singleton_append]
  cases w with
  | nil => exact absurd rfl hne
  | cons c r =>
    have hc := hw c (by simp)
    have hr : ∀ x ∈ r, K x := fun x hx => hw x (by simp [hx])
    rw [caseMarked]
    split
    · rename_i h
      have g := hK.lowNoMarker c hc h.1
      rw [List.cons_append, List.cons_append, decode_cap, decode_first g,
        hK.back c hc h.1, decode_plain hK _ _ hr]
      rfl
    · split
      · rename_i h
        have hall : ∀ x ∈ c :: r, K x ∧ db.isUppercase x = true := by
          intro x hx
          rcases List.mem_cons.1 hx with rfl | hx
          · exact ⟨hc, h.1⟩
          · exact ⟨hr x hx, h.2 x hx⟩
        rw [List.cons_append, decode_caps, hK.word _ hall,
          decode_all hK _ _ hall, decode_end, decode_end]
      · rw [decode_plain hK _ _ hw]

theorem wordStarts_word (w : List Char) (l : List Item) (hw : w ≠ [])
    (hl : ∀ c ∈ w, db.isAlphabetic c = true) : wordStarts db (rewritten db (.word w :: l)) = true := by
  obtain ⟨c, r, h1, h2⟩ := rewritten_word_head (db := db) w l hw hl
  rw [h1, wordStarts]
  rcases h2 with h | h | h <;> simp [h]

theorem decode_rewritten (hK : Restores db K up) (n : Nat) : ∀ l : List Item, l.length ≤ n →
    Maximal db l → (∀ c ∈ textOf l, K c) →
    readmeDecode db up .asIs (rewritten db l) = textOf l := by
  induction n with
  | zero =>
    intro l hl _ _
    have : l = [] := List.length_eq_zero_iff.1 (by omega)
    subst this
    rfl
  | succ n ih =>
    intro l hl hm hk
    match l with
    | [] => rfl
    | .other c :: l =>
      have h := decode_plain hK [c] (rewritten db l) (by
        intro x hx
        rw [List.mem_singleton] at hx
        subst hx
        exact hk _ (by simp [textOf]))
      rw [rewritten, ← List.singleton_append, h, ih l (by simp at hl; omega) hm.2
        (fun c hc => hk c (by simp [textOf, hc]))]
      rfl
    | .word w :: l =>
      have hkw : ∀ c ∈ w, K c := fun c hc => hk c (by simp [textOf, hc])
      by_cases hs : ∃ v l', l = .other ' ' :: .word v :: l'
      · obtain ⟨v, l', rfl⟩ := hs
        have hv := hm.2.2.2.2
        rw [rewritten, decode_word hK _ _ hkw hm.1, wordStarts_word v l' hv.1 hv.2.1, if_pos rfl,
          ih (.word v :: l') (by simp at hl ⊢; omega) hv (fun c hc => hk c (by
            simp only [textOf, List.mem_append, List.mem_cons] at hc ⊢
            exact .inr (.inr hc)))]
        simp [textOf]
      · have hns : wordStarts db (rewritten db l) = false := by
          match l with
          | [] => rfl
          | .word v :: l' => exact absurd rfl (hm.2.2.1 v l')
          | .other c :: l' =>
            have hc : K c := hk c (by simp [textOf])
            have h1 : c ≠ Char.ofNat 0x14 := fun e => hK.noMarker.1 (e ▸ hc)
            have h2 : c ≠ Char.ofNat 0x15 := fun e => hK.noMarker.2.1 (e ▸ hc)
            rw [rewritten, wordStarts]
            simp [h1, h2, hm.2.2.2.1]
        rw [rewritten_word_not_space w (fun v l' e => hs ⟨v, l', e⟩), decode_word hK _ _ hkw hm.1, hns,
          ih l (by simp at hl; omega) hm.2.2.2 (fun c hc => hk c (by simp [textOf, hc]))]
        simp [textOf]

theorem decode_process (hK : Restores db K up) (text : List Char) (h : ∀ c ∈ text, K c) :
    ∃ z, process db text = .ok z ∧ readmeDecode db up .asIs z = text := by
  obtain ⟨l, hm, rfl⟩ := exists_items db text
  exact ⟨_, process_items hm, decode_rewritten hK l.length l (Nat.le_refl _) hm h⟩

theorem toUpper_toLower {a : Char} (h : a.isUpper = true) : a.toLower.toUpper = a := by
  have h1 : 65 ≤ a.toNat ∧ a.toNat ≤ 90 := by
    simpa [Char.isUpper, UInt32.le_iff_toNat_le] using h
  have h2 : ∀ n < 91, 65 ≤ n → (Char.ofNat n).toLower.toUpper = Char.ofNat n := by decide
  have := h2 a.toNat (by omega) h1.1
  rwa [Char.ofNat_toNat] at this

theorem toLower_noMarker {a : Char} (h : a.isUpper = true) : a.toLower ≠ Char.ofNat 0x14 ∧
    a.toLower ≠ Char.ofNat 0x15 ∧ a.toLower ≠ Char.ofNat 0x16 := by
  have h1 : 65 ≤ a.toNat ∧ a.toNat ≤ 90 := by
    simpa [Char.isUpper, UInt32.le_iff_toNat_le] using h
  have h2 : ∀ n < 91, 65 ≤ n → (Char.ofNat n).toLower ≠ Char.ofNat 0x14 ∧
    (Char.ofNat n).toLower ≠ Char.ofNat 0x15 ∧ (Char.ofNat n).toLower ≠ Char.ofNat 0x16 := by decide
  have := h2 a.toNat (by omega) h1.1
  rwa [Char.ofNat_toNat] at this

theorem ascii_restores (h : AsciiTables db) : Restores db PlainAscii Char.toUpper where
  noMarker := ⟨fun h => h.2.1 rfl, fun h => h.2.2.1 rfl, fun h => h.2.2.2 rfl⟩
  back := by
    intro a ha hu
    rw [h.lowerFirst a ha.1]
    exact toUpper_toLower (by rwa [h.upper a ha.1] at hu)
  lowNoMarker := by
    intro a ha hu
    rw [h.lowerFirst a ha.1]
    exact toLower_noMarker (by rwa [h.upper a ha.1] at hu)
  word := by
    intro w hw
    rw [h.lowerStr w (fun c hc => (hw c hc).1.1)]
    exact List.map_congr_left (fun c hc => (h.lowerFirst c (hw c hc).1.1).symm)

/-! ### Words in context -/

theorem process_word (w : List Char) (hw : IsWord db w) :
    process db w = .ok (caseMarked db w ++ [Char.ofNat 0x16]) := by
  have hm : Maximal db [.word w] := ⟨hw.1, hw.2, by simp, trivial⟩
  have := process_items hm
  rw [rewritten_word_not_space w (by simp)] at this
  simpa [textOf, rewritten] using this

theorem process_spaced (hsp : db.isAlphabetic ' ' = false) (ws : List (List Char))
    (h : ∀ w ∈ ws, IsWord db w) :
    process db (spaced ws) = .ok (ws.flatMap fun w => caseMarked db w ++ [Char.ofNat 0x16]) := by
  have key : ∀ ws : List (List Char), (∀ w ∈ ws, IsWord db w) → ∃ l, Maximal db l ∧
      textOf l = spaced ws ∧
      rewritten db l = ws.flatMap (fun w => caseMarked db w ++ [Char.ofNat 0x16]) ∧
      (ws = [] → l = []) ∧ ∀ v vs, ws = v :: vs → ∃ l', l = .word v :: l' := by
    intro ws
    induction ws with
    | nil => intro _; exact ⟨[], trivial, rfl, rfl, fun _ => rfl, by simp⟩
    | cons w ws ih =>
      intro h
      obtain ⟨l, h1, h2, h3, h4, h5⟩ := ih (fun x hx => h x (by simp [hx]))
      have hw := h w (by simp)
      cases ws with
      | nil =>
        refine ⟨[.word w], ⟨hw.1, hw.2, by simp, trivial⟩, by simp [textOf, spaced], ?_, by simp, ?_⟩
        · rw [rewritten_word_not_space w (by simp)]; simp [rewritten]
        · intro v vs e
          simp only [List.cons.injEq] at e
          rw [e.1]
          exact ⟨_, rfl⟩
      | cons v vs =>
        obtain ⟨l', rfl⟩ := h5 v vs rfl
        refine ⟨.word w :: .other ' ' :: .word v :: l', ⟨hw.1, hw.2, by simp, hsp, h1⟩, ?_, ?_, by simp, ?_⟩
        · simp only [textOf] at h2 ⊢
          rw [h2, spaced]
        · rw [rewritten, h3]
          simp
        · intro v vs e
          simp only [List.cons.injEq] at e
          rw [e.1]
          exact ⟨_, rfl⟩
  obtain ⟨l, h1, h2, h3, _⟩ := key ws h
  rw [← h2, process_items h1, h3]

/-- The rewriting up to a word and from it on. -/
theorem rewritten_around (w : List Char) (b : List Item) (n : Nat) : ∀ a : List Item, a.length ≤ n →
    ∃ x y, rewritten db (a ++ .word w :: b) = x ++ (caseMarked db w ++ [Char.ofNat 0x16]) ++ y := by
  have word : ∀ (u : List Char) (l : List Item), ∃ y, rewritten db (.word u :: l) =
      caseMarked db u ++ [Char.ofNat 0x16] ++ y := by
    intro u l
    by_cases hs : ∃ v l', l = .other ' ' :: .word v :: l'
    · obtain ⟨v, l', rfl⟩ := hs
      exact ⟨_, by rw [rewritten]⟩
    · exact ⟨_, by rw [rewritten_word_not_space u (fun v l' e => hs ⟨v, l', e⟩)]⟩
  induction n with
  | zero =>
    intro a ha
    have : a = [] := List.length_eq_zero_iff.1 (by omega)
    subst this
    obtain ⟨y, h⟩ := word w b
    exact ⟨[], y, by rw [List.nil_append, h, List.nil_append]⟩
  | succ n ih =>
    intro a ha
    match a, ha with
    | [], _ =>
      obtain ⟨y, h⟩ := word w b
      exact ⟨[], y, by rw [List.nil_append, h, List.nil_append]⟩
    | .other c :: a, ha =>
      obtain ⟨x, y, h⟩ := ih a (by simp at ha; omega)
      refine ⟨c :: x, y, ?_⟩
      rw [List.cons_append, rewritten, h]
      simp
    | .word u :: a, ha =>
      rw [List.cons_append]
      by_cases hs : ∃ v l', a ++ Item.word w :: b = .other ' ' :: .word v :: l'
      · obtain ⟨v, l', e⟩ := hs
        cases a with
        | nil => simp at e
        | cons i a =>
          rw [List.cons_append, List.cons.injEq] at e
          obtain ⟨rfl, e⟩ := e
          obtain ⟨x, y, h⟩ := ih a (by simp at ha; omega)
          rw [List.cons_append, e, rewritten, ← e, h]
          exact ⟨caseMarked db u ++ [Char.ofNat 0x16] ++ x, y, by simp⟩
      · obtain ⟨x, y, h⟩ := ih a (by simp at ha; omega)
        rw [rewritten_word_not_space u (fun v l' e => hs ⟨v, l', e⟩), h]
        exact ⟨caseMarked db u ++ [Char.ofNat 0x16] ++ x, y, by simp⟩

theorem maximal_append_word {w : List Char} (hw : IsWord db w) {a b : List Item} (ha : Maximal db a)
    (hb : Maximal db b) (hae : ∀ v a', a ≠ a' ++ [.word v]) (hbs : ∀ v b', b ≠ .word v :: b') :
    Maximal db (a ++ .word w :: b) := by
  induction a with
  | nil => exact ⟨hw.1, hw.2, hbs, hb⟩
  | cons i a ih =>
    have hae' : ∀ v a', a ≠ a' ++ [.word v] := fun v a' e => hae v (i :: a') (by rw [e]; rfl)
    match i, ha with
    | .other c, ha => exact ⟨ha.1, ih ha.2 hae'⟩
    | .word u, ha =>
      refine ⟨ha.1, ha.2.1, ?_, ih ha.2.2.2 hae'⟩
      intro v l' e
      cases a with
      | nil => exact hae u [] rfl
      | cons j a =>
        have e' : j = Item.word v := (List.cons.inj e).1
        exact ha.2.2.1 v a (by rw [e'])

theorem textOf_word_end {a : List Item} {v : List Char} (ha : Maximal db (a ++ [.word v])) :
    ∃ c, (textOf (a ++ [.word v])).getLast? = some c ∧ db.isAlphabetic c = true := by
  have hv : v ≠ [] ∧ ∀ c ∈ v, db.isAlphabetic c = true := by
    induction a with
    | nil => exact ⟨ha.1, ha.2.1⟩
    | cons i a ih =>
      match i, ha with
      | .other c, ha => exact ih ha.2
      | .word u, ha => exact ih ha.2.2.2
  refine ⟨v.getLast hv.1, ?_, hv.2 _ (List.getLast_mem hv.1)⟩
  rw [textOf_append]
  simp [textOf, List.getLast?_append, List.getLast?_eq_some_getLast hv.1]

theorem textOf_word_start {b : List Item} {v : List Char} (hb : Maximal db (.word v :: b)) :
    ∃ c, (textOf (.word v :: b)).head? = some c ∧ db.isAlphabetic c = true := by
  cases hv : v with
  | nil => exact absurd hv hb.1
  | cons c r => exact ⟨c, by simp [textOf], hb.2.1 c (by simp [hv])⟩

theorem process_around (w x y : List Char) (hw : IsWord db w)
    (hx : ∀ c, x.getLast? = some c → db.isAlphabetic c = false)
    (hy : ∀ c, y.head? = some c → db.isAlphabetic c = false) :
    ∃ p q, process db (x ++ w ++ y) = .ok (p ++ (caseMarked db w ++ [Char.ofNat 0x16]) ++ q) := by
  obtain ⟨a, ha, rfl⟩ := exists_items db x
  obtain ⟨b, hb, rfl⟩ := exists_items db y
  have hm := maximal_append_word hw ha hb
    (by
      rintro v a' rfl
      obtain ⟨c, h1, h2⟩ := textOf_word_end ha
      rw [hx c h1] at h2
      cases h2)
    (by
      rintro v b' rfl
      obtain ⟨c, h1, h2⟩ := textOf_word_start hb
      rw [hy c h1] at h2
      cases h2)
  have e := process_items hm
  rw [textOf_append] at e
  simp only [textOf] at e
  obtain ⟨p, q, h⟩ := rewritten_around (db := db) w b a.length a (Nat.le_refl _)
  refine ⟨p, q, ?_⟩
  rw [List.append_assoc, e, h]

end Tokens.Processing
