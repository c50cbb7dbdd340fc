import Verif.Proofs.Utf8

/-! `String::from_utf8_lossy`. -/

set_option linter.unusedSimpArgs false
set_option linter.unusedVariables false

namespace Tokens
open Input

theorem toNat_ofNat {n : Nat} (h : n < 256) : (UInt8.ofNat n).toNat = n := UInt8.toNat_ofNat_of_lt' h

theorem eq_ofNat {b : UInt8} {n : Nat} (h : b.toNat = n) : b = UInt8.ofNat n := by
  rw [← h]; simp

/-- An encoded character is scanned as a whole. -/
theorem scanChar_encode (c : Char) (rest : Bytes) :
    scanChar (String.utf8EncodeChar c ++ rest) = ((String.utf8EncodeChar c).length, true) := by
  have hv := c.valid
  have hv' : c.val.toNat < 0xd800 ∨ 0xdfff < c.val.toNat ∧ c.val.toNat < 0x110000 := hv
  unfold String.utf8EncodeChar
  generalize c.val.toNat = v at *
  simp only
  split
  · simp only [List.cons_append, List.nil_append, scanChar, List.getD_cons_zero, List.length_cons,
      List.length_nil]
    rw [toNat_ofNat (by omega), if_pos (by omega)]
  split
  · simp only [List.cons_append, List.nil_append, scanChar, List.getD_cons_zero, List.getD_cons_succ, List.length_cons,
      List.length_nil, charWidth, isCont]
    rw [toNat_ofNat (by omega), toNat_ofNat (by omega), if_neg (by omega), if_pos (by rw [if_pos (by omega)]),
      if_pos (by simp; omega)]
  split
  · simp only [List.cons_append, List.nil_append, scanChar, List.getD_cons_zero, List.getD_cons_succ, List.length_cons,
      List.length_nil, charWidth, isCont, second3]
    rw [toNat_ofNat (by omega), toNat_ofNat (by omega), toNat_ofNat (by omega), if_neg (by omega),
      if_neg (by rw [if_neg (by omega), if_pos (by omega)]; omega),
      if_pos (by rw [if_neg (by omega), if_pos (by omega)]), if_pos (by simp; omega), if_pos (by simp; omega)]
  · simp only [List.cons_append, List.nil_append, scanChar, List.getD_cons_zero, List.getD_cons_succ, List.length_cons,
      List.length_nil, charWidth, isCont, second4]
    rw [toNat_ofNat (by omega), toNat_ofNat (by omega), toNat_ofNat (by omega), toNat_ofNat (by omega), if_neg (by omega),
      if_neg (by rw [if_neg (by omega), if_neg (by omega), if_pos (by omega)]; omega),
      if_neg (by rw [if_neg (by omega), if_neg (by omega), if_pos (by omega)]; omega),
      if_pos (by rw [if_neg (by omega), if_neg (by omega), if_pos (by omega)]),
      if_pos (by simp; omega), if_pos (by simp; omega), if_pos (by simp; omega)]

theorem mkChar {v : Nat} (h : v < 0xd800 ∨ 0xdfff < v ∧ v < 0x110000) : ∃ c : Char, c.val.toNat = v := by
  refine ⟨⟨UInt32.ofNat v, ?_⟩, ?_⟩
  · show (UInt32.ofNat v).toNat < 0xd800 ∨ 0xdfff < (UInt32.ofNat v).toNat ∧ (UInt32.ofNat v).toNat < 0x110000
    rw [UInt32.toNat_ofNat_of_lt' (by simp [UInt32.size]; omega)]
    exact h
  · exact UInt32.toNat_ofNat_of_lt' (by simp [UInt32.size]; omega)

/-- What is scanned as a whole character is one. -/
theorem scanChar_true {s : Bytes} (hs : s ≠ []) (h : (scanChar s).2 = true) :
    ∃ c rest, s = String.utf8EncodeChar c ++ rest := by
  obtain ⟨b, s, rfl⟩ := List.exists_cons_of_ne_nil hs
  have hb := b.toNat_lt
  unfold scanChar at h
  simp only [List.getD_cons_zero, List.getD_cons_succ, charWidth] at h
  by_cases h1 : b.toNat < 128
  · obtain ⟨c, hc⟩ := mkChar (v := b.toNat) (by omega)
    refine ⟨c, s, ?_⟩
    unfold String.utf8EncodeChar
    simp only [hc]
    rw [if_pos (by omega)]
    simp
  rw [if_neg h1] at h
  have d0 : ∀ {x : UInt8}, isCont x = true → 128 ≤ x.toNat ∧ x.toNat ≤ 191 := by
    intro x hx; simpa [isCont] using hx
  have d1 : ∀ {t : Bytes} {k : Nat}, 128 ≤ (t.getD 0 0).toNat → ∃ x t', t = x :: t' := by
    intro t k hx
    cases t with
    | nil => simp at hx
    | cons x t' => exact ⟨x, t', rfl⟩
  by_cases h2 : 0xC2 ≤ b.toNat ∧ b.toNat ≤ 0xDF
  · rw [if_pos h2, if_pos rfl] at h
    by_cases g1 : isCont (s.getD 0 0) = true
    · obtain ⟨x, s, rfl⟩ := d1 (k := 0) (d0 g1).1
      simp only [List.getD_cons_zero] at g1
      have := d0 g1
      obtain ⟨c, hc⟩ := mkChar (v := (b.toNat - 192) * 64 + (x.toNat - 128)) (by omega)
      refine ⟨c, s, ?_⟩
      unfold String.utf8EncodeChar
      simp only [hc]
      rw [if_neg (by omega), if_pos (by omega)]
      simp only [List.cons_append, List.nil_append, List.cons.injEq]
      exact ⟨eq_ofNat (by omega), eq_ofNat (by omega), trivial⟩
    · rw [if_neg g1] at h; cases h
  rw [if_neg h2] at h
  by_cases h3 : 0xE0 ≤ b.toNat ∧ b.toNat ≤ 0xEF
  · rw [if_pos h3, if_neg (by decide), if_pos rfl] at h
    by_cases g1 : second3 b (s.getD 0 0) = true
    · rw [if_pos g1] at h
      by_cases g2 : isCont (s.getD 1 0) = true
      · have q1 : 128 ≤ (s.getD 0 0).toNat := by
          generalize s.getD 0 0 = q at g1 ⊢
          simp [second3, isCont] at g1; omega
        obtain ⟨x, s, rfl⟩ := d1 (k := 0) q1
        simp only [List.getD_cons_zero, List.getD_cons_succ] at g1 g2
        obtain ⟨y, s, rfl⟩ := d1 (k := 0) (d0 g2).1
        simp only [List.getD_cons_zero] at g2
        have e2 := d0 g2
        simp [second3, isCont] at g1
        obtain ⟨c, hc⟩ := mkChar (v := (b.toNat - 224) * 4096 + (x.toNat - 128) * 64 + (y.toNat - 128)) (by omega)
        refine ⟨c, s, ?_⟩
        unfold String.utf8EncodeChar
        simp only [hc]
        rw [if_neg (by omega), if_neg (by omega), if_pos (by omega)]
        simp only [List.cons_append, List.nil_append, List.cons.injEq]
        exact ⟨eq_ofNat (by omega), eq_ofNat (by omega), eq_ofNat (by omega), trivial⟩
      · rw [if_neg g2] at h; cases h
    · rw [if_neg g1] at h; cases h
  rw [if_neg h3] at h
  by_cases h4 : 0xF0 ≤ b.toNat ∧ b.toNat ≤ 0xF4
  · rw [if_pos h4, if_neg (by decide), if_neg (by decide), if_pos rfl] at h
    by_cases g1 : second4 b (s.getD 0 0) = true
    · rw [if_pos g1] at h
      by_cases g2 : isCont (s.getD 1 0) = true
      · rw [if_pos g2] at h
        by_cases g3 : isCont (s.getD 2 0) = true
        · have q1 : 128 ≤ (s.getD 0 0).toNat := by
            generalize s.getD 0 0 = q at g1 ⊢
            simp [second4, isCont] at g1; omega
          obtain ⟨x, s, rfl⟩ := d1 (k := 0) q1
          simp only [List.getD_cons_zero, List.getD_cons_succ] at g1 g2 g3
          obtain ⟨y, s, rfl⟩ := d1 (k := 0) (d0 g2).1
          simp only [List.getD_cons_zero, List.getD_cons_succ] at g2 g3
          obtain ⟨z, s, rfl⟩ := d1 (k := 0) (d0 g3).1
          simp only [List.getD_cons_zero] at g3
          have e2 := d0 g2
          have e3 := d0 g3
          simp [second4, isCont] at g1
          obtain ⟨c, hc⟩ := mkChar (v := (b.toNat - 240) * 262144 + (x.toNat - 128) * 4096 + (y.toNat - 128) * 64 + (z.toNat - 128)) (by omega)
          refine ⟨c, s, ?_⟩
          unfold String.utf8EncodeChar
          simp only [hc]
          rw [if_neg (by omega), if_neg (by omega), if_neg (by omega)]
          simp only [List.cons_append, List.nil_append, List.cons.injEq]
          exact ⟨eq_ofNat (by omega), eq_ofNat (by omega), eq_ofNat (by omega), eq_ofNat (by omega), trivial⟩
        · rw [if_neg g3] at h; cases h
      · rw [if_neg g2] at h; cases h
    · rw [if_neg g1] at h; cases h
  · rw [if_neg h4] at h
    simp at h

theorem lossy_nil : fromUtf8Lossy [] = [] := by unfold fromUtf8Lossy; simp

/-- A character is kept. -/
theorem lossy_char (c : Char) (rest : Bytes) :
    fromUtf8Lossy (String.utf8EncodeChar c ++ rest) = String.utf8EncodeChar c ++ fromUtf8Lossy rest := by
  obtain ⟨l, r, h, _⟩ := char_shape c
  rw [fromUtf8Lossy, dif_neg (by rw [h]; simp)]
  simp only [scanChar_encode, if_true]
  simp

theorem lossy_bad {s : Bytes} (hs : s ≠ []) (h : (scanChar s).2 = false) :
    fromUtf8Lossy s = replacement ++ fromUtf8Lossy (s.drop (scanChar s).1) := by
  rw [fromUtf8Lossy, dif_neg hs]
  simp only [h]
  simp

theorem lossy_text (cs : Text) (rest : Bytes) :
    fromUtf8Lossy (utf8Encode cs ++ rest) = utf8Encode cs ++ fromUtf8Lossy rest := by
  induction cs with
  | nil => rfl
  | cons c cs ih => rw [utf8Encode_cons, List.append_assoc, lossy_char, ih, List.append_assoc]

theorem replacement_eq : replacement = utf8Encode ['\uFFFD'] := by decide

/-- The result is valid. -/
theorem lossy_valid (s : Bytes) : validUtf8 (fromUtf8Lossy s) = true := by
  obtain ⟨n, hn⟩ : ∃ n, s.length ≤ n := ⟨_, Nat.le_refl _⟩
  induction n generalizing s with
  | zero =>
    have : s = [] := List.length_eq_zero_iff.1 (by omega)
    subst this
    rw [lossy_nil]; exact validUtf8_nil
  | succ n ih =>
    by_cases hs : s = []
    · subst hs; rw [lossy_nil]; exact validUtf8_nil
    have hl := List.length_pos_iff.2 hs
    cases h : (scanChar s).2 with
    | true =>
      obtain ⟨c, rest, rfl⟩ := scanChar_true hs h
      rw [lossy_char, ← utf8Encode_singleton]
      refine validUtf8_append (validUtf8_encode _) (ih rest ?_)
      obtain ⟨l, r, h, _⟩ := char_shape c
      rw [h] at hn
      simp at hn
      omega
    | false =>
      rw [lossy_bad hs h, replacement_eq]
      refine validUtf8_append (validUtf8_encode _) (ih _ ?_)
      have := scanChar_pos s
      rw [List.length_drop]
      omega

/-- Valid bytes are kept, and only they are. -/
theorem lossy_eq_iff (s : Bytes) : fromUtf8Lossy s = s ↔ validUtf8 s = true := by
  constructor
  · intro h; rw [← h]; exact lossy_valid s
  · intro h
    obtain ⟨cs, rfl⟩ := validUtf8_iff.1 h
    have := lossy_text cs []
    rwa [List.append_nil, lossy_nil, List.append_nil] at this

theorem lossy_ne_nil {s : Bytes} (h : s ≠ []) : fromUtf8Lossy s ≠ [] := by
  cases hs : (scanChar s).2 with
  | true =>
    obtain ⟨c, rest, rfl⟩ := scanChar_true h hs
    obtain ⟨l, r, h', _⟩ := char_shape c
    rw [lossy_char, h']
    simp
  | false => rw [lossy_bad h hs]; simp [replacement]

/-! ### Cut characters -/

theorem isCont_not_start (b : UInt8) (h : isCharStart b = false) : 128 ≤ b.toNat ∧ b.toNat < 192 := by
  simp [isCharStart, UInt8.lt_iff_toNat_lt, UInt8.le_iff_toNat_le] at h
  exact h

/-- Continuation bytes are replaced one by one. -/
theorem lossy_conts (x rest : Bytes) (h : ∀ b ∈ x, isCharStart b = false) :
    fromUtf8Lossy (x ++ rest) = (List.replicate x.length replacement).flatten ++ fromUtf8Lossy rest := by
  induction x with
  | nil => rfl
  | cons b x ih =>
    have hb := isCont_not_start b (h b (by simp))
    have hs : scanChar (b :: (x ++ rest)) = (1, false) := by
      have hw : charWidth b = 0 := by
        unfold charWidth
        rw [if_neg (by omega), if_neg (by omega), if_neg (by omega)]
      simp only [scanChar, List.getD_cons_zero, hw]
      rw [if_neg (by omega), if_neg (by decide), if_neg (by decide), if_neg (by decide)]
    rw [List.cons_append, lossy_bad (by simp) (by rw [hs]), hs]
    simp only [List.drop_one, List.tail_cons, List.length_cons, List.replicate_succ, List.flatten_cons,
      List.append_assoc]
    rw [ih (fun b hb => h b (by simp [hb]))]

/-- The beginning of a character, at the end, is replaced as a whole. -/
theorem lossy_prefix {c : Char} {y y' : Bytes} (hy : y ≠ []) (hy' : y' ≠ [])
    (h : String.utf8EncodeChar c = y ++ y') : fromUtf8Lossy y = replacement := by
  have hfull := scanChar_encode c []
  rw [List.append_nil] at hfull
  have key : scanChar y = (y.length, false) := by
    have hlen : (String.utf8EncodeChar c).length = y.length + y'.length := by rw [h, List.length_append]
    have hl := List.length_pos_iff.2 hy'
    rw [hlen, h] at hfull
    have hbad : ∀ {m n : Nat} {v : Bool}, (m, v) = (n, true) → m ≠ n → False := by
      intro m n v e h; exact h (congrArg Prod.fst e)
    match y, hy with
    | [b], _ =>
      simp only [scanChar, List.cons_append, List.nil_append, List.getD_cons_zero, List.getD_cons_succ, List.length_cons, List.length_nil] at hfull ⊢
      have g : ¬ b.toNat < 128 := by
        intro hb
        rw [if_pos hb] at hfull
        exact hbad hfull (by omega)
      rw [if_neg g]
      simp only [List.getD_nil, isCont, second3, second4]
      simp
    | [b, x], _ =>
      simp only [scanChar, List.cons_append, List.nil_append, List.getD_cons_zero, List.getD_cons_succ, List.getD_nil, List.length_cons, List.length_nil] at hfull ⊢
      split at hfull
      · exact (hbad hfull (by omega)).elim
      split at hfull
      · split at hfull <;> exact (hbad hfull (by omega)).elim
      rw [if_neg (by assumption), if_neg (by assumption)]
      split at hfull
      · rw [if_pos (by assumption)]
        split at hfull
        · rw [if_pos (by assumption)]; rfl
        · exact (hbad hfull (by omega)).elim
      rw [if_neg (by assumption)]
      split at hfull
      · rw [if_pos (by assumption)]
        split at hfull
        · rw [if_pos (by assumption)]; rfl
        · exact (hbad hfull (by omega)).elim
      · exact (hbad hfull (by omega)).elim
    | [b, x, z], _ =>
      simp only [scanChar, List.cons_append, List.nil_append, List.getD_cons_zero, List.getD_cons_succ, List.getD_nil, List.length_cons, List.length_nil] at hfull ⊢
      split at hfull
      · exact (hbad hfull (by omega)).elim
      split at hfull
      · split at hfull <;> exact (hbad hfull (by omega)).elim
      rw [if_neg (by assumption), if_neg (by assumption)]
      split at hfull
      · split at hfull
        · split at hfull <;> exact (hbad hfull (by omega)).elim
        · exact (hbad hfull (by omega)).elim
      rw [if_neg (by assumption)]
      split at hfull
      · rw [if_pos (by assumption)]
        split at hfull
        · rw [if_pos (by assumption)]
          split at hfull
          · rw [if_pos (by assumption)]; rfl
          · exact (hbad hfull (by omega)).elim
        · exact (hbad hfull (by omega)).elim
      · exact (hbad hfull (by omega)).elim
    | b :: x :: z :: w :: t, _ =>
      obtain ⟨l, r, e, _, _, h3, _⟩ := char_shape c
      rw [e] at hlen
      simp at hlen
      omega
  rw [lossy_bad hy (by rw [key]), key]
  simp [lossy_nil]

/-- A piece of valid text after `from_utf8_lossy`. -/
theorem lossy_piece (text : Text) (a p b : Bytes) (h : utf8Encode text = a ++ p ++ b) :
    ∃ (x : Bytes) (w : Text) (y : Bytes), p = x ++ utf8Encode w ++ y ∧
      (x.length ≤ 3 ∧ (∀ c ∈ x, isCharStart c = false) ∧ (a = [] → x = [])) ∧
      (y.length ≤ 3 ∧ (y = [] ∨ ∃ d y', y' ≠ [] ∧ String.utf8EncodeChar d = y ++ y') ∧ (b = [] → y = [])) ∧
      (w ≠ [] → ∃ t1 t2, text = t1 ++ w ++ t2 ∧ utf8Encode t1 = a ++ x) ∧
      fromUtf8Lossy p = (List.replicate x.length replacement).flatten ++ utf8Encode w ++
        (if y = [] then [] else replacement) := by
  have hx0 : ∀ c ∈ p.takeWhile (fun c => !isCharStart c), isCharStart c = false := by
    intro c hc
    have := List.all_takeWhile (p := fun c => !isCharStart c) (l := p)
    rw [List.all_eq_true] at this
    simpa using this c hc
  have hpx : p.takeWhile (fun c => !isCharStart c) ++ p.dropWhile (fun c => !isCharStart c) = p :=
    List.takeWhile_append_dropWhile
  have hrest : ∀ c, (p.dropWhile (fun c => !isCharStart c)).head? = some c → isCharStart c = true := by
    intro c hc
    have := List.head?_dropWhile_not (fun c => !isCharStart c) p
    rw [hc] at this
    simpa using this
  generalize p.takeWhile (fun c => !isCharStart c) = x at *
  generalize p.dropWhile (fun c => !isCharStart c) = q at *
  subst hpx
  -- the length of x
  have hxl : x.length ≤ 3 ∧ (a = [] → x = []) := by
    obtain ⟨c1, c2, r, h1, h2, h3⟩ := encode_prefix text a (x ++ q ++ b) (by rw [h]; simp)
    have hz : ∀ cs : Text, ∀ z, utf8Encode cs = x ++ z → x = [] := by
      intro cs z hz
      cases x with
      | nil => rfl
      | cons c x =>
        have := utf8Encode_head cs c (by rw [hz]; rfl)
        rw [hx0 c (by simp)] at this
        cases this
    rcases h3 with rfl | ⟨d, ds, r', h3, h4, h5⟩
    · have hx : x = [] := by
        apply hz c2 (q ++ b)
        have := h
        rw [h1, utf8Encode_append, h2, List.append_nil] at this
        simpa using this
      subst hx
      exact ⟨by simp, fun _ => rfl⟩
    · have e : r' ++ utf8Encode ds = x ++ (q ++ b) := by
        have := h
        rw [h1, utf8Encode_append, h2, h3, utf8Encode_cons, h5] at this
        simpa using this
      obtain ⟨l, t, e1, _, _, e2, _⟩ := char_shape d
      by_cases hr : r = []
      · subst hr
        have hx : x = [] := hz (d :: ds) (q ++ b) (by rw [utf8Encode_cons, h5]; simpa using e)
        subst hx
        exact ⟨by simp, fun _ => rfl⟩
      refine ⟨?_, ?_⟩
      · have hr1 : r'.length ≤ 3 := by
          have := congrArg List.length h5
          rw [e1] at this
          simp at this
          have := List.length_pos_iff.2 hr
          omega
        have hle : x.length ≤ r'.length := by
          by_contra hlt
          rcases List.append_eq_append_iff.1 e with ⟨z, g1, g2⟩ | ⟨z, g1, g2⟩
          · cases z with
            | nil => rw [g1] at hlt; simp at hlt
            | cons c z =>
              have := utf8Encode_head ds c (by rw [g2]; rfl)
              rw [hx0 c (by rw [g1]; simp)] at this
              cases this
          · rw [g1] at hlt; simp at hlt
        omega
      · intro ha
        rw [ha] at h2
        exact absurd (List.append_eq_nil_iff.1 h2.symm).2 hr
  cases hq : q with
  | nil =>
    refine ⟨x, [], [], by simp, ⟨hxl.1, hx0, hxl.2⟩, ⟨by simp, .inl rfl, fun _ => rfl⟩, fun h => absurd rfl h, ?_⟩
    rw [lossy_conts x [] hx0, lossy_nil]
    simp
  | cons c q' =>
    rw [hq] at h hrest
    obtain ⟨t1, t2, h1, h2, h3⟩ := encode_split text (a ++ x) (c :: q' ++ b) (by rw [h]; simp)
      (fun z hz => hrest z (by simpa using hz))
    obtain ⟨w, u, y, g1, g2, g3⟩ := encode_prefix t2 (c :: q') b h3.symm
    have hy3 : y.length ≤ 3 ∧ (y = [] ∨ ∃ d y', y' ≠ [] ∧ String.utf8EncodeChar d = y ++ y') := by
      rcases g3 with rfl | ⟨d, ds, y', _, g4, g5⟩
      · exact ⟨by simp, .inl rfl⟩
      · refine ⟨?_, .inr ⟨d, y', g4, g5⟩⟩
        obtain ⟨l, t, e1, _, _, e2, _⟩ := char_shape d
        have := congrArg List.length g5
        rw [e1] at this
        simp at this
        have := List.length_pos_iff.2 g4
        omega
    refine ⟨x, w, y, by rw [g2]; simp, ⟨hxl.1, hx0, hxl.2⟩, ⟨hy3.1, hy3.2, ?_⟩, ?_, ?_⟩
    · rintro rfl
      rcases g3 with rfl | ⟨d, ds, y', g3, g4, g5⟩
      · rfl
      · exfalso
        rw [g1, utf8Encode_append, g3, utf8Encode_cons, g5, List.append_nil, g2] at h3
        have := congrArg List.length h3
        simp only [List.length_append] at this
        have := List.length_pos_iff.2 g4
        omega
    · intro _
      exact ⟨t1, u, by rw [h1, g1]; simp, h2.symm⟩
    · rw [lossy_conts x _ hx0, g2, lossy_text, List.append_assoc]
      congr 2
      rcases hy3.2 with rfl | ⟨d, y', g4, g5⟩
      · rw [lossy_nil]; rfl
      · by_cases hy : y = []
        · subst hy; rw [lossy_nil]; rfl
        · rw [if_neg hy, lossy_prefix hy g4 g5]

end Tokens
