import Verif.Proofs.CountChars
import Verif.Proofs.Processing

/-! `process_file` on the bytes of a file. -/

set_option linter.unusedSimpArgs false
set_option linter.unusedVariables false

namespace Tokens
open Spec Input Main Processing

theorem chomp_line (l : Text) : chomp (l ++ ['\n']) = strip l := by
  unfold chomp strip
  simp

theorem chomp_rest {r : Text} (h : '\n' ∉ r) : chomp r = r := by
  unfold chomp
  rw [if_neg]
  intro e
  exact h (List.mem_of_getLast? e)

theorem newline_encode {l : Text} (h : '\n' ∉ l) : (10 : UInt8) ∉ utf8Encode l := by
  intro h10
  obtain ⟨a, b, e⟩ := List.append_of_mem h10
  obtain ⟨c1, c2, h1, h2, h3⟩ := encode_split_ascii l a b 10 (by decide) e
  have hne : c1 ≠ [] := by rintro rfl; simp at h2
  obtain ⟨c1, x, rfl⟩ : ∃ c x, c1 = c ++ [x] := ⟨_, _, (List.dropLast_append_getLast hne).symm⟩
  rw [utf8Encode_append, utf8Encode_singleton] at h2
  obtain ⟨f, r, k1, k2, k3, _, k4⟩ := char_shape x
  rw [k1] at h2
  have hr : r = [] := by
    by_contra hr
    obtain ⟨r', y, rfl⟩ : ∃ c x, r = c ++ [x] := ⟨_, _, (List.dropLast_append_getLast hr).symm⟩
    have h2' : a ++ [10] = (utf8Encode c1 ++ f :: r') ++ [y] := by simpa using h2
    have : y = 10 := by simpa using (List.append_inj' h2' rfl).2.symm
    have h' := k3 y (by simp)
    rw [this] at h'
    cases h'
  subst hr
  have hf : f = 10 := by simpa using (List.append_inj' h2 rfl).2.symm
  have hx : x = '\n' := by
    have : utf8Encode [x] = utf8Encode ['\n'] := by
      rw [utf8Encode_singleton, k1, hf]
      rfl
    simpa using utf8Encode_inj this
  exact h (by rw [h1, hx]; simp)

theorem splitLines_line (u rest : Bytes) (h : (10 : UInt8) ∉ u) :
    splitLines (u ++ 10 :: rest) = (u ++ [10]) :: splitLines rest := by
  induction u with
  | nil => simp [splitLines]
  | cons b u ih =>
    simp only [List.mem_cons, not_or] at h
    rw [List.cons_append, splitLines, if_neg (fun e => h.1 e.symm), ih h.2]
    rfl

theorem splitLines_last (u : Bytes) (h : (10 : UInt8) ∉ u) : splitLines u = if u = [] then [] else [u] := by
  induction u with
  | nil => rfl
  | cons b u ih =>
    simp only [List.mem_cons, not_or] at h
    rw [splitLines, if_neg (fun e => h.1 e.symm), ih h.2]
    cases u <;> rfl

theorem splitLines_text (ls : List Text) (r : Text) (h : ∀ l ∈ ls, '\n' ∉ l) (hr : '\n' ∉ r) (rest : Bytes)
    (hrest : rest = utf8Encode r ∨ r = []) :
    splitLines (utf8Encode (ls.flatMap (· ++ ['\n'])) ++ rest) =
      (ls.map (fun l => utf8Encode (l ++ ['\n']))) ++ splitLines rest := by
  induction ls with
  | nil => rfl
  | cons l ls ih =>
    rw [List.flatMap_cons, utf8Encode_append, utf8Encode_append, utf8Encode_singleton]
    have : String.utf8EncodeChar '\n' = [10] := by decide
    rw [this, List.append_assoc, List.append_assoc, List.singleton_append,
      splitLines_line _ _ (newline_encode (h l (by simp))), ih (fun l hl => h l (by simp [hl]))]
    simp only [List.map_cons, List.cons_append, utf8Encode_append, utf8Encode_singleton, this]

theorem loop_lines (db : CharTables) (ls : List Text) (rest : List Bytes) (w : Bytes) (z : Text) :
    (∀ w', processLines db w' (ls.map chomp) = .ok (w' ++ z)) →
    processBytesLoop db w (ls.map utf8Encode ++ rest) = processBytesLoop db (w ++ utf8Encode z) rest := by
  induction ls generalizing w z with
  | nil =>
    intro h
    have := h []
    simp only [List.map_nil, processLines, List.nil_append] at this
    have := Except.ok.inj this
    subst this
    simp
  | cons l ls ih =>
    intro h
    simp only [List.map_cons, processLines] at h
    cases hp : process db (chomp l) with
    | error e => have := h []; rw [hp] at this; cases this
    | ok p =>
      simp only [hp, R.ok_bind] at h
      have hsplit : ∃ z', z = p ++ ['\n'] ++ z' ∧ ∀ w', processLines db w' (ls.map chomp) = .ok (w' ++ z') := by
        have key : ∀ (xs : List Text) (a b : Text), processLines db a xs = .ok b → ∃ z', b = a ++ z' ∧
            ∀ w', processLines db w' xs = .ok (w' ++ z') := by
          intro xs
          induction xs with
          | nil =>
            intro a b hab
            exact ⟨[], by simpa [processLines] using (Except.ok.inj hab).symm, fun w' => by simp [processLines]⟩
          | cons x xs ihx =>
            intro a b hab
            rw [processLines] at hab
            cases hx : process db x with
            | error e => rw [hx] at hab; cases hab
            | ok q =>
              simp only [hx, R.ok_bind] at hab
              obtain ⟨z', e1, e2⟩ := ihx _ _ hab
              refine ⟨q ++ ['\n'] ++ z', by rw [e1]; simp, fun w' => ?_⟩
              simp only [processLines, hx, R.ok_bind]
              rw [e2]
              simp
        obtain ⟨z', e1, e2⟩ := key _ _ _ (h [])
        exact ⟨z', by simpa using e1, e2⟩
      obtain ⟨z', rfl, hz'⟩ := hsplit
      rw [List.map_cons, List.cons_append, processBytesLoop, utf8Decode_encode]
      simp only [hp, R.ok_bind]
      rw [ih _ z' hz']
      congr 1
      have : utf8Encode ['\n'] = [10] := by decide
      rw [utf8Encode_append, utf8Encode_append, this]
      simp

theorem lines_chomp (ls : List Text) (r : Text) (h : ∀ l ∈ ls, '\n' ∉ l) (hr : '\n' ∉ r) :
    lines (ls.flatMap (· ++ ['\n']) ++ r) =
      (ls.map (· ++ ['\n']) ++ (if r.isEmpty then [] else [r])).map chomp := by
  rw [(lines_split ls r h hr).1]
  simp only [List.map_append, List.map_map]
  congr 1
  · apply List.map_congr_left
    intro l _
    exact (chomp_line l).symm
  · split
    · rfl
    · simp [chomp_rest hr]

theorem processFile_all (db : CharTables) (text : Text) (z : Text) (h : processFile db text = .ok z) :
    ∀ w', processLines db w' (lines text) = .ok (w' ++ z) := by
  unfold processFile at h
  generalize lines text = xs at h
  have key : ∀ (xs : List Text) (a b : Text), processLines db a xs = .ok b → ∃ z', b = a ++ z' ∧
      ∀ w', processLines db w' xs = .ok (w' ++ z') := by
    intro xs
    induction xs with
    | nil =>
      intro a b hab
      exact ⟨[], by simpa [processLines] using (Except.ok.inj hab).symm, fun w' => by simp [processLines]⟩
    | cons x xs ihx =>
      intro a b hab
      rw [processLines] at hab
      cases hx : process db x with
      | error e => rw [hx] at hab; cases hab
      | ok q =>
        simp only [hx, R.ok_bind] at hab
        obtain ⟨z', e1, e2⟩ := ihx _ _ hab
        refine ⟨q ++ ['\n'] ++ z', by rw [e1]; simp, fun w' => ?_⟩
        simp only [processLines, hx, R.ok_bind]
        rw [e2]
        simp
  obtain ⟨z', e1, e2⟩ := key _ _ _ h
  rw [List.nil_append] at e1
  subst e1
  exact e2

/-- Valid text is processed as text. -/
theorem processBytes_text (db : CharTables) (text z : Text) (h : processFile db text = .ok z) :
    processBytes db (utf8Encode text) = .ok (utf8Encode z, true) := by
  have hz := processFile_all db text z h
  obtain ⟨ls, r, h1, h2, rfl⟩ := split_lines text
  rw [lines_chomp ls r h1 h2] at hz
  unfold processBytes
  rw [utf8Encode_append, splitLines_text ls r h1 h2 _ (.inl rfl), splitLines_last _ (newline_encode h2)]
  have e : (ls.map (fun l => utf8Encode (l ++ ['\n'])) ++ if utf8Encode r = [] then [] else [utf8Encode r]) =
      (ls.map (· ++ ['\n']) ++ (if r.isEmpty then [] else [r])).map utf8Encode ++ [] := by
    rw [List.append_nil, List.map_append, List.map_map]
    congr 1
    cases r with
    | nil => rfl
    | cons c r =>
      obtain ⟨f, t, k, _⟩ := char_shape c
      rw [utf8Encode_cons, k]
      simp [utf8Encode_cons, k]
  rw [e, loop_lines db _ [] [] z hz]
  simp [processBytesLoop]

/-- The first line that is not text. -/
theorem processBytes_bad (db : CharTables) (file : Bytes) (hv : validUtf8 file = false) :
    ∃ (ls : List Text) (l : Bytes) (rest : List Bytes), (∀ x ∈ ls, '\n' ∉ x) ∧
      splitLines file = ls.map (fun x => utf8Encode (x ++ ['\n'])) ++ l :: rest ∧ validUtf8 l = false ∧
      ∀ z, processFile db (ls.flatMap (· ++ ['\n'])) = .ok z →
        processBytes db file = .ok (utf8Encode z, false) := by
  have hex : ∃ l ∈ splitLines file, validUtf8 l = false := by
    by_contra hc
    have hall : ∀ l ∈ splitLines file, validUtf8 l = true := by
      intro l hl
      by_contra h
      exact hc ⟨l, hl, by simpa using h⟩
    have : ∀ ls : List Bytes, (∀ l ∈ ls, validUtf8 l = true) → validUtf8 ls.flatten = true := by
      intro ls
      induction ls with
      | nil => intro _; exact validUtf8_nil
      | cons l ls ih =>
        intro h
        rw [List.flatten_cons]
        exact validUtf8_append (h l (by simp)) (ih (fun l hl => h l (by simp [hl])))
    have h := this _ hall
    rw [splitLines_flatten, hv] at h
    cases h
  have hpre : ∃ pre l rest, splitLines file = pre ++ l :: rest ∧ (∀ x ∈ pre, validUtf8 x = true) ∧
      validUtf8 l = false := by
    generalize splitLines file = L at hex
    induction L with
    | nil => obtain ⟨l, hl, _⟩ := hex; simp at hl
    | cons a L ih =>
      cases ha : validUtf8 a with
      | false => exact ⟨[], a, L, rfl, by simp, ha⟩
      | true =>
        obtain ⟨l, hl, hb⟩ := hex
        rcases List.mem_cons.1 hl with rfl | hl
        · rw [ha] at hb; cases hb
        · obtain ⟨pre, l', rest, e, h1, h2⟩ := ih ⟨l, hl, hb⟩
          exact ⟨a :: pre, l', rest, by rw [e]; rfl, by simpa [ha] using h1, h2⟩
  obtain ⟨pre, l, rest, e, h1, h2⟩ := hpre
  have hends := splitLines_ends file
  have hline := splitLines_isLine file
  rw [e] at hends hline
  have hls : ∃ ls : List Text, (∀ x ∈ ls, '\n' ∉ x) ∧ pre = ls.map (fun x => utf8Encode (x ++ ['\n'])) := by
    have hpe : ∀ x ∈ pre, (∃ u, x = u ++ [10]) ∧ IsLine x ∧ validUtf8 x = true := by
      intro x hx
      refine ⟨hends x ?_, hline x (by simp [hx]), h1 x hx⟩
      rw [List.dropLast_append_of_ne_nil (by simp)]
      simp [hx]
    clear h1 e hends hline
    induction pre with
    | nil => exact ⟨[], by simp, rfl⟩
    | cons x pre ih =>
      obtain ⟨ls, g1, g2⟩ := ih (fun y hy => hpe y (by simp [hy]))
      obtain ⟨⟨u, hu⟩, hl, hval⟩ := hpe x (by simp)
      obtain ⟨cs, hcs⟩ := validUtf8_iff.1 hval
      obtain ⟨c1, c2, k1, k2, k3⟩ := encode_split_ascii cs u [] 10 (by decide) (by rw [← hcs, hu])
      have hc2 : c2 = [] := utf8Encode_inj (b := []) (by rw [← k3]; rfl)
      rw [hc2, List.append_nil] at k1
      -- split off the newline
      obtain ⟨d1, d2, m1, m2, m3⟩ := encode_split cs u [10] (by rw [← hcs, hu]) (by
        intro x hx; simp at hx; subst hx; decide)
      have hd2 : d2 = ['\n'] := utf8Encode_inj (by rw [← m3]; decide)
      refine ⟨d1 :: ls, ?_, ?_⟩
      · intro y hy
        rcases List.mem_cons.1 hy with rfl | hy
        · intro hn
          obtain ⟨p, q, hpq⟩ := List.append_of_mem hn
          have h10 : (10 : UInt8) ∈ u := by
            rw [m2, hpq, utf8Encode_append, utf8Encode_cons]
            have : String.utf8EncodeChar '\n' = [10] := by decide
            rw [this]; simp
          obtain ⟨a, b, hab⟩ := List.append_of_mem h10
          have := hl.2 a (b ++ [10]) (by rw [hu, hab]; simp)
          simp at this
        · exact g1 y hy
      · rw [List.map_cons, ← g2, ← hd2, ← m1, ← hcs]
  obtain ⟨ls, g1, g2⟩ := hls
  refine ⟨ls, l, rest, g1, by rw [e, g2], h2, ?_⟩
  intro z hz
  have hz' := processFile_all db _ z hz
  have hlc := lines_chomp ls [] g1 (by simp)
  rw [List.append_nil] at hlc
  rw [hlc] at hz'
  simp only [List.isEmpty_nil, if_true, List.append_nil] at hz'
  unfold processBytes
  rw [e, g2]
  have : ls.map (fun x => utf8Encode (x ++ ['\n'])) = (ls.map (· ++ ['\n'])).map utf8Encode := by
    rw [List.map_map]; rfl
  rw [this, loop_lines db _ _ [] z hz', processBytesLoop]
  have hdec : utf8Decode l = none := by
    unfold validUtf8 at h2
    cases h : utf8Decode l with
    | none => rfl
    | some t => rw [h] at h2; cases h2
  rw [hdec]
  rfl

end Tokens
