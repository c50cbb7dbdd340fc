import Verif.Model.Pretty
import Verif.Proofs.JsonWrite

/-!
The output of `pretty.py` is JSON text for the value it is given, with the floating point numbers as
Python writes them.
-/

namespace Tokens
open Spec
namespace Pretty
open Json JsonWrite

set_option linter.unusedSimpArgs false
set_option linter.unusedVariables false

variable {fl : Text → Text}

theorem refloatArr_mem {l : List Json} {v : Json} (h : v ∈ refloatArr fl l) : ∃ w ∈ l, v = refloat fl w := by
  induction l with
  | nil => simp [refloatArr] at h
  | cons j l ih =>
    rw [refloatArr] at h
    rcases List.mem_cons.1 h with rfl | h
    · exact ⟨j, by simp, rfl⟩
    · obtain ⟨w, h1, h2⟩ := ih h
      exact ⟨w, by simp [h1], h2⟩

theorem refloatObj_mem {l : List (Text × Json)} {m : Text × Json} (h : m ∈ refloatObj fl l) :
    ∃ w ∈ l, m.2 = refloat fl w.2 := by
  induction l with
  | nil => simp [refloatObj] at h
  | cons j l ih =>
    obtain ⟨k, j⟩ := j
    rw [refloatObj] at h
    rcases List.mem_cons.1 h with rfl | h
    · exact ⟨(k, j), by simp, rfl⟩
    · obtain ⟨w, h1, h2⟩ := ih h
      exact ⟨w, by simp [h1], h2⟩

theorem refloatObj_keys (l : List (Text × Json)) : (refloatObj fl l).map Prod.fst = l.map Prod.fst := by
  induction l with
  | nil => rfl
  | cons j l ih =>
    obtain ⟨k, j⟩ := j
    rw [refloatObj, List.map_cons, List.map_cons, ih]

theorem storable_refloat (hfl : ∀ t, FloatText t → FloatText (fl t)) {k : Nat} {v : Json}
    (h : Storable k v) : Storable k (refloat fl v) := by
  induction h with
  | null => exact .null _
  | bool => exact .bool _ _
  | num _ n h1 h2 => exact .num _ n h1 h2
  | float _ t h => exact .float _ _ (hfl t h)
  | str => exact .str _ _
  | arr d l _ ih =>
    rw [refloat]
    refine .arr _ _ ?_
    intro v hv
    obtain ⟨w, h1, rfl⟩ := refloatArr_mem hv
    exact ih w h1
  | obj d l h _ ih =>
    rw [refloat]
    refine .obj _ _ (by rw [refloatObj_keys]; exact h) ?_
    intro m hm
    obtain ⟨w, h1, h2⟩ := refloatObj_mem hm
    rw [h2]
    exact ih w h1

theorem ws_space : Ws [' '] := by intro c hc; simp at hc; exact .inl hc

theorem dumps_arr (l : List Json) (v : Json) (p : Text) (hp : Ws p)
    (ih : ∀ x ∈ v :: l, Denotes (dumps fl x) (refloat fl x)) :
    ∃ t, dumps fl v ++ dumpsArr fl false l = t ++ [']'] ∧ Elements (p ++ t) (refloatArr fl (v :: l)) := by
  induction l generalizing v p with
  | nil =>
    refine ⟨dumps fl v, by rw [dumpsArr], ?_⟩
    have := Elements.one hp (ih v (by simp)) ws_nil
    simpa [refloatArr] using this
  | cons v' l ihl =>
    obtain ⟨t, ht, h9⟩ := ihl v' [' '] ws_space (fun x hx => ih x (by simp [hx]))
    refine ⟨dumps fl v ++ (',' :: ' ' :: t), ?_, ?_⟩
    · rw [dumpsArr, if_neg (by simp), ht]; simp
    · have := Elements.cons hp (ih v (by simp)) ws_nil h9
      rw [refloatArr]
      simpa using this

theorem dumps_obj (l : List (Text × Json)) (s : Text) (v : Json) (p : Text) (hp : Ws p)
    (ih : ∀ x ∈ (s, v) :: l, Denotes (dumps fl x.2) (refloat fl x.2)) :
    ∃ t, renderStr s ++ (':' :: ' ' :: (dumps fl v ++ dumpsObj fl false l)) = t ++ ['}'] ∧
      Members (p ++ t) (refloatObj fl ((s, v) :: l)) := by
  induction l generalizing s v p with
  | nil =>
    refine ⟨renderStr s ++ (':' :: ' ' :: dumps fl v), by rw [dumpsObj]; simp, ?_⟩
    have := Members.one hp (chars_flatMap s) ws_nil ws_space (ih (s, v) (by simp)) ws_nil
    simpa [refloatObj, renderStr] using this
  | cons m l ihl =>
    obtain ⟨s', v'⟩ := m
    obtain ⟨t, ht, h9⟩ := ihl s' v' [' '] ws_space (fun x hx => ih x (by simp [hx]))
    refine ⟨renderStr s ++ (':' :: ' ' :: (dumps fl v ++ (',' :: ' ' :: t))), ?_, ?_⟩
    · rw [dumpsObj, if_neg (by simp), ht]; simp
    · have := Members.cons hp (chars_flatMap s) ws_nil ws_space (ih (s, v) (by simp)) ws_nil h9
      rw [refloatObj]
      simpa [renderStr] using this

/-- The short form. -/
theorem denotes_dumps (hfl : ∀ t, FloatText t → FloatText (fl t)) {k : Nat} {v : Json}
    (h : Storable k v) : Denotes (dumps fl v) (refloat fl v) := by
  induction h with
  | null => rw [dumps]; exact .null
  | bool _ b =>
    cases b with
    | true => rw [dumps]; exact .true
    | false => rw [dumps]; exact .false
  | num _ n => rw [dumps, ← JsonRead.toString_int]; exact .int n
  | float _ t h => rw [dumps]; exact .float (hfl t h)
  | str _ s => rw [dumps]; exact .str (chars_flatMap s)
  | arr d l hl ih =>
    cases l with
    | nil => rw [dumps, dumpsArr]; exact .emptyArr (w := []) ws_nil
    | cons v l =>
      obtain ⟨t, ht, h9⟩ := dumps_arr l v [] ws_nil ih
      rw [dumps, dumpsArr, if_pos rfl, List.nil_append, ht]
      exact .arr h9
  | obj d l hk hl ih =>
    cases l with
    | nil => rw [dumps, dumpsObj]; exact .emptyObj (w := []) ws_nil
    | cons m l =>
      obtain ⟨s, v⟩ := m
      obtain ⟨t, ht, h9⟩ := dumps_obj l s v [] ws_nil ih
      rw [dumps, dumpsObj, if_pos rfl, List.nil_append, ht]
      exact .obj h9

/-! ### Lines -/

/-- The lines with white space at the beginning of every line but the first. -/
def join (w : Text) : List Text → Text
  | [] => []
  | [l] => l
  | l :: l' :: ls => l ++ ('\n' :: (w ++ join w (l' :: ls)))

theorem join_cons (w l : Text) {ls : List Text} (h : ls ≠ []) :
    join w (l :: ls) = l ++ ('\n' :: (w ++ join w ls)) := by
  cases ls with
  | nil => exact absurd rfl h
  | cons l' ls => rfl

theorem join_head (w a l : Text) (ls : List Text) : join w ((a ++ l) :: ls) = a ++ join w (l :: ls) := by
  cases ls with
  | nil => rfl
  | cons l' ls => simp [join]

/-- An indented block. -/
theorem join_block (w : Text) (init : List Text) (z a : Text) (b : List Text) :
    join w (init.map (fun s => ' ' :: ' ' :: s) ++ ((' ' :: ' ' :: z) ++ a) :: b) =
      ' ' :: ' ' :: (join (w ++ [' ', ' ']) (init ++ [z]) ++ join w (a :: b)) := by
  induction init with
  | nil =>
    rw [List.map_nil, List.nil_append, join_head]
    simp [join]
  | cons s init ih =>
    have e := join_cons (w ++ [' ', ' ']) s (ls := init ++ [z]) (by simp)
    rw [List.map_cons, List.cons_append, join_cons _ _ (by simp), ih, List.cons_append (a := s), e]
    simp

theorem emit_some (last : Text) (ss : List Text) :
    ∃ init z, last :: ss.map (fun s => ' ' :: ' ' :: s) = init ++ [z] ∧ emit (some last) ss = (init, some z) := by
  induction ss generalizing last with
  | nil => exact ⟨[], last, rfl, rfl⟩
  | cons s ss ih =>
    obtain ⟨init, z, h1, h2⟩ := ih (' ' :: ' ' :: s)
    exact ⟨last :: init, z, by rw [List.map_cons, h1]; rfl, by simp only [emit, h2]; rfl⟩

/-- The loop over the lines of an element. -/
theorem emit_none {S : List Text} (h : S ≠ []) : ∃ init z, S = init ++ [z] ∧
    emit none S = (init.map (fun s => ' ' :: ' ' :: s), some (' ' :: ' ' :: z)) := by
  cases S with
  | nil => exact absurd rfl h
  | cons s ss =>
    obtain ⟨init, z, h1, h2⟩ := emit_some (' ' :: ' ' :: s) ss
    rw [← List.map_cons (f := fun s : Text => ' ' :: ' ' :: s), List.map_eq_append_iff] at h1
    obtain ⟨i, z', h3, h4, h5⟩ := h1
    rw [List.map_eq_singleton_iff] at h5
    obtain ⟨y, rfl, rfl⟩ := h5
    refine ⟨i, y, h3, ?_⟩
    simp only [emit, h2, ← h4]
    rfl

theorem emitKey_some (key last : Text) (ss : List Text) : emitKey key (some last) ss = emit (some last) ss := by
  induction ss generalizing last with
  | nil => rfl
  | cons s ss ih => simp only [emitKey, emit, ih]; rfl

/-- The loop over the lines of a value with a key: as for an element, with the key before the first
line. -/
theorem emitKey_none (key s : Text) (ss : List Text) :
    emitKey key none (s :: ss) = emit none ((key ++ (':' :: ' ' :: s)) :: ss) := by
  rw [emitKey, emitKey_some]
  simp [emit]

theorem serialize_ne (m : Int) (v : Json) : serialize fl m v ≠ [] := by
  cases v <;> rw [serialize]
  case arr => split <;> simp
  case obj => split <;> simp
  all_goals simp

/-- The first line is the short form or the rest of the layout: it is never empty, and the lines for a
list do not depend on the line before. -/
theorem lines_last (m : Int) (l : List Json) :
    ∃ a b, ∀ last : Text, lines fl m (some last) l = (last ++ a) :: b := by
  cases l with
  | nil => exact ⟨[], [[']']], fun last => by rw [lines]; simp⟩
  | cons j js =>
    refine ⟨[','], lines fl m none (j :: js), fun last => ?_⟩
    rw [lines, lines]
    simp only [comma, List.append_assoc, List.cons_append, List.nil_append]

theorem fields_comma (m : Int) (last k : Text) (j : Json) (js : List (Text × Json)) :
    fields fl m (some last) ((k, j) :: js) = (last ++ [',']) :: fields fl m none ((k, j) :: js) := by
  rw [fields, fields]
  simp only [comma, List.append_assoc, List.cons_append, List.nil_append]

theorem fields_last (m : Int) (l : List (Text × Json)) :
    ∃ a b, ∀ last : Text, fields fl m (some last) l = (last ++ a) :: b := by
  cases l with
  | nil => exact ⟨[], [['}']], fun last => by rw [fields]; simp⟩
  | cons j js =>
    obtain ⟨k, j⟩ := j
    exact ⟨[','], fields fl m none ((k, j) :: js), fun last => fields_comma m last k j js⟩

theorem ws_indent {w : Text} (h : Ws w) : Ws (w ++ [' ', ' ']) := by
  intro c hc
  rcases List.mem_append.1 hc with hc | hc
  · exact h c hc
  · simp at hc; exact .inl hc

theorem ws_newline {w : Text} (h : Ws w) : Ws ('\n' :: w) := by
  intro c hc
  rcases List.mem_cons.1 hc with hc | hc
  · exact .inr (.inl hc)
  · exact h c hc

/-- The rest of a list after the text of an element. -/
theorem lines_rest (w : Text) (hw : Ws w) (m : Int) (l : List Json)
    (ih : ∀ x ∈ l, ∀ m w, Ws w → Denotes (join w (serialize fl m x)) (refloat fl x)) :
    ∃ R : Text, (∀ last, join w (lines fl m (some last) l) = last ++ R) ∧
      ∀ (p t : Text) (v : Json), Ws p → Denotes t v →
        ∃ E, p ++ (t ++ R) = E ++ [']'] ∧ Elements E (v :: refloatArr fl l) := by
  induction l with
  | nil =>
    refine ⟨'\n' :: (w ++ [']']), fun last => by rw [lines]; simp [join], ?_⟩
    intro p t v hp ht
    exact ⟨p ++ (t ++ ('\n' :: w)), by simp, .one hp ht (ws_newline hw)⟩
  | cons j js ihl =>
    obtain ⟨R, h1, h2⟩ := ihl (fun x hx => ih x (by simp [hx]))
    obtain ⟨init, z, h3, h4⟩ := emit_none (serialize_ne (fl := fl) (m - 2) j)
    obtain ⟨a, b, h5⟩ := lines_last (fl := fl) m js
    have hd := ih j (by simp) (m - 2) (w ++ [' ', ' ']) (ws_indent hw)
    refine ⟨',' :: '\n' :: (w ++ (' ' :: ' ' :: (join (w ++ [' ', ' ']) (serialize fl (m - 2) j) ++ R))), ?_, ?_⟩
    · intro last
      have hR : R = join w (a :: b) := by
        have := h1 []
        rw [h5] at this
        simpa using this.symm
      rw [lines, h4]
      simp only [comma, h5]
      rw [List.append_assoc, List.singleton_append, join_cons _ _ (by simp), join_block, ← h3, ← hR]
      simp
    · intro p t v hp ht
      obtain ⟨E, e1, e2⟩ := h2 ('\n' :: (w ++ [' ', ' '])) _ _ (ws_newline (ws_indent hw)) hd
      refine ⟨p ++ (t ++ ([] ++ (',' :: E))), ?_, ?_⟩
      · have : '\n' :: (w ++ (' ' :: ' ' :: (join (w ++ [' ', ' ']) (serialize fl (m - 2) j) ++ R))) = E ++ [']'] := by
          rw [← e1]; simp
        rw [this]; simp
      · rw [refloatArr]
        exact .cons hp ht ws_nil e2

/-- The text of a member and what comes after it. -/
theorem fields_none (w : Text) (hw : Ws w) (m : Int) (k : Text) (j : Json) (js : List (Text × Json))
    (ih : ∀ m w, Ws w → Denotes (join w (serialize fl m j)) (refloat fl j))
    (ihd : Denotes (dumps fl j) (refloat fl j)) (R : Text)
    (h1 : ∀ last, join w (fields fl m (some last) js) = last ++ R) :
    ∃ u : Text, join w (fields fl m none ((k, j) :: js)) =
        ' ' :: ' ' :: (renderStr k ++ (':' :: ' ' :: (u ++ R))) ∧ Denotes u (refloat fl j) := by
  obtain ⟨a, b, h5⟩ := fields_last (fl := fl) m js
  have hR : R = join w (a :: b) := by
    have := h1 []
    rw [h5] at this
    simpa using this.symm
  by_cases hshort : ((' ' :: ' ' :: (renderStr k ++ (':' :: ' ' :: dumps fl j))).length : Int) ≤ m + 1
  · refine ⟨dumps fl j, ?_, ihd⟩
    rw [fields]
    simp only [if_pos hshort, comma, List.append_nil, List.nil_append, h1]
    simp
  · refine ⟨join (w ++ [' ', ' ']) (serialize fl (m - 2) j), ?_,
      ih (m - 2) (w ++ [' ', ' ']) (ws_indent hw)⟩
    rw [fields]
    simp only [if_neg hshort, comma, List.nil_append]
    obtain ⟨s, ss, hs⟩ := List.exists_cons_of_ne_nil (serialize_ne (fl := fl) (m - 2) j)
    obtain ⟨init, z, h3, h4⟩ := emit_none (S := (renderStr k ++ (':' :: ' ' :: s)) :: ss) (by simp)
    rw [hs, emitKey_none, h4]
    simp only [h5]
    rw [join_block, ← h3, ← hR]
    have e : renderStr k ++ (':' :: ' ' :: s) = (renderStr k ++ [':', ' ']) ++ s := by simp
    rw [e, join_head]
    simp

theorem fields_ne (m : Int) (o : Option Text) (l : List (Text × Json)) : fields fl m o l ≠ [] := by
  induction l generalizing o with
  | nil => rw [fields]; simp
  | cons kj js ih =>
    obtain ⟨k, j⟩ := kj
    rw [fields]
    simp only [ne_eq, List.append_eq_nil_iff, not_and]
    intro _
    exact ih _

/-- The rest of a dictionary after a member. -/
theorem fields_rest (w : Text) (hw : Ws w) (m : Int) (l : List (Text × Json))
    (ih : ∀ x ∈ l, ∀ m w, Ws w → Denotes (join w (serialize fl m x.2)) (refloat fl x.2))
    (ihd : ∀ x ∈ l, Denotes (dumps fl x.2) (refloat fl x.2)) :
    ∃ R : Text, (∀ last, join w (fields fl m (some last) l) = last ++ R) ∧
      ∀ (p s t : Text) (v : Json), Ws p → Denotes t v →
        ∃ E, p ++ (renderStr s ++ (':' :: ' ' :: (t ++ R))) = E ++ ['}'] ∧
          Members E ((s, v) :: refloatObj fl l) := by
  induction l with
  | nil =>
    refine ⟨'\n' :: (w ++ ['}']), fun last => by rw [fields]; simp [join], ?_⟩
    intro p s t v hp ht
    refine ⟨p ++ (renderStr s ++ (':' :: ' ' :: (t ++ ('\n' :: w)))), by simp, ?_⟩
    have := Members.one hp (chars_flatMap s) ws_nil ws_space ht (ws_newline hw)
    simpa [renderStr, refloatObj] using this
  | cons kj js ihl =>
    obtain ⟨k, j⟩ := kj
    obtain ⟨R, h1, h2⟩ := ihl (fun x hx => ih x (by simp [hx])) (fun x hx => ihd x (by simp [hx]))
    obtain ⟨a, b, h5⟩ := fields_last (fl := fl) m js
    have hR : R = join w (a :: b) := by
      have := h1 []
      rw [h5] at this
      simpa using this.symm
    obtain ⟨u, hu, hud⟩ := fields_none w hw m k j js (ih (k, j) (by simp)) (ihd (k, j) (by simp)) R h1
    have hu : ∀ last : Text, join w (fields fl m (some last) ((k, j) :: js)) =
        last ++ (',' :: '\n' :: (w ++ (' ' :: ' ' :: (renderStr k ++ (':' :: ' ' :: (u ++ R)))))) := by
      intro last
      rw [fields_comma, join_cons _ _ (fields_ne _ _ _), hu]
      simp
    refine ⟨_, hu, ?_⟩
    intro p s t v hp ht
    obtain ⟨E, e1, e2⟩ := h2 ('\n' :: (w ++ [' ', ' '])) k _ _ (ws_newline (ws_indent hw)) hud
    refine ⟨p ++ (renderStr s ++ (':' :: ' ' :: (t ++ ([] ++ (',' :: E))))), ?_, ?_⟩
    · have : '\n' :: (w ++ (' ' :: ' ' :: (renderStr k ++ (':' :: ' ' :: (u ++ R))))) = E ++ ['}'] := by
        rw [← e1]; simp
      rw [this]; simp
    · rw [refloatObj]
      have := Members.cons hp (chars_flatMap s) ws_nil ws_space ht ws_nil e2
      simpa [renderStr] using this

/-- The lines, indented by any white space. -/
theorem denotes_serialize (hfl : ∀ t, FloatText t → FloatText (fl t)) {k : Nat} {v : Json}
    (h : Storable k v) : ∀ (m : Int) (w : Text), Ws w → Denotes (join w (serialize fl m v)) (refloat fl v) := by
  have hd : ∀ {k : Nat} {v : Json}, Storable k v → Denotes (dumps fl v) (refloat fl v) :=
    fun h => denotes_dumps hfl h
  induction h with
  | null d => intro m w hw; rw [serialize]; exact hd (.null d)
  | bool d b => intro m w hw; rw [serialize]; exact hd (.bool d b)
  | num d n h1 h2 => intro m w hw; rw [serialize]; exact hd (.num d n h1 h2)
  | float d t h => intro m w hw; rw [serialize]; exact hd (.float d t h)
  | str d s => intro m w hw; rw [serialize]; exact hd (.str d s)
  | arr d l hl ih =>
    intro m w hw
    rw [serialize]
    split
    · exact hd (.arr d l hl)
    · cases l with
      | nil =>
        rw [lines, refloat, refloatArr]
        exact .emptyArr (w := '\n' :: w) (ws_newline hw)
      | cons j js =>
        obtain ⟨R, h1, h2⟩ := lines_rest w hw m js (fun x hx => ih x (by simp [hx]))
        obtain ⟨init, z, h3, h4⟩ := emit_none (serialize_ne (fl := fl) (m - 2) j)
        obtain ⟨a, b, h5⟩ := lines_last (fl := fl) m js
        have hR : R = join w (a :: b) := by
          have := h1 []
          rw [h5] at this
          simpa using this.symm
        rw [lines, h4]
        simp only [comma, h5, List.nil_append]
        rw [join_cons _ _ (by simp), join_block, ← h3, ← hR]
        obtain ⟨E, e1, e2⟩ := h2 ('\n' :: (w ++ [' ', ' '])) _ _ (ws_newline (ws_indent hw))
          (ih j (by simp) (m - 2) (w ++ [' ', ' ']) (ws_indent hw))
        have : '\n' :: (w ++ (' ' :: ' ' :: (join (w ++ [' ', ' ']) (serialize fl (m - 2) j) ++ R))) = E ++ [']'] := by
          rw [← e1]; simp
        rw [this, refloat, refloatArr]
        exact .arr e2
  | obj d l hk hl ih =>
    intro m w hw
    rw [serialize]
    split
    · exact hd (.obj d l hk hl)
    · cases l with
      | nil =>
        rw [fields, refloat, refloatObj]
        exact .emptyObj (w := '\n' :: w) (ws_newline hw)
      | cons kj js =>
        obtain ⟨k, j⟩ := kj
        obtain ⟨R, h1, h2⟩ := fields_rest w hw m js (fun x hx => ih x (by simp [hx]))
          (fun x hx => hd (hl x (by simp [hx])))
        obtain ⟨u, hu, hud⟩ := fields_none w hw m k j js (ih (k, j) (by simp)) (hd (hl (k, j) (by simp))) R h1
        rw [join_cons _ _ (fields_ne _ _ _), hu]
        obtain ⟨E, e1, e2⟩ := h2 ('\n' :: (w ++ [' ', ' '])) k _ _ (ws_newline (ws_indent hw)) hud
        have : '\n' :: (w ++ (' ' :: ' ' :: (renderStr k ++ (':' :: ' ' :: (u ++ R))))) = E ++ ['}'] := by
          rw [← e1]; simp
        rw [this, refloat, refloatObj]
        exact .obj e2

theorem join_flatMap {L : List Text} (h : L ≠ []) :
    L.flatMap (fun line => line ++ ['\n']) = join [] L ++ ['\n'] := by
  induction L with
  | nil => exact absurd rfl h
  | cons l L ih =>
    cases L with
    | nil => simp [join]
    | cons l' L =>
      rw [List.flatMap_cons, ih (by simp), join_cons [] l (ls := l' :: L) (by simp)]
      simp

/-- What `pretty.py` writes. -/
theorem pretty_jsonText (hfl : ∀ t, FloatText t → FloatText (fl t)) {k : Nat} {v : Json}
    (h : Storable k v) : JsonText (pretty fl v) (refloat fl v) := by
  refine ⟨[], join [] (serialize fl 80 v), ['\n'], ws_nil, ws_newline ws_nil, ?_,
    denotes_serialize hfl h 80 [] ws_nil⟩
  rw [pretty, join_flatMap (serialize_ne _ _)]
  rfl

/-! ### Twice -/

mutual
theorem dumps_twice (hfl : ∀ t, fl (fl t) = fl t) (v : Json) : dumps fl (refloat fl v) = dumps fl v := by
  match v with
  | .null => rw [refloat]
  | .bool _ => rw [refloat]
  | .num _ => rw [refloat]
  | .float t => rw [refloat, dumps, dumps, hfl]
  | .str _ => rw [refloat]
  | .arr l => rw [refloat, dumps, dumps, dumpsArr_twice hfl]
  | .obj l => rw [refloat, dumps, dumps, dumpsObj_twice hfl]
theorem dumpsArr_twice (hfl : ∀ t, fl (fl t) = fl t) (f : Bool) (l : List Json) :
    dumpsArr fl f (refloatArr fl l) = dumpsArr fl f l := by
  match l with
  | [] => rw [refloatArr]
  | j :: js => rw [refloatArr, dumpsArr, dumpsArr, dumps_twice hfl, dumpsArr_twice hfl]
theorem dumpsObj_twice (hfl : ∀ t, fl (fl t) = fl t) (f : Bool) (l : List (Text × Json)) :
    dumpsObj fl f (refloatObj fl l) = dumpsObj fl f l := by
  match l with
  | [] => rw [refloatObj]
  | (k, j) :: js => rw [refloatObj, dumpsObj, dumpsObj, dumps_twice hfl, dumpsObj_twice hfl]
end

mutual
theorem serialize_twice (hfl : ∀ t, fl (fl t) = fl t) (m : Int) (v : Json) :
    serialize fl m (refloat fl v) = serialize fl m v := by
  match v with
  | .null => rw [refloat]
  | .bool _ => rw [refloat]
  | .num _ => rw [refloat]
  | .float t => rw [refloat, serialize, serialize, dumps, dumps, hfl]
  | .str _ => rw [refloat]
  | .arr l =>
    have := dumps_twice hfl (.arr l)
    rw [refloat] at this ⊢
    rw [serialize, serialize, this, lines_twice hfl]
  | .obj l =>
    have := dumps_twice hfl (.obj l)
    rw [refloat] at this ⊢
    rw [serialize, serialize, this, fields_twice hfl]
theorem lines_twice (hfl : ∀ t, fl (fl t) = fl t) (m : Int) (o : Option Text) (l : List Json) :
    lines fl m o (refloatArr fl l) = lines fl m o l := by
  match l with
  | [] => rw [refloatArr]
  | j :: js =>
    rw [refloatArr, lines, lines, serialize_twice hfl]
    simp only [lines_twice hfl m _ js]
theorem fields_twice (hfl : ∀ t, fl (fl t) = fl t) (m : Int) (o : Option Text) (l : List (Text × Json)) :
    fields fl m o (refloatObj fl l) = fields fl m o l := by
  match l with
  | [] => rw [refloatObj]
  | (k, j) :: js =>
    rw [refloatObj, fields, fields, serialize_twice hfl, dumps_twice hfl]
    simp only [fields_twice hfl m _ js]
end

theorem pretty_twice (hfl : ∀ t, fl (fl t) = fl t) (v : Json) : pretty fl (refloat fl v) = pretty fl v := by
  rw [pretty, serialize_twice hfl, pretty]

/-! ### The files of the program -/

theorem refloat_bytes (b : Bytes) : refloat fl (bytesToJson b) = bytesToJson b := by
  unfold bytesToJson
  split
  · rw [refloat]
  · rename_i h
    clear h
    rw [bytesAsArray, refloat]
    congr 1
    induction b with
    | nil => rfl
    | cons x b ih => rw [List.map_cons, refloatArr, refloat, ih]

theorem refloat_token (t : Token) : refloat fl t.toJson = t.toJson := by
  cases t with
  | ext n => rw [Token.toJson, refloat]
  | str b => exact refloat_bytes b

theorem refloat_tokens (l : List Token) : refloatArr fl (l.map Token.toJson) = l.map Token.toJson := by
  induction l with
  | nil => rfl
  | cons t l ih => rw [List.map_cons, refloatArr, refloat_token, ih]

theorem refloat_seqs (tokens : List Token) (l : List Sequence) :
    refloatArr fl (l.map (seqJson tokens)) = l.map (seqJson tokens) := by
  induction l with
  | nil => rfl
  | cons q l ih =>
    rw [List.map_cons, refloatArr, ih, seqJson, refloat, refloatObj, refloatObj, refloatObj, refloat_bytes,
      refloat, refloat_tokens]

theorem refloatObj_append (a b : List (Text × Json)) :
    refloatObj fl (a ++ b) = refloatObj fl a ++ refloatObj fl b := by
  induction a with
  | nil => rfl
  | cons m a ih =>
    obtain ⟨k, j⟩ := m
    rw [List.cons_append, refloatObj, ih, refloatObj, List.cons_append]

theorem refloatObj_split (p : Text → Bool) (l : List (Text × Json)) :
    refloatObj fl (l.takeWhile (fun kv => p kv.1)) = (refloatObj fl l).takeWhile (fun kv => p kv.1) ∧
    refloatObj fl (l.dropWhile (fun kv => p kv.1)) = (refloatObj fl l).dropWhile (fun kv => p kv.1) := by
  induction l with
  | nil => exact ⟨rfl, rfl⟩
  | cons m l ih =>
    obtain ⟨k, j⟩ := m
    cases hp : p k with
    | true => simp [List.takeWhile_cons, List.dropWhile_cons, hp, refloatObj, ih.1, ih.2]
    | false => simp [List.takeWhile_cons, List.dropWhile_cons, hp, refloatObj]

/-- A set has no floating point numbers in its value. -/
theorem refloat_set (ts : TokenSet) : refloat fl (jsonOf ts) = jsonOf ts := by
  unfold jsonOf
  rw [refloat, refloatObj_append, refloatObj_append]
  split
  · simp only [refloatObj, refloat, refloat_tokens]
  · simp only [refloatObj, refloat, refloat_tokens, refloat_seqs]

/-- The value of statistics with the quotient as Python writes it. -/
theorem refloat_stats {ratio : Nat → Nat → Json} {st : TokenStats} {v : Json} (hs : SeqsInRange st.tokenSet)
    (hv : st.toJson ratio = .ok v) :
    st.toJson (fun a b => refloat fl (ratio a b)) = .ok (refloat fl v) := by
  have hset := refloat_set (fl := fl) st.tokenSet
  unfold TokenStats.toJson at hv ⊢
  rw [toJson_eq _ hs] at hv ⊢
  generalize jsonOf st.tokenSet = w at hv hset ⊢
  cases w with
  | obj l =>
    simp only [R.ok_bind] at hv ⊢
    have hv := Except.ok.inj hv
    rw [refloat] at hset
    have hset := Json.obj.inj hset
    rw [← hv, refloat, refloatObj_append, refloatObj]
    have := refloatObj_split (fl := fl) (fun k => k != "tokens".toList) l
    rw [this.1, this.2, hset]
    congr 4
    rw [refloat, refloatObj_append]
    cases st.initialSize <;> simp [refloatObj, refloat]
  | _ => simp [bind, Except.bind] at hv

end Pretty
end Tokens
