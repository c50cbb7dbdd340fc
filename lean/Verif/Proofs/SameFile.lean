import Verif.Proofs.Together
import Verif.Proofs.JsonSound

/-!
Several runs that write the same file with the same contents.
-/

namespace Tokens
open Spec TokenSet Optimize Batch Main Input Disk Props

set_option linter.unusedVariables false

/-! ### Writing at a position -/

theorem overlay_get (c : Bytes) (p : Nat) {x : Bytes} (hx : x ≠ []) (k : Nat) :
    (overlay c p x)[k]? =
      if k < p then (if k < c.length then c[k]? else some 0)
      else if k < p + x.length then x[k - p]? else c[k]? := by
  unfold overlay
  rw [if_neg hx]
  simp only [List.getElem?_append, List.length_append, List.length_take, List.length_replicate,
    List.getElem?_take, List.getElem?_replicate, List.getElem?_drop]
  split_ifs <;> first | rfl | (exfalso; omega) | (congr 1; omega)

/-- No byte is other than in `b`, except for zeros. -/
def Weak (c b : Bytes) : Prop := ∀ k x, c[k]? = some x → b[k]? = some x ∨ (x = 0 ∧ k < b.length)

/-- The first `e` bytes are as in `b`. -/
def Agree (c b : Bytes) (e : Nat) : Prop := ∀ k < e, c[k]? = b[k]?

theorem weak_overlay {c l x r : Bytes} (h : Weak c (l ++ x ++ r)) : Weak (overlay c l.length x) (l ++ x ++ r) := by
  by_cases hx : x = []
  · unfold overlay; rw [if_pos hx]; exact h
  intro k y hk
  rw [overlay_get c _ hx] at hk
  split at hk
  · split at hk
    · exact h k y hk
    · right
      refine ⟨(Option.some.inj hk).symm, ?_⟩
      simp only [List.length_append]; omega
  · split at hk
    · left
      rename_i h1 h2
      rw [List.getElem?_append_left (by simp only [List.length_append]; omega),
        List.getElem?_append_right (by omega)]
      exact hk
    · exact h k y hk

theorem agree_overlay {c l x r : Bytes} {e : Nat} (h : Agree c (l ++ x ++ r) e) :
    Agree (overlay c l.length x) (l ++ x ++ r) e := by
  by_cases hx : x = []
  · unfold overlay; rw [if_pos hx]; exact h
  intro k hk
  rw [overlay_get c _ hx]
  split
  · split
    · exact h k hk
    · rename_i h1 h2
      have := h k hk
      rw [List.getElem?_eq_none (by omega)] at this
      have h3 := List.getElem?_eq_none_iff.1 this.symm
      simp only [List.length_append] at h3
      omega
  · split
    · rename_i h1 h2
      rw [List.getElem?_append_left (by simp only [List.length_append]; omega),
        List.getElem?_append_right (by omega)]
    · exact h k hk

theorem agree_extend {c l x r : Bytes} (h : Agree c (l ++ x ++ r) l.length) :
    Agree (overlay c l.length x) (l ++ x ++ r) (l.length + x.length) := by
  by_cases hx : x = []
  · subst hx
    unfold overlay; rw [if_pos rfl]; simpa using h
  intro k hk
  by_cases h1 : k < l.length
  · exact agree_overlay h k h1
  rw [overlay_get c _ hx, if_neg h1, if_pos hk,
    List.getElem?_append_left (by simp only [List.length_append]; omega),
    List.getElem?_append_right (by omega)]

theorem weak_agree {c b : Bytes} (h : Weak c b) (ha : Agree c b b.length) : c = b := by
  apply List.ext_getElem?
  intro k
  by_cases hk : k < b.length
  · exact ha k hk
  · rw [List.getElem?_eq_none (l := b) (by omega)]
    cases hc : c[k]? with
    | none => rfl
    | some x =>
      rcases h k x hc with h1 | h1
      · rw [List.getElem?_eq_none (by omega)] at h1; cases h1
      · omega

theorem weak_shape {c b : Bytes} (h : Weak c b) :
    c.length ≤ b.length ∧ ∀ k < c.length, c[k]? = b[k]? ∨ c[k]? = some 0 := by
  constructor
  · by_contra hn
    have hlt : b.length < c.length := by omega
    obtain ⟨x, hx⟩ : ∃ x, c[b.length]? = some x := ⟨_, List.getElem?_eq_getElem hlt⟩
    rcases h _ x hx with h1 | h1
    · rw [List.getElem?_eq_none (by omega)] at h1; cases h1
    · omega
  · intro k hk
    obtain ⟨x, hx⟩ : ∃ x, c[k]? = some x := ⟨_, List.getElem?_eq_getElem hk⟩
    rcases h k x hx with h1 | h1
    · exact .inl (hx.trans h1.symm)
    · exact .inr (by rw [hx, h1.1])

/-! ### How far a run has got with a file -/

/-- How many bytes it has written since it created the file the last time. -/
def cursor (path : Text) : Nat → List Call → Nat
  | n, [] => n
  | n, .create q :: cs => cursor path (if q = path then 0 else n) cs
  | n, .write q _ x :: cs => cursor path (if q = path then n + x.length else n) cs

theorem cursor_append (path : Text) (n : Nat) (a b : List Call) :
    cursor path n (a ++ b) = cursor path (cursor path n a) b := by
  induction a generalizing n with
  | nil => rfl
  | cons c a ih =>
    cases c with
    | create q => exact ih _
    | write q p x => exact ih _

theorem cursor_writesAt (path q : Text) (n pos : Nat) (k : List Bytes) :
    cursor path n (writesAt q pos k) = if q = path then n + k.flatten.length else n := by
  induction k generalizing n pos with
  | nil => simp [writesAt, cursor]
  | cons x k ih =>
    rw [writesAt, cursor, ih]
    split
    · simp only [List.flatten_cons, List.length_append]; omega
    · rfl

theorem cursor_other {path : Text} (n : Nat) {c : Call} (h : c.path ≠ path) : cursor path n [c] = n := by
  cases c with
  | create q => exact if_neg h
  | write q p x => exact if_neg h

theorem writesAt_append (q : Text) (z : Nat) (k1 k2 : List Bytes) :
    writesAt q z (k1 ++ k2) = writesAt q z k1 ++ writesAt q (z + k1.flatten.length) k2 := by
  induction k1 generalizing z with
  | nil => simp [writesAt]
  | cons a k1 ih =>
    simp only [List.cons_append, writesAt, List.flatten_cons, List.length_append]
    rw [ih, Nat.add_assoc]

/-- A `write` comes after the file has been created, and continues where the last one ended. -/
theorem write_continues {ws : List (Text × Bytes)} {calls : List Call} (h : CallsFor ws calls) {path : Text} {b : Bytes}
    (hs : ∀ w ∈ ws, w.1 = path → w.2 = b) :
    ∀ (P T : List Call) (pos : Nat) (x : Bytes) (n : Nat), P ++ .write path pos x :: T = calls →
      (∃ l r, b = l ++ x ++ r ∧ pos = l.length) ∧ cursor path n P = pos ∧ .create path ∈ P := by
  induction h with
  | nil => intro P T pos x n e; simp at e
  | @cons q y ws cs pieces hp h ih =>
    intro P T pos x n e
    cases P with
    | nil =>
      rw [List.nil_append] at e
      cases (List.cons.inj e).1
    | cons c P =>
      rw [List.cons_append] at e
      obtain ⟨rfl, e'⟩ := List.cons.inj e
      clear e
      rw [List.append_eq_append_iff] at e'
      rcases e' with ⟨l, e1, e2⟩ | ⟨l, e1, e2⟩
      · cases l with
        | nil =>
          rw [List.nil_append] at e2
          rw [List.append_nil] at e1
          obtain ⟨h1, h2, h3⟩ := ih (fun w hw => hs w (by simp [hw])) [] T pos x 0 e2
          cases h3
        | cons c l =>
          obtain ⟨rfl, e3⟩ := List.cons.inj e2
          have hq : q = path := by
            have : (Call.write path pos x) ∈ writesAt q 0 pieces := by rw [e1]; simp
            obtain ⟨_, _, _, _, h2⟩ := writesAt_mem this
            exact (Call.write.inj h2).1.symm
          subst hq
          obtain ⟨k1, k2, e4, e5⟩ := writesAt_split e1
          have hb : y = b := hs (q, y) (by simp) rfl
          subst e5
          rw [e4, writesAt_append] at e1
          have e6 := List.append_cancel_left e1
          cases k2 with
          | nil => simp [writesAt] at e6
          | cons a k2 =>
            rw [writesAt] at e6
            obtain ⟨e7, _⟩ := List.cons.inj e6
            obtain ⟨_, e8, e9⟩ := Call.write.inj e7
            refine ⟨⟨k1.flatten, k2.flatten, ?_, ?_⟩, ?_, by simp⟩
            · rw [← hb, ← hp, e4, ← e9]; simp
            · omega
            · rw [cursor, if_pos rfl, cursor_writesAt, if_pos rfl]; exact e8
      · obtain ⟨h1, h2, h3⟩ := ih (fun w hw => hs w (by simp [hw])) l T pos x
          (cursor path n (.create q :: writesAt q 0 pieces)) e2.symm
        refine ⟨h1, ?_, ?_⟩
        · rw [e1, ← List.cons_append, cursor_append]
          exact h2
        · rw [e1]
          simp [h3]

/-- After all of its calls, it has written the whole file. -/
theorem cursor_all {ws : List (Text × Bytes)} {calls : List Call} (h : CallsFor ws calls) {path : Text} {b : Bytes}
    (hs : ∀ w ∈ ws, w.1 = path → w.2 = b) (n : Nat) :
    ((∃ w ∈ ws, w.1 = path) → cursor path n calls = b.length ∧ .create path ∈ calls) ∧
    ((¬ ∃ w ∈ ws, w.1 = path) → cursor path n calls = n) := by
  induction h generalizing n with
  | nil => exact ⟨fun ⟨w, hw, _⟩ => (nomatch hw), fun _ => rfl⟩
  | @cons q y ws cs pieces hp h ih =>
    have ih' := ih (fun w hw => hs w (by simp [hw]))
      (cursor path n (.create q :: writesAt q 0 pieces))
    have e : cursor path n (.create q :: (writesAt q 0 pieces ++ cs)) =
        cursor path (cursor path n (.create q :: writesAt q 0 pieces)) cs := by
      rw [← List.cons_append, cursor_append]
    rw [e]
    by_cases hw : ∃ w ∈ ws, w.1 = path
    · refine ⟨fun _ => ⟨(ih'.1 hw).1, by simp [(ih'.1 hw).2]⟩, fun hn => ?_⟩
      obtain ⟨w, h1, h2⟩ := hw
      exact absurd ⟨w, by simp [h1], h2⟩ hn
    · rw [ih'.2 hw, cursor, cursor_writesAt]
      by_cases hq : q = path
      · refine ⟨fun _ => ⟨?_, by simp [hq]⟩, fun hn => absurd ⟨(q, y), by simp, hq⟩ hn⟩
        have : y = b := hs (q, y) (by simp) hq
        rw [if_pos hq, if_pos hq, hp, this]; omega
      · refine ⟨?_, fun _ => by rw [if_neg hq, if_neg hq]⟩
        rintro ⟨w, h1, h2⟩
        rcases List.mem_cons.1 h1 with rfl | h1
        · exact absurd h2 hq
        · exact absurd ⟨w, h1, h2⟩ hw

/-! ### Several runs -/

/-- Each run is as if it were alone, and the file is the same whoever writes it. -/
structure Shared (prog : Nat → Option (Machine × Command)) (W : Nat → Text → Prop) (d : Files) (path : Text) (b : Bytes)
    (s : Together) : Prop where
  creatable : s.files.creatable = d.creatable
  begins : ∀ i j, s.job i = some j → ∃ m cmd, prog i = some (m, cmd) ∧ Begins m d cmd j.result j.writes ∧
    CallsFor j.writes (j.done ++ j.todo) ∧ ∀ w ∈ j.writes, W i w.1 ∧ (w.1 = path → w.2 = b)
  idle : ∀ q, (∀ k, W k q → s.job k = none) → s.files.read q = d.read q
  file : (s.files.read path = d.read path ∧ ∀ i j, s.job i = some j → .create path ∉ j.done) ∨
    ∃ i j c, s.job i = some j ∧ .create path ∈ j.done ∧ s.files.read path = some c ∧ Weak c b ∧
      Agree c b (cursor path 0 j.done)

variable {prog : Nat → Option (Machine × Command)} {W : Nat → Text → Prop} {d : Files} {path : Text} {b : Bytes}

theorem shared_fresh : Shared prog W d path b (Together.fresh d) :=
  ⟨rfl, fun i j h => (nomatch h), fun q _ => rfl, .inl ⟨rfl, fun i j h => (nomatch h)⟩⟩

theorem shared_reads (hwr : ∀ i j m cmd q, i ≠ j → W i q → prog j = some (m, cmd) → ¬ Reads cmd q)
    {s : Together} (h : Shared prog W d path b s) {i : Nat} {m : Machine} {cmd : Command}
    (hp : prog i = some (m, cmd)) (hn : s.job i = none) : ∀ q, Reads cmd q → s.files.read q = d.read q := by
  intro q hr
  refine h.idle q (fun k hk => ?_)
  by_cases e : k = i
  · rw [e]; exact hn
  · exact absurd hr (hwr k i m cmd q e hk hp)

theorem shared_step
    (hW : ∀ i m cmd ws, prog i = some (m, cmd) → Running m d cmd ws → ∀ w ∈ ws, W i w.1 ∧ (w.1 = path → w.2 = b))
    (hwr : ∀ i j m cmd q, i ≠ j → W i q → prog j = some (m, cmd) → ¬ Reads cmd q)
    {s t : Together} (h : Shared prog W d path b s) (hs : Together.Step prog s t) : Shared prog W d path b t := by
  cases hs with
  | @start i m cmd result ws calls hp hn hb hc =>
    have hb' : Begins m d cmd result ws :=
      begins_reads (fun q hq => (shared_reads hwr h hp hn q hq).symm) h.creatable.symm hb
    refine ⟨h.creatable, ?_, ?_, ?_⟩
    · intro k j hj
      by_cases e : k = i
      · subst e
        simp only [if_true] at hj
        have := Option.some.inj hj
        subst this
        exact ⟨m, cmd, hp, hb', hc, hW k m cmd ws hp (begins_running hb')⟩
      · simp only [if_neg e] at hj
        exact h.begins k j hj
    · intro q hq
      refine h.idle q (fun k hk => ?_)
      have := hq k hk
      by_cases e : k = i
      · rw [e]; exact hn
      · simpa only [if_neg e] using this
    · rcases h.file with ⟨h1, h2⟩ | ⟨k, j, c, h1, h2⟩
      · refine .inl ⟨h1, fun k j hj => ?_⟩
        by_cases e : k = i
        · subst e
          simp only [if_true] at hj
          have := Option.some.inj hj
          subst this
          simp
        · simp only [if_neg e] at hj
          exact h2 k j hj
      · refine .inr ⟨k, j, c, ?_, h2⟩
        have e : k ≠ i := by rintro rfl; rw [hn] at h1; cases h1
        simpa only [if_neg e] using h1
  | @call i j c rest hj ht =>
    obtain ⟨m, cmd, b0, b1, b2, b3⟩ := h.begins i j hj
    have hwc : W i c.path := by
      obtain ⟨w, h1, h2⟩ := callsFor_paths b2 c (by rw [ht]; simp)
      rw [← h2]; exact (b3 w h1).1
    refine ⟨(apply_creatable _ _).trans h.creatable, ?_, ?_, ?_⟩
    · intro k j' hj'
      by_cases e : k = i
      · subst e
        simp only [if_true] at hj'
        have := Option.some.inj hj'
        subst this
        refine ⟨m, cmd, b0, b1, ?_, b3⟩
        show CallsFor j.writes ((j.done ++ [c]) ++ rest)
        rw [List.append_assoc, List.singleton_append, ← ht]
        exact b2
      · simp only [if_neg e] at hj'
        exact h.begins k j' hj'
    · intro q hq
      have hne : c.path ≠ q := by
        rintro rfl
        have := hq i hwc
        simp at this
      rw [apply_other _ _ hne]
      refine h.idle q (fun k hk => ?_)
      have := hq k hk
      by_cases e : k = i
      · subst e; simp at this
      · simpa only [if_neg e] using this
    · by_cases hcp : c.path = path
      · right
        cases c with
        | create q =>
          have : q = path := hcp
          subst this
          refine ⟨i, { j with done := j.done ++ [.create q], todo := rest }, [], if_pos rfl, by simp, ?_, ?_, ?_⟩
          · simp [Call.apply, Files.write]
          · intro k x hk; simp at hk
          · intro k hk
            simp only [cursor_append, cursor, if_true] at hk
            omega
        | write q pos x =>
          have : q = path := hcp
          subst this
          obtain ⟨⟨l, r, e1, e2⟩, e3, e4⟩ := write_continues b2 (fun w hw => (b3 w hw).2) j.done rest pos x 0
            (by rw [ht])
          rcases h.file with ⟨_, h2⟩ | ⟨k, j', c, h1, h2, h3, h4, h5⟩
          · exact absurd e4 (h2 i j hj)
          subst e1 e2
          have hread : ((Call.write q l.length x).apply s.files).read q = some (overlay c l.length x) := by
            show (s.files.write q (overlay ((s.files.read q).getD []) l.length x)).read q = _
            rw [h3]
            simp [Files.write]
          by_cases e : k = i
          · subst e
            have hjj := Option.some.inj (hj.symm.trans h1)
            subst hjj
            refine ⟨k, { j with done := j.done ++ [.write q l.length x], todo := rest }, _, if_pos rfl, by simp [e4],
              hread, weak_overlay h4, ?_⟩
            show Agree _ _ (cursor q 0 (j.done ++ [.write q l.length x]))
            rw [cursor_append, e3, cursor, if_pos rfl]
            rw [e3] at h5
            exact agree_extend h5
          · exact ⟨k, j', _, by simpa only [if_neg e] using h1, h2, hread, weak_overlay h4, agree_overlay h5⟩
      · rw [apply_other _ _ hcp]
        rcases h.file with ⟨h1, h2⟩ | ⟨k, j', c', h1, h2, h3, h4, h5⟩
        · refine .inl ⟨h1, fun k j' hj' => ?_⟩
          by_cases e : k = i
          · subst e
            simp only [if_true] at hj'
            have := Option.some.inj hj'
            subst this
            intro hm
            rcases List.mem_append.1 hm with hm | hm
            · exact h2 k j hj hm
            · rw [List.mem_singleton] at hm
              subst hm
              exact hcp rfl
          · simp only [if_neg e] at hj'
            exact h2 k j' hj'
        · right
          by_cases e : k = i
          · subst e
            have hjj := Option.some.inj (hj.symm.trans h1)
            subst hjj
            refine ⟨k, { j with done := j.done ++ [c], todo := rest }, c', if_pos rfl, by simp [h2], h3, h4, ?_⟩
            show Agree _ _ (cursor path 0 (j.done ++ [c]))
            rw [cursor_append, cursor_other _ hcp]
            exact h5
          · exact ⟨k, j', c', by simpa only [if_neg e] using h1, h2, h3, h4, h5⟩

theorem shared_steps
    (hW : ∀ i m cmd ws, prog i = some (m, cmd) → Running m d cmd ws → ∀ w ∈ ws, W i w.1 ∧ (w.1 = path → w.2 = b))
    (hwr : ∀ i j m cmd q, i ≠ j → W i q → prog j = some (m, cmd) → ¬ Reads cmd q)
    {s t : Together} (h : Shared prog W d path b s) (hs : Together.Steps prog s t) : Shared prog W d path b t := by
  induction hs with
  | refl => exact h
  | tail _ hs ih => exact shared_step hW hwr ih hs

/-- All who write it are done: the file is complete. -/
theorem shared_done {s : Together} (h : Shared prog W d path b s)
    (hone : ∃ i j w, s.job i = some j ∧ w ∈ j.writes ∧ w.1 = path)
    (hall : ∀ i j w, s.job i = some j → w ∈ j.writes → w.1 = path → j.todo = []) : s.files.read path = some b := by
  have full : ∀ i j w, s.job i = some j → w ∈ j.writes → w.1 = path →
      cursor path 0 j.done = b.length ∧ .create path ∈ j.done := by
    intro i j w hj hw e
    obtain ⟨m, cmd, b0, b1, b2, b3⟩ := h.begins i j hj
    rw [hall i j w hj hw e, List.append_nil] at b2
    exact (cursor_all b2 (fun w hw => (b3 w hw).2) 0).1 ⟨w, hw, e⟩
  obtain ⟨i, j, w, hj, hw, e⟩ := hone
  rcases h.file with ⟨_, h2⟩ | ⟨k, j', c, h1, h2, h3, h4, h5⟩
  · exact absurd (full i j w hj hw e).2 (h2 i j hj)
  · obtain ⟨m, cmd, b0, b1, b2, b3⟩ := h.begins k j' h1
    obtain ⟨w', hw', e'⟩ := callsFor_paths b2 (.create path) (by simp [h2])
    rw [(full k j' w' h1 hw' e').1] at h5
    rw [h3, weak_agree h4 h5]

/-! ### More than a JSON text -/

namespace JsonRead

/-- After the text of an object, nothing but white space is accepted. -/
theorem parse_more {t : Text} {l : List (Text × Json)} (h : Denotes t (.obj l)) {k : Nat}
    (hs : Storable k (.obj l)) (hk : k < 128) (x : Text) (hx : skipWs x ≠ []) : parse (t ++ x) = none := by
  have hhead : ∃ u, t = '{' :: u := by
    cases h with
    | emptyObj _ => exact ⟨_, rfl⟩
    | obj _ => exact ⟨_, rfl⟩
  obtain ⟨u, hu⟩ := hhead
  have h2 := value_of h [] (2 * t.length + 2) 128 k (by intro c hc; simp at hc) hs hk (by simp)
  rw [List.append_nil] at h2
  have h1 := value_ext _ (2 * (t ++ x).length + 2) 128 t x (by rw [List.length_append]; omega) h2
    (.inr (by rw [hu]; rfl))
  rw [List.nil_append] at h1
  have h3 : skipWs (t ++ x) = t ++ x := by rw [hu, List.cons_append]; exact skipWs_cons (c := '{') (by decide) _
  unfold parse
  rw [h3, h1]
  simp [hx]

theorem utf8Encode_ws {w : Text} (h : Ws w) : ∀ y ∈ utf8Encode w, y ≠ 125 := by
  induction w with
  | nil => intro y hy; cases hy
  | cons c w ih =>
    intro y hy
    have e : utf8Encode (c :: w) = utf8Encode [c] ++ utf8Encode w := by
      rw [← utf8Encode_append]; rfl
    rw [e, List.mem_append] at hy
    rcases hy with hy | hy
    · have := h c (by simp)
      clear e ih h
      rcases this with rfl | rfl | rfl | rfl <;>
      · clear w; revert y; decide
    · exact ih (fun c hc => h c (by simp [hc])) y hy

theorem parseBytes_more {t : Text} {l : List (Text × Json)} (h : Denotes t (.obj l)) {k : Nat}
    (hs : Storable k (.obj l)) (hk : k < 128) (y : Bytes) (hy : y.getLast? = some 125) :
    parseBytes (utf8Encode t ++ y) = none := by
  unfold parseBytes
  cases hd : utf8Decode (utf8Encode t ++ y) with
  | none => rfl
  | some s =>
    have he := utf8Encode_of_decode hd
    have hpre : t <+: s := by
      apply List.isPrefix_of_utf8Encode_append_eq_utf8Encode (ByteArray.mk y.toArray)
      rw [← mk_utf8Encode, ← mk_utf8Encode, ← he]
      ext1
      simp
    obtain ⟨x, hx⟩ := hpre
    subst hx
    rw [utf8Encode_append] at he
    have hy' := List.append_cancel_left he
    refine parse_more h hs hk x (fun hn => ?_)
    obtain ⟨w, hw, hsp⟩ := skipWs_split x
    rw [hn, List.append_nil] at hsp
    subst hsp
    refine utf8Encode_ws hw 125 ?_ rfl
    rw [← hy']
    exact List.mem_of_getLast? hy

end JsonRead

theorem obj_last {t : Text} {l : List (Text × Json)} (h : Denotes t (.obj l)) :
    (utf8Encode t).getLast? = some 125 := by
  have e : ∃ u, t = u ++ ['}'] := by
    cases h with
    | @emptyObj w _ => exact ⟨'{' :: w, rfl⟩
    | @obj t l _ => exact ⟨'{' :: t, rfl⟩
  obtain ⟨u, rfl⟩ := e
  rw [utf8Encode_append, List.getLast?_append]
  rfl

/-! ### All calls of one run -/

theorem steps_trans {s t u : Together} (h : Together.Steps prog s t) (h' : Together.Steps prog t u) :
    Together.Steps prog s u := by
  induction h' with
  | refl => exact h
  | tail _ hs ih => exact .tail ih hs

/-- A run can do its next calls, one after the other. -/
theorem steps_calls {s : Together} {i : Nat} {j : Job} (hj : s.job i = some j) {a b : List Call}
    (ht : j.todo = a ++ b) :
    Together.Steps prog s ⟨applyCalls s.files a, fun k => if k = i then some { j with done := j.done ++ a, todo := b }
      else s.job k⟩ := by
  induction a generalizing s j with
  | nil =>
    have e : (⟨applyCalls s.files [], fun k => if k = i then some { j with done := j.done ++ [], todo := b }
        else s.job k⟩ : Together) = s := by
      obtain ⟨files, job⟩ := s
      simp only [applyCalls, Together.mk.injEq, true_and]
      funext k
      split
      · rename_i e
        subst e
        have hj' : job k = some j := hj
        rw [hj']
        obtain ⟨r, ws, dn, td⟩ := j
        simp only [List.append_nil, Option.some.injEq, Job.mk.injEq, true_and]
        simpa using ht.symm
      · rfl
    rw [e]
    exact .refl
  | cons c a ih =>
    have h1 : Together.Steps prog s _ := Together.Steps.refl.tail (.call i hj (c := c) (rest := a ++ b) ht)
    have h2 := ih (s := ⟨c.apply s.files, fun k => if k = i then some { j with done := j.done ++ [c], todo := a ++ b }
      else s.job k⟩) (j := { j with done := j.done ++ [c], todo := a ++ b }) (if_pos rfl) rfl
    have h3 := steps_trans h1 h2
    have e : (fun k => if k = i then some { j with done := j.done ++ (c :: a), todo := b } else s.job k) =
        (fun k => if k = i then some { j with done := (j.done ++ [c]) ++ a, todo := b } else
          if k = i then some { j with done := j.done ++ [c], todo := a ++ b } else s.job k) := by
      funext k
      split
      · simp
      · rfl
    rw [e]
    exact h3

theorem calls_exist (ws : List (Text × Bytes)) : ∃ calls, CallsFor ws calls := by
  induction ws with
  | nil => exact ⟨_, .nil⟩
  | cons w ws ih =>
    obtain ⟨cs, hcs⟩ := ih
    exact ⟨_, .cons (path := w.1) [w.2] (by simp) hcs⟩

theorem callsFor_append {a b : List (Text × Bytes)} {ca cb : List Call} (ha : CallsFor a ca) (hb : CallsFor b cb) :
    CallsFor (a ++ b) (ca ++ cb) := by
  induction ha with
  | nil => exact hb
  | @cons q y ws cs pieces hp h ih =>
    rw [List.cons_append, List.cons_append, List.append_assoc]
    exact .cons pieces hp ih

end Tokens
