import Verif.Proofs.CharsExt
import Verif.Props.CodeLength

/-!
C89, C90, C91: the optimizer over characters (`/repo/src/chars/optimizer.rs`, not part of the program).
-/

namespace Tokens.Props
open Tokens Tokens.Chars Tokens.Spec.Chars

/-! ### Sums over a table of characters -/

theorem sum_point (f : Char → Nat) (x : Char) : ∀ (ks : List Char), ks.Nodup →
    (ks.map (fun k => f k * if x = k then 1 else 0)).sum = if x ∈ ks then f x else 0
  | [], _ => by simp
  | k :: ks, h => by
    rw [List.nodup_cons] at h
    rw [List.map_cons, List.sum_cons, sum_point f x ks h.2]
    by_cases hk : x = k
    · subst hk
      simp [h.1]
    · simp [hk]

theorem sum_by_count (f : Char → Nat) (ks : List Char) (hn : ks.Nodup) : ∀ (xs : List Char), (∀ x ∈ xs, x ∈ ks) →
    (xs.map f).sum = (ks.map (fun k => f k * xs.count k)).sum
  | [], _ => by
    induction ks with
    | nil => rfl
    | cons k ks ih =>
      rw [List.nodup_cons] at hn
      have := ih hn.2 (by simp)
      simp only [List.map_nil, List.sum_nil, List.map_cons, List.sum_cons] at this ⊢
      rw [← this]
      simp
  | x :: xs, h => by
    have ih := sum_by_count f ks hn xs (fun y hy => h y (by simp [hy]))
    rw [List.map_cons, List.sum_cons, ih]
    have h2 := sum_point f x ks hn
    rw [if_pos (h x (by simp))] at h2
    rw [← h2, ← List.sum_map_add]
    congr 1
    apply List.map_congr_left
    intro k _
    rw [List.count_cons, Nat.mul_add]
    by_cases hk : x = k
    · simp [hk]; omega
    · simp [hk]

theorem table_of {samples : List Text} {counts : Counts} (h : Chars.Ordered counts)
    (hm : ∀ c m, (c, m) ∈ counts ↔ c ∈ samples.flatten ∧ m = samples.flatten.count c) : CharTable samples counts :=
  ⟨h.sorted, hm⟩

theorem table_ordered {samples : List Text} {counts : Counts} (h : CharTable samples counts) : Chars.Ordered counts := by
  refine ⟨h.sorted, ?_⟩
  rintro ⟨c, m⟩ hp
  obtain ⟨h1, h2⟩ := (h.exact c m).1 hp
  show 0 < m
  rw [h2]
  exact List.count_pos_iff.2 h1

theorem table_agrees {samples : List Text} {counts : Counts} (h : CharTable samples counts) :
    Chars.Agrees (fun c => samples.flatten.count c) counts := by
  rintro ⟨c, m⟩ hp
  exact ((h.exact c m).1 hp).2

theorem table_keys {samples : List Text} {counts : Counts} (h : CharTable samples counts) (c : Char) :
    c ∈ counts.map Prod.fst ↔ c ∈ samples.flatten := by
  constructor
  · intro hc
    obtain ⟨⟨d, m⟩, hp, rfl⟩ := List.mem_map.1 hc
    exact ((h.exact d m).1 hp).1
  · intro hc
    exact List.mem_map.2 ⟨(c, _), (h.exact c _).2 ⟨hc, rfl⟩, rfl⟩

theorem table_nodup {samples : List Text} {counts : Counts} (h : CharTable samples counts) :
    (counts.map Prod.fst).Nodup := by
  rw [List.Nodup, List.pairwise_map]
  exact h.sorted.imp (fun hlt => ne_of_lt hlt)

theorem table_sum {samples : List Text} {counts : Counts} (h : CharTable samples counts) (f : Char → Nat) :
    (counts.map (fun p => f p.1 * p.2)).sum = (samples.flatten.map f).sum := by
  rw [sum_by_count f _ (table_nodup h) samples.flatten (fun x hx => (table_keys h x).2 hx), List.map_map]
  congr 1
  apply List.map_congr_left
  intro p hp
  rw [table_agrees h p hp]
  rfl

theorem table_weight {samples : List Text} {counts : Counts} (h : CharTable samples counts) :
    Chars.weight counts = samples.flatten.length := by
  have := table_sum h (fun _ => 1)
  simp only [Nat.one_mul, List.map_const', List.sum_replicate, smul_eq_mul, Nat.mul_one] at this
  exact this

/-! ### The sets of a run -/

theorem short_of_sound {samples : List Text} {counts : Counts} (ht : CharTable samples counts)
    (hsize : samples.flatten.length < 2 ^ 64) {ts : CSet} {k : Nat}
    (h : Sound counts (Chars.weight counts) ts k) : ∀ c, encLength ts c ≤ 156 := by
  intro c
  cases he : encOf ts c with
  | none => have := encLength_none he; omega
  | some e =>
    rw [encLength_of he]
    obtain ⟨⟨d, m⟩, hp, rfl⟩ := List.mem_map.1 ((h.enc c).2 ⟨e, he⟩)
    have h1 := h.short d m e hp he
    rw [table_weight ht] at h1
    have hm := (table_ordered ht).pos _ hp
    unfold Chars.ShortFor at h1
    have := pow_limit (m := samples.flatten.length) (k := e.length - 2)
      (Nat.le_trans (Nat.le_mul_of_pos_left _ hm) h1) hsize
    omega

theorem shortEncodings_of {ts : CSet} (h : ∀ c, encLength ts c ≤ 156) : ShortEncodings ts :=
  fun c => by have := h c; omega

theorem sound_rounds {samples : List Text} {counts : Counts} {w k m : Nat} {ts ts' : CSet} {st st' : CStats}
    (hr : Rounds samples m ts st ts' st') : Sound counts w ts k → k ≤ ts.tokens.length →
    Sound counts w ts' k ∧ k ≤ ts'.tokens.length := by
  induction hr with
  | none => intro h hk; exact ⟨h, hk⟩
  | more h1 _ ih =>
    intro h hk
    obtain ⟨i, j, t, t', s, s', g1, g2, g3, g4, _, _, g5, rfl, _⟩ := h1.pair
    have hn1 : s ≠ [] := fun e => h.own.nonempty t (List.mem_of_getElem? g1) (by rw [g2, e])
    have hn2 : s' ≠ [] := fun e => h.own.nonempty t' (List.mem_of_getElem? g3) (by rw [g4, e])
    refine ih (h.add g5 ?_ hk) ?_
    · have := List.length_pos_iff.2 hn1
      have := List.length_pos_iff.2 hn2
      rw [List.length_append]
      omega
    · simp only [CSet.addString, List.length_append]
      omega

/-- A run of the optimizer up to the loop. -/
theorem run_start (samples : List Text) {n : Nat} (hn : 3 ≤ n) (hsize : samples.flatten.length < 2 ^ 64) :
    ∃ counts base st0 k tops, countChars samples = .ok counts ∧ CharTable samples counts ∧
      optimizeCharsByExt counts n = .ok base ∧ tokenize base (samples.map utf8Encode) = .ok st0 ∧
      2 ≤ k ∧ k < n ∧ k ≤ 8 ∧ base.tokens.length = k + min (n - k) counts.length ∧
      CharsInv (fun c => samples.flatten.count c) (Chars.weight counts) k counts base tops ∧
      Sound counts (Chars.weight counts) base k ∧ (∀ c, encLength base c ≤ 156) ∧
      ∀ k' ts', 2 ≤ k' → k' < n → k' ≤ 8 → optimizeChars counts (n - k') k' = .ok ts' →
        tableCost base counts ≤ tableCost ts' counts := by
  obtain ⟨counts, h1, h2, h3⟩ := countChars_spec samples
  have ht := table_of h2 h3
  obtain ⟨base, k, g1, g2, g3, g4, g5, g6⟩ := byExt_spec h2 (table_agrees ht) hn
  obtain ⟨base', tops, f1, f2, f3, _⟩ := optimizeChars_good h2 (table_agrees ht) g2 g3
  rw [g5] at f1
  have := Except.ok.inj f1
  subst this
  have hs := f3.sound (table_agrees ht)
  have hshort := short_of_sound ht hsize hs
  obtain ⟨st0, cut, e1, _⟩ := C86_samples hs.made (shortEncodings_of hshort) samples
  exact ⟨counts, base, st0, k, tops, h1, ht, g1, e1, g2, g3, g4, by rw [f3.length, f2], f3, hs, hshort, g6⟩

theorem run_whole (order : CStats → List (Nat × Nat)) (ho : Traverses order) (samples : List Text) {n : Nat}
    (hn : 3 ≤ n) (hn' : n ≤ 65536) (hsize : samples.flatten.length < 2 ^ 64) :
    ∃ counts base st0 k, countChars samples = .ok counts ∧ CharTable samples counts ∧
      optimizeCharsByExt counts n = .ok base ∧ tokenize base (samples.map utf8Encode) = .ok st0 ∧
      base.tokens.length ≤ n ∧
      ((∃ ts st, optimizeCharsTokens order samples n = .ok (ts, st) ∧ ts.tokens.length = n ∧
          Rounds samples (n - base.tokens.length) base st0 ts st ∧ Sound counts (Chars.weight counts) ts k) ∨
        (optimizeCharsTokens order samples n = .error .unwrapNone ∧
          ∃ m ts st, Rounds samples m base st0 ts st ∧ ts.tokens.length < n ∧ NoPairs st)) := by
  obtain ⟨counts, base, st0, k, tops, h1, h2, h3, h4, h5, h6, h7, h8, _, h9, h10, _⟩ := run_start samples hn hsize
  refine ⟨counts, base, st0, k, h1, h2, h3, h4, by omega, ?_⟩
  have e : optimizeCharsTokens order samples n = growLoop order samples n n base st0 := by
    unfold optimizeCharsTokens
    rw [h1, R.ok_bind, h3, R.ok_bind, h4, R.ok_bind]
  rw [e]
  rcases growLoop_spec ho hn' n base st0 h9.made (shortEncodings_of h10) h9.own (by omega) (by omega) h4 with
    ⟨ts, st, g1, g2, g3⟩ | g
  · exact .inl ⟨ts, st, g1, g3, g2, (sound_rounds g2 h9 (by omega)).1⟩
  · exact .inr g

theorem run_ok {order : CStats → List (Nat × Nat)} (ho : Traverses order) {samples : List Text} {n : Nat}
    (hn' : n ≤ 65536) (hsize : samples.flatten.length < 2 ^ 64) {ts : CSet} {st : CStats}
    (hrun : optimizeCharsTokens order samples n = .ok (ts, st)) :
    3 ≤ n ∧ ∃ counts base st0 k, countChars samples = .ok counts ∧ CharTable samples counts ∧
      optimizeCharsByExt counts n = .ok base ∧ tokenize base (samples.map utf8Encode) = .ok st0 ∧
      base.tokens.length ≤ n ∧ ts.tokens.length = n ∧
      Rounds samples (n - base.tokens.length) base st0 ts st ∧ Sound counts (Chars.weight counts) ts k := by
  by_cases hn : 3 ≤ n
  · obtain ⟨counts, base, st0, k, h1, h2, h3, h4, h5, h6⟩ := run_whole order ho samples hn hn' hsize
    refine ⟨hn, counts, base, st0, k, h1, h2, h3, h4, h5, ?_⟩
    rcases h6 with ⟨ts', st', g1, g2, g3, g4⟩ | ⟨g, _⟩
    · rw [hrun] at g1
      have := Except.ok.inj g1
      simp only [Prod.mk.injEq] at this
      obtain ⟨rfl, rfl⟩ := this
      exact ⟨g2, g3, g4⟩
    · rw [hrun] at g; cases g
  · exfalso
    obtain ⟨counts, h1, h2, h3⟩ := countChars_spec samples
    unfold optimizeCharsTokens at hrun
    rw [h1, R.ok_bind, byExt_few (by omega)] at hrun
    cases hrun

/-- C89. In the resulting set exactly the characters of the samples have an encoding: a token of their own, or
a token with a text followed by one or more ext tokens (which have no text).  No two characters have the same. -/
theorem C89_encodings {order : CStats → List (Nat × Nat)} (ho : Traverses order) {samples : List Text} {n : Nat}
    (hn' : n ≤ 65536) (hsize : samples.flatten.length < 2 ^ 64) {ts : CSet} {st : CStats}
    (hrun : optimizeCharsTokens order samples n = .ok (ts, st)) :
    (∀ c, c ∈ samples.flatten ↔ ∃ e, encOf ts c = some e) ∧
    (∀ c c' e, encOf ts c = some e → encOf ts c' = some e → c = c') ∧
    ∀ c e, encOf ts c = some e → (∃ i, e = [i] ∧ ts.tokens[i]? = some (.char c)) ∨
      (∃ i ds, e = i :: ds ∧ ds ≠ [] ∧ (∃ s, Says ts (.tok i) s) ∧
        ∀ d ∈ ds, ∃ m, ts.tokens[d]? = some (.ext m)) := by
  obtain ⟨_, counts, base, st0, k, _, h2, _, _, _, _, _, h4⟩ := run_ok ho hn' hsize hrun
  refine ⟨fun c => by rw [← table_keys h2, h4.enc], h4.inj, ?_⟩
  intro c e he
  rcases h4.code c e he with h | ⟨_, i, ds, g1, g2, g3, g4, g5⟩
  · exact .inl h
  · refine .inr ⟨i, ds, g1, g4, ?_, ?_⟩
    · have hi := List.getElem?_eq_getElem g3
      cases hx : (ts.tokens[i]).text with
      | none => have := (h4.exts i _ hi).1 hx; omega
      | some s => exact ⟨s, .tok hi hx⟩
    · intro d hd
      have hd' := g5 d hd
      have hi := List.getElem?_eq_getElem (show d < ts.tokens.length by omega)
      have := (h4.exts d _ hi).2 hd'
      cases hx : ts.tokens[d]'(by omega) with
      | ext m => exact ⟨m, by rw [hi, hx]⟩
      | char c => rw [hx] at this; cases this
      | str s => rw [hx] at this; cases this

/-- C89. Every cut of a text of such characters can be written with tokens of the set, and takes as many as
the statistics count. -/
theorem C89_written {order : CStats → List (Nat × Nat)} (ho : Traverses order) {samples : List Text} {n : Nat}
    (hn' : n ≤ 65536) (hsize : samples.flatten.length < 2 ^ 64) {ts : CSet} {st : CStats}
    (hrun : optimizeCharsTokens order samples n = .ok (ts, st)) (ps : List Piece) (x : Text)
    (hx : ∀ c ∈ x, c ∈ samples.flatten) (hs : Spells ts ps x) :
    ∃ w, Written ts ps w ∧ w.length = cost ts ps ∧ ∀ i ∈ w, i < n := by
  obtain ⟨_, counts, base, st0, k, _, h2, _, _, _, h3, _, h4⟩ := run_ok ho hn' hsize hrun
  obtain ⟨w, g1, g2, g3⟩ := h4.written hs (fun c hc => (table_keys h2 c).2 (hx c hc))
  exact ⟨w, g1, g2, fun i hi => by rw [← h3]; exact g3 i hi⟩

/-- C89. What is written can be read: if two cuts of two texts are written with the same tokens, they are the
same cut of the same text. -/
theorem C89_decodable {order : CStats → List (Nat × Nat)} (ho : Traverses order) {samples : List Text} {n : Nat}
    (hn' : n ≤ 65536) (hsize : samples.flatten.length < 2 ^ 64) {ts : CSet} {st : CStats}
    (hrun : optimizeCharsTokens order samples n = .ok (ts, st)) (ps qs : List Piece) (x y : Text) (w : List Nat)
    (hx : Spells ts ps x) (hy : Spells ts qs y) (hwx : Written ts ps w) (hwy : Written ts qs w) :
    ps = qs ∧ x = y := by
  obtain ⟨_, counts, base, st0, k, _, _, _, _, _, _, _, h4⟩ := run_ok ho hn' hsize hrun
  have := h4.decode ps qs x y w hx hy hwx hwy
  subst this
  exact ⟨rfl, spells_text hx hy⟩

/-- C90. `count_chars`: the characters of the samples in order, with the numbers of their occurrences. -/
theorem C90_counts (samples : List Text) : ∃ counts, countChars samples = .ok counts ∧ CharTable samples counts := by
  obtain ⟨counts, h1, h2, h3⟩ := countChars_spec samples
  exact ⟨counts, h1, table_of h2 h3⟩

/-- C90. `optimize_chars_by_ext` returns the set of the number of ext tokens (2 to 8, and fewer than the
tokens) for which the counted characters take the fewest tokens; the set has at most the wanted number of
tokens, and exactly that many if there are enough characters. -/
theorem C90_best {samples : List Text} {counts : List (Char × Nat)} (ht : CharTable samples counts) {n : Nat}
    (hn : 3 ≤ n) : ∃ ts k, optimizeCharsByExt counts n = .ok ts ∧ 2 ≤ k ∧ k < n ∧ k ≤ 8 ∧
      optimizeChars counts (n - k) k = .ok ts ∧ ts.tokens.length = k + min (n - k) counts.length ∧
      ∀ k', 2 ≤ k' → k' < n → k' ≤ 8 → ∃ ts', optimizeChars counts (n - k') k' = .ok ts' ∧
        tableCost ts counts ≤ tableCost ts' counts := by
  obtain ⟨ts, k, g1, g2, g3, g4, g5, g6⟩ := byExt_spec (table_ordered ht) (table_agrees ht) hn
  obtain ⟨ts', tops, f1, f2, f3, _⟩ := optimizeChars_good (table_ordered ht) (table_agrees ht) g2 g3
  rw [g5] at f1
  have := Except.ok.inj f1
  subst this
  refine ⟨ts, k, g1, g2, g3, g4, g5, by rw [f3.length, f2], ?_⟩
  intro k' e1 e2 e3
  obtain ⟨ts', _, f1, _⟩ := optimizeChars_good (table_ordered ht) (table_agrees ht) e1 e2
  exact ⟨ts', f1, g6 k' ts' e1 e2 e3 f1⟩

/-- C90. With fewer than 3 tokens the optimizer panics, whatever the samples. -/
theorem C90_few (order : CStats → List (Nat × Nat)) (samples : List Text) (n : Nat) (hn : n < 3) :
    optimizeCharsTokens order samples n = .error (if n = 0 then .underflow else .unwrapNone) := by
  obtain ⟨counts, h1, _⟩ := countChars_spec samples
  unfold optimizeCharsTokens
  rw [h1, R.ok_bind, byExt_few hn]
  rfl

/-- C90. A character that takes `k + 2` tokens has at most the share `(3/4)^k` of the text. -/
theorem C90_share {samples : List Text} {counts : List (Char × Nat)} (ht : CharTable samples counts) {n : Nat}
    (hn : 3 ≤ n) {ts : CSet} (h : optimizeCharsByExt counts n = .ok ts) (c : Char) (hc : c ∈ samples.flatten)
    (k : Nat) (hk : encLength ts c = k + 2) :
    samples.flatten.count c * 4 ^ k ≤ 3 ^ k * samples.flatten.length := by
  obtain ⟨ts0, k0, g1, g2, g3, g4, g5, g6⟩ := byExt_spec (table_ordered ht) (table_agrees ht) hn
  obtain ⟨ts', tops, f1, f2, f3, _⟩ := optimizeChars_good (table_ordered ht) (table_agrees ht) g2 g3
  rw [g5] at f1
  have := Except.ok.inj f1
  subst this
  rw [h] at g1
  have := Except.ok.inj g1
  subst this
  have hs := f3.sound (table_agrees ht)
  obtain ⟨e, he⟩ := (hs.enc c).1 ((table_keys ht c).2 hc)
  have := hs.short c _ e ((ht.exact c _).2 ⟨hc, rfl⟩) he
  rw [table_weight ht] at this
  rw [encLength_of he] at hk
  rw [hk, Nat.add_sub_cancel] at this
  exact this

/-- C90. So the encodings are short enough for the cost table of the tokenizer (C86): while the characters can
be counted in 64 bits, none takes more than 156 tokens. -/
theorem C90_limit {samples : List Text} {counts : List (Char × Nat)} (ht : CharTable samples counts)
    (hsize : samples.flatten.length < 2 ^ 64) {n : Nat}
    (hn : 3 ≤ n) {ts : CSet} (h : optimizeCharsByExt counts n = .ok ts) :
    Made ts ∧ ShortEncodings ts ∧ ∀ c, encLength ts c ≤ 156 := by
  obtain ⟨ts0, k0, g1, g2, g3, g4, g5, g6⟩ := byExt_spec (table_ordered ht) (table_agrees ht) hn
  obtain ⟨ts', tops, f1, f2, f3, _⟩ := optimizeChars_good (table_ordered ht) (table_agrees ht) g2 g3
  rw [g5] at f1
  have := Except.ok.inj f1
  subst this
  rw [h] at g1
  have := Except.ok.inj g1
  subst this
  have hs := f3.sound (table_agrees ht)
  have := short_of_sound ht hsize hs
  exact ⟨hs.made, shortEncodings_of this, this⟩

/-- C91. A run ends with exactly the wanted number of tokens, after rounds that each add the text of a most
frequent pair (see `Round`); or it panics, after such rounds, because no two neighbouring tokens are left.
There is no other outcome. -/
theorem C91_outcome (order : CStats → List (Nat × Nat)) (ho : Traverses order) (samples : List Text) {n : Nat}
    (hn : 3 ≤ n) (hn' : n ≤ 65536) (hsize : samples.flatten.length < 2 ^ 64) :
    ∃ counts base st0, countChars samples = .ok counts ∧ optimizeCharsByExt counts n = .ok base ∧
      tokenize base (samples.map utf8Encode) = .ok st0 ∧ base.tokens.length ≤ n ∧
      ((∃ ts st, optimizeCharsTokens order samples n = .ok (ts, st) ∧ ts.tokens.length = n ∧
          Rounds samples (n - base.tokens.length) base st0 ts st) ∨
        (optimizeCharsTokens order samples n = .error .unwrapNone ∧
          ∃ m ts st, Rounds samples m base st0 ts st ∧ ts.tokens.length < n ∧ NoPairs st)) := by
  obtain ⟨counts, base, st0, k, h1, h2, h3, h4, h5, h6⟩ := run_whole order ho samples hn hn' hsize
  refine ⟨counts, base, st0, h1, h3, h4, h5, ?_⟩
  rcases h6 with ⟨ts, st, g1, g2, g3, _⟩ | g
  · exact .inl ⟨ts, st, g1, g2, g3⟩
  · exact .inr g

/-- C91. The result: as many tokens as wanted, all with different, non-empty texts (but for the ext tokens,
which have none); and statistics that are those of a cheapest cut of every sample with these tokens. -/
theorem C91_result {order : CStats → List (Nat × Nat)} (ho : Traverses order) {samples : List Text} {n : Nat}
    (hn' : n ≤ 65536) (hsize : samples.flatten.length < 2 ^ 64) {ts : CSet} {st : CStats}
    (hrun : optimizeCharsTokens order samples n = .ok (ts, st)) :
    Made ts ∧ ts.tokens.length = n ∧ OwnTexts ts ∧
      ∃ cut, cut.length = samples.length ∧ (∀ p ∈ samples.zip cut, Cheapest ts p.1 p.2) ∧ Counted ts st cut := by
  obtain ⟨hn, counts, base, st0, k, h1, h2, h3, h4, h5, h6, h7, h8⟩ := run_ok ho hn' hsize hrun
  have hst : tokenize ts (samples.map utf8Encode) = .ok st := by
    have : ∀ {m ts st ts' st'}, Rounds samples m ts st ts' st' → tokenize ts (samples.map utf8Encode) = .ok st →
        tokenize ts' (samples.map utf8Encode) = .ok st' := by
      intro m ts st ts' st' hr
      induction hr with
      | none => exact id
      | more h _ ih => exact fun _ => ih h.stats
    exact this h7 h4
  obtain ⟨st', cut, g1, g2, g3, g4⟩ := C86_samples h8.made (shortEncodings_of (short_of_sound h2 hsize h8)) samples
  rw [hst] at g1
  have := Except.ok.inj g1
  subst this
  exact ⟨h8.made, h6, h8.own, cut, g2, g3, g4⟩

/-- Every added token saves at least one. -/
theorem rounds_total {samples : List Text} {m : Nat} {ts ts' : CSet} {st st' : CStats}
    (h : Rounds samples m ts st ts' st') : st'.total + m ≤ st.total := by
  induction h with
  | none => omega
  | more h _ ih =>
    obtain ⟨i, j, t, t', s, s', _, _, _, _, g1, _, _, _, g2⟩ := h.pair
    omega

theorem spells_base {ts : CSet} (h : ∀ (i : Nat) (t : CToken) (s : Text), ts.tokens[i]? = some t → t.text = some s →
    ∃ c, s = [c] ∧ encLength ts c = 1) {ps : List Piece} {x : Text} (hs : Spells ts ps x) :
    cost ts ps = (x.map (encLength ts)).sum := by
  induction hs with
  | nil => rfl
  | cons hp _ ih =>
    rw [List.map_append, List.sum_append, ← ih]
    cases hp with
    | tok h1 h2 =>
      obtain ⟨c, rfl, hc⟩ := h _ _ _ h1 h2
      simp [cost, hc]
    | lit h1 => simp [cost]

/-- C91. The loop starts with as many tokens as the table of characters says, and every token that is added
saves at least one: the result needs at most the cheapest character encoding's number of tokens, less the
number of tokens added. -/
theorem C91_total {order : CStats → List (Nat × Nat)} (ho : Traverses order) {samples : List Text} {n : Nat}
    (hn' : n ≤ 65536) (hsize : samples.flatten.length < 2 ^ 64) {ts : CSet} {st : CStats}
    (hrun : optimizeCharsTokens order samples n = .ok (ts, st)) :
    ∃ counts base st0, countChars samples = .ok counts ∧ optimizeCharsByExt counts n = .ok base ∧
      tokenize base (samples.map utf8Encode) = .ok st0 ∧ st0.total = tableCost base counts ∧
      st.total + (n - base.tokens.length) ≤ tableCost base counts := by
  obtain ⟨hn, counts, base, st0, k, h1, h2, h3, h4, h5, h6, h7, h8⟩ := run_ok ho hn' hsize hrun
  obtain ⟨counts', base', st0', k', tops, e1, e2, e3, e4, e5, e6, e7, e8, e9, e10, e11, _⟩ := run_start samples hn hsize
  rw [h1] at e1
  have := Except.ok.inj e1
  subst this
  rw [h3] at e3
  have := Except.ok.inj e3
  subst this
  rw [h4] at e4
  have := Except.ok.inj e4
  subst this
  have htotal : st0.total = tableCost base counts := by
    obtain ⟨st', cut, g1, g2, g3, g4⟩ := C86_samples e10.made (shortEncodings_of e11) samples
    rw [h4] at g1
    have := Except.ok.inj g1
    subst this
    rw [g4.total]
    have hbase : ∀ (i : Nat) (t : CToken) (s : Text), base.tokens[i]? = some t → t.text = some s →
        ∃ c, s = [c] ∧ encLength base c = 1 := by
      intro i t s hi hs
      have hmem := List.mem_of_getElem? hi
      rw [e9.tokens] at hmem
      rcases List.mem_append.1 hmem with hm | hm
      · obtain ⟨a, _, rfl⟩ := List.mem_map.1 hm
        cases hs
      · obtain ⟨c, hc, rfl⟩ := List.mem_map.1 hm
        refine ⟨c, (Option.some.inj hs).symm, ?_⟩
        obtain ⟨a, ha, ha'⟩ := List.getElem_of_mem hc
        rw [encLength_of (e9.own c a (by rw [List.getElem?_eq_getElem ha, ha']))]
        rfl
    have key : ∀ (xs : List Text) (a : List (List Piece)), a.length = xs.length →
        (∀ p ∈ xs.zip a, Cheapest base p.1 p.2) → (a.map (cost base)).sum = (xs.flatten.map (encLength base)).sum := by
      intro xs
      induction xs with
      | nil => intro a ha _; rw [List.length_eq_zero_iff.1 ha]; rfl
      | cons x xs ih =>
        intro a ha hc
        cases a with
        | nil => simp at ha
        | cons p a =>
          rw [List.map_cons, List.sum_cons, List.flatten_cons, List.map_append, List.sum_append,
            ih a (by simpa using ha) (fun y hy => hc y (by simp [hy])),
            spells_base hbase (hc (x, p) (by simp)).spells]
    rw [key samples cut g2 g3]
    exact (table_sum h2 (encLength base)).symm
  refine ⟨counts, base, st0, h1, h3, h4, htotal, ?_⟩
  rw [← htotal]
  exact rounds_total h7

/-! ### When the run does not panic -/

theorem rounds_length {samples : List Text} {m : Nat} {ts ts' : CSet} {st st' : CStats}
    (h : Rounds samples m ts st ts' st') : ts'.tokens.length = ts.tokens.length + m := by
  induction h with
  | none => rfl
  | more h _ ih =>
    obtain ⟨i, j, t, t', s, s', _, _, _, _, _, _, _, rfl, _⟩ := h.pair
    rw [ih]
    simp only [CSet.addString, List.length_append, List.length_singleton]
    omega

theorem rounds_texts {samples : List Text} {m : Nat} {ts ts' : CSet} {st st' : CStats}
    (h : Rounds samples m ts st ts' st') : ∀ (L : Nat), (∀ s, IsToken ts s → s.length ≤ L) →
    ∀ s, IsToken ts' s → s.length ≤ 2 ^ m * L := by
  induction h with
  | none => intro L hL s hs; simpa using hL s hs
  | @more k _ _ _ _ _ _ h _ ih =>
    intro L hL s hs
    obtain ⟨i, j, t, t', x, y, g1, g2, g3, g4, _, _, _, rfl, _⟩ := h.pair
    have h1 := hL x ⟨t, List.mem_of_getElem? g1, g2⟩
    have h2 := hL y ⟨t', List.mem_of_getElem? g3, g4⟩
    have := ih (2 * L) (by
      intro z hz
      rcases isToken_addString hz with hz | rfl
      · have := hL z hz; omega
      · rw [List.length_append]; omega) s hs
    rw [Nat.pow_succ, Nat.mul_assoc]
    exact this

theorem rounds_keep {samples : List Text} {m : Nat} {ts ts' : CSet} {st st' : CStats}
    (h : Rounds samples m ts st ts' st') : ∀ s, IsToken ts s → IsToken ts' s := by
  induction h with
  | none => exact fun _ h => h
  | more h _ ih =>
    rintro s ⟨t, ht, hs⟩
    obtain ⟨i, j, _, _, x, y, _, _, _, _, _, _, _, rfl, _⟩ := h.pair
    exact ih s ⟨t, List.mem_append_left _ ht, hs⟩

theorem rounds_stats {samples : List Text} {m : Nat} {ts ts' : CSet} {st st' : CStats}
    (h : Rounds samples m ts st ts' st') : tokenize ts (samples.map utf8Encode) = .ok st →
    tokenize ts' (samples.map utf8Encode) = .ok st' := by
  induction h with
  | none => exact id
  | more h _ ih => exact fun _ => ih h.stats

/-- A cut without neighbouring tokens, if every character is a token: at most one piece. -/
theorem one_piece {ts : CSet} {ps : List Piece} {x : Text} (hs : Spells ts ps x)
    (hx : ∀ c ∈ x, IsToken ts [c]) (hn : neighbours ps = []) : x = [] ∨ IsToken ts x := by
  have htok : ∀ {p ps x}, Spells ts (p :: ps) x → (∀ c ∈ x, IsToken ts [c]) → ∃ i s y, p = .tok i ∧ x = s ++ y ∧
      Says ts p s ∧ Spells ts ps y := by
    intro p ps x hs hx
    obtain ⟨s, y, rfl, h1, h2⟩ := Chars.spells_cons_inv hs
    cases p with
    | tok i => exact ⟨i, s, y, rfl, rfl, h1, h2⟩
    | lit c =>
      cases h1 with
      | lit h => exact absurd (hx c (by simp)) h
  cases ps with
  | nil => cases hs; exact .inl rfl
  | cons p ps =>
    obtain ⟨i, s, y, rfl, rfl, h1, h2⟩ := htok hs hx
    cases ps with
    | nil =>
      cases h2
      right
      obtain ⟨t, h3, h4⟩ := says_tok_iff.1 h1
      rw [List.append_nil]
      exact ⟨t, List.mem_of_getElem? h3, h4⟩
    | cons q qs =>
      obtain ⟨j, s', y', rfl, rfl, h3, h4⟩ := htok h2 (fun c hc => hx c (List.mem_append_right _ hc))
      cases hn

/-- C91. With at least `n - 2` different characters there is no room for other tokens: the run succeeds. -/
theorem C91_many_chars (order : CStats → List (Nat × Nat)) (ho : Traverses order) (samples : List Text) {n : Nat}
    (hn : 3 ≤ n) (hn' : n ≤ 65536) (hsize : samples.flatten.length < 2 ^ 64) (chars : List Char) (hnd : chars.Nodup)
    (hc : ∀ c ∈ chars, c ∈ samples.flatten) (hl : n ≤ chars.length + 2) :
    ∃ ts st, optimizeCharsTokens order samples n = .ok (ts, st) := by
  obtain ⟨counts, base, st0, k, tops, h1, h2, h3, h4, h5, h6, h7, h8, _⟩ := run_start samples hn hsize
  obtain ⟨counts', base', st0', _, e1, e2, e3, e4, e5, e6⟩ := run_whole order ho samples hn hn' hsize
  rw [h1] at e1
  have := Except.ok.inj e1
  subst this
  rw [h3] at e3
  have := Except.ok.inj e3
  subst this
  rcases e6 with ⟨ts, st, g, _⟩ | ⟨_, m, ts, st, g1, g2, _⟩
  · exact ⟨ts, st, g⟩
  · exfalso
    have := rounds_length g1
    have hle : chars.length ≤ counts.length := by
      have := (hnd.subperm (l₂ := counts.map Prod.fst) (fun c hc' => (table_keys h2 c).2 (hc c hc'))).length_le
      rwa [List.length_map] at this
    omega

/-- C91. If there are at most `n - 8` different characters, so that each gets a token of its own, and some sample
is so long that it cannot have become one token, the run succeeds: no pair is missing. -/
theorem C91_long_sample (order : CStats → List (Nat × Nat)) (ho : Traverses order) (samples : List Text) {n : Nat}
    (hn' : n ≤ 65536) (hsize : samples.flatten.length < 2 ^ 64) (chars : List Char)
    (hc : ∀ c ∈ samples.flatten, c ∈ chars) (hl : chars.length + 8 ≤ n) (x : Text) (hx : x ∈ samples)
    (hlong : 2 ^ n ≤ x.length) :
    ∃ ts st, optimizeCharsTokens order samples n = .ok (ts, st) := by
  have hn : 3 ≤ n := by omega
  obtain ⟨counts, base, st0, k, tops, h1, h2, h3, h4, h5, h6, h7, h8, h9, h10, h11, _⟩ := run_start samples hn hsize
  obtain ⟨counts', base', st0', _, e1, e2, e3, e4, e5, e6⟩ := run_whole order ho samples hn hn' hsize
  rw [h1] at e1
  have := Except.ok.inj e1
  subst this
  rw [h3] at e3
  have := Except.ok.inj e3
  subst this
  rw [h4] at e4
  have := Except.ok.inj e4
  subst this
  rcases e6 with ⟨ts, st, g, _⟩ | ⟨_, m, ts, st, g1, g2, g3⟩
  · exact ⟨ts, st, g⟩
  · exfalso
    have hle : counts.length ≤ chars.length := by
      have := ((table_nodup h2).subperm (l₂ := chars) (fun c hc' => hc c ((table_keys h2 c).1 hc'))).length_le
      rwa [List.length_map] at this
    have hlen := h9.length
    have htops : ∀ c ∈ samples.flatten, c ∈ tops := by
      have hsp := h9.nodup.subperm (l₂ := counts.map Prod.fst) h9.sub
      have hp := hsp.perm_of_length_le (by rw [List.length_map]; omega)
      intro c hc'
      exact hp.mem_iff.2 ((table_keys h2 c).2 hc')
    have htok : ∀ c ∈ samples.flatten, IsToken base [c] := by
      intro c hc'
      refine ⟨.char c, ?_, rfl⟩
      rw [h9.tokens]
      exact List.mem_append_right _ (List.mem_map.2 ⟨c, htops c hc', rfl⟩)
    have htexts : ∀ s, IsToken base s → s.length ≤ 1 := by
      rintro s ⟨t, ht, hs⟩
      rw [h9.tokens] at ht
      rcases List.mem_append.1 ht with hm | hm
      · obtain ⟨a, _, rfl⟩ := List.mem_map.1 hm
        cases hs
      · obtain ⟨c, hc, rfl⟩ := List.mem_map.1 hm
        rw [← Option.some.inj hs]
        rfl
    have hsound := (sound_rounds g1 h10 (by omega)).1
    obtain ⟨st', cut, f1, f2, f3, f4⟩ := C86_samples hsound.made (shortEncodings_of (short_of_sound h2 hsize hsound)) samples
    rw [rounds_stats g1 h4] at f1
    have := Except.ok.inj f1
    subst this
    obtain ⟨ps, hps⟩ : ∃ ps, (x, ps) ∈ samples.zip cut := by
      have : ∀ (xs : List Text) (a : List (List Piece)), a.length = xs.length → x ∈ xs → ∃ ps, (x, ps) ∈ xs.zip a := by
        intro xs
        induction xs with
        | nil => intro a _ h; cases h
        | cons y xs ih =>
          intro a ha h
          cases a with
          | nil => simp at ha
          | cons p a =>
            rcases List.mem_cons.1 h with rfl | h
            · exact ⟨p, by simp⟩
            · obtain ⟨q, hq⟩ := ih a (by simpa using ha) h
              exact ⟨q, by simp [hq]⟩
      exact this samples cut f2 hx
    have hnb : neighbours ps = [] := by
      by_contra hne
      obtain ⟨p, hp⟩ := List.exists_mem_of_ne_nil _ hne
      have h1 := f4.pairs (by omega) p.1 p.2
      rw [g3] at h1
      have h2 : (neighbours ps).count (p.1, p.2) ≤ (cut.map (fun ps => (neighbours ps).count (p.1, p.2))).sum :=
        List.single_le_sum (by simp) _ (List.mem_map.2 ⟨ps, (List.of_mem_zip hps).2, rfl⟩)
      have h3 : 0 < (neighbours ps).count (p.1, p.2) := List.count_pos_iff.2 hp
      rw [← h1] at h2
      omega
    have hsp : Spells ts ps x := (f3 _ hps).spells
    have hone := one_piece hsp (fun c hc' => rounds_keep g1 _ (htok c
      (List.mem_flatten.2 ⟨x, hx, hc'⟩))) hnb
    have hm : m < n := by have := rounds_length g1; omega
    have hpow : 2 ^ m < 2 ^ n := Nat.pow_lt_pow_right (by omega) hm
    have h2m := Nat.two_pow_pos n
    rcases hone with h | h
    · rw [h] at hlong
      simp at hlong
    · have := rounds_texts g1 1 htexts x h
      omega

/-! ### Example -/

open Classical in
/-- An order in which the maps are traversed. -/
noncomputable def someOrder (st : CStats) : List (Nat × Nat) :=
  if h : ∃ b, ∀ i j, 0 < st.pairs i j → i < b ∧ j < b then
    ((List.range h.choose).flatMap (fun i => (List.range h.choose).map (fun j => (i, j)))).filter
      (fun p => decide (0 < st.pairs p.1 p.2))
  else []

theorem someOrder_traverses : Traverses someOrder := by
  intro st b hb i j
  have h : ∃ b, ∀ i j, 0 < st.pairs i j → i < b ∧ j < b := ⟨b, hb⟩
  unfold someOrder
  rw [dif_pos h, List.mem_filter]
  constructor
  · rintro ⟨_, h⟩
    simpa using h
  · intro hp
    refine ⟨?_, by simpa using hp⟩
    rw [List.mem_flatMap]
    exact ⟨i, by simpa using (h.choose_spec i j hp).1, by simpa using (h.choose_spec i j hp).2⟩

-- a text with five different characters and five tokens
example : ∃ ts st, optimizeCharsTokens someOrder [['a', 'b', 'r', 'a'], ['c', 'a', 'd']] 5 = .ok (ts, st) ∧
    ts.tokens.length = 5 := by
  obtain ⟨ts, st, h⟩ := C91_many_chars someOrder someOrder_traverses [['a', 'b', 'r', 'a'], ['c', 'a', 'd']] (n := 5)
    (by decide) (by decide) (by norm_num) ['a', 'b', 'r', 'c', 'd'] (by decide) (by decide) (by decide)
  exact ⟨ts, st, h, (C91_result someOrder_traverses (by decide) (by norm_num) h).2.1⟩

-- a text with one character: other tokens are added
example : ∃ ts st, optimizeCharsTokens someOrder [List.replicate 512 'a'] 9 = .ok (ts, st) ∧
    ts.tokens.length = 9 := by
  have hs : [List.replicate 512 'a'].flatten.length < 2 ^ 64 := by
    rw [List.flatten_singleton, List.length_replicate]; norm_num
  obtain ⟨ts, st, h⟩ := C91_long_sample someOrder someOrder_traverses [List.replicate 512 'a'] (n := 9)
    (by decide) hs ['a'] (by
      intro c hc
      rw [List.flatten_singleton] at hc
      simp [List.eq_of_mem_replicate hc]) (by decide) _ (List.mem_singleton.2 rfl)
    (by rw [List.length_replicate]; norm_num)
  exact ⟨ts, st, h, (C91_result someOrder_traverses (by decide) hs h).2.1⟩

end Tokens.Props
