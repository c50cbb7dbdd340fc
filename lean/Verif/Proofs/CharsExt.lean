import Verif.Proofs.CharsGrow

/-! The choice of the number of ext tokens; decoding. -/

namespace Tokens
namespace Chars
open Spec.Chars Props

theorem charsTotal_spec {ts : CSet} : ∀ (counts : Counts) (total : Nat),
    (∀ p ∈ counts, ∃ e, encOf ts p.1 = some e) → charsTotal ts counts total = .ok (total + tableCost ts counts) := by
  intro counts
  induction counts with
  | nil => intro total _; rfl
  | cons p counts ih =>
    intro total h
    obtain ⟨e, he⟩ := h p (by simp)
    obtain ⟨c, n⟩ := p
    unfold charsTotal
    rw [charEncoding_of he, R.ok_bind, ih _ (fun q hq => h q (by simp [hq]))]
    unfold tableCost
    rw [List.map_cons, List.sum_cons, encLength_of he, Nat.add_assoc]

/-- What is known of a set made by `optimize_chars`. -/
theorem optimizeChars_good {counts : Counts} (ho : Ordered counts) {u : Char → Nat} (hag : Agrees u counts)
    {n k : Nat} (hk : 2 ≤ k) (hkn : k < n) : ∃ ts tops, optimizeChars counts (n - k) k = .ok ts ∧
      tops.length = min (n - k) counts.length ∧ CharsInv u (weight counts) k counts ts tops ∧
      charsTotal ts counts 0 = .ok (tableCost ts counts) := by
  obtain ⟨ts, tops, h1, h2, h3⟩ := optimizeChars_spec ho hag (show 1 ≤ n - k by omega) hk
  refine ⟨ts, tops, h1, h2, h3, ?_⟩
  rw [charsTotal_spec counts 0 (fun p hp => (h3.enc p.1).1 (List.mem_map.2 ⟨p, hp, rfl⟩)), Nat.zero_add]

/-- The better of two sets. -/
def takeBest (best : Option (CSet × Nat)) (ts : CSet) (total : Nat) : Option (CSet × Nat) :=
  match best with
  | none => some (ts, total)
  | some (b, m) => if total < m then some (ts, total) else some (b, m)

theorem byExtLoop_spec {counts : Counts} (ho : Ordered counts) {u : Char → Nat} (hag : Agrees u counts) {n : Nat} :
    ∀ (ks : List Nat) (best : Option (CSet × Nat)), (∀ k ∈ ks, 2 ≤ k ∧ k < n) →
    (∀ b, best = some b → b.2 = tableCost b.1 counts) →
    ∃ r, byExtLoop counts n ks best = .ok r ∧ (r = none ↔ best = none ∧ ks = []) ∧
      ∀ b, r = some b → b.2 = tableCost b.1 counts ∧
        (best = some b ∨ ∃ k ∈ ks, optimizeChars counts (n - k) k = .ok b.1) ∧
        (∀ b', best = some b' → b.2 ≤ b'.2) ∧
        ∀ k ∈ ks, ∀ ts, optimizeChars counts (n - k) k = .ok ts → b.2 ≤ tableCost ts counts := by
  intro ks
  induction ks with
  | nil =>
    intro best _ hb
    refine ⟨best, rfl, by simp, ?_⟩
    intro b h
    exact ⟨hb b h, .inl h, fun b' h' => by rw [h] at h'; rw [Option.some.inj h'], by simp⟩
  | cons k ks ih =>
    intro best hks hb
    obtain ⟨hk, hkn⟩ := hks k (by simp)
    obtain ⟨ts, tops, h1, h2, h3, h4⟩ := optimizeChars_good ho hag hk hkn
    unfold byExtLoop
    rw [subR_of (by omega), R.ok_bind, h1, R.ok_bind, h4, R.ok_bind]
    have hstep : ∃ b0 : CSet × Nat, takeBest best ts (tableCost ts counts) = some b0 ∧
        b0.2 = tableCost b0.1 counts ∧ (best = some b0 ∨ b0.1 = ts) ∧ b0.2 ≤ tableCost ts counts ∧
        ∀ b', best = some b' → b0.2 ≤ b'.2 := by
      cases best with
      | none => exact ⟨(ts, tableCost ts counts), rfl, rfl, .inr rfl, Nat.le_refl _, by intro b' h; cases h⟩
      | some x =>
        obtain ⟨b, m⟩ := x
        unfold takeBest
        dsimp only
        split
        · rename_i hlt
          refine ⟨(ts, tableCost ts counts), rfl, rfl, .inr rfl, Nat.le_refl _, ?_⟩
          intro b' h
          rw [← Option.some.inj h]
          exact Nat.le_of_lt hlt
        · rename_i hlt
          refine ⟨(b, m), rfl, hb _ rfl, .inl rfl, by dsimp only; omega, ?_⟩
          intro b' h
          rw [← Option.some.inj h]
    obtain ⟨b0, g1, g2, g3, g4, g5⟩ := hstep
    change ∃ r, byExtLoop counts n ks (takeBest best ts (tableCost ts counts)) = .ok r ∧ _
    rw [g1]
    obtain ⟨r, f1, f2, f3⟩ := ih (some b0) (fun k hk => hks k (by simp [hk])) (by
      intro b h; rw [← Option.some.inj h]; exact g2)
    refine ⟨r, f1, by rw [f2]; simp, ?_⟩
    intro b hbr
    obtain ⟨e1, e2, e3, e4⟩ := f3 b hbr
    refine ⟨e1, ?_, ?_, ?_⟩
    · rcases e2 with e2 | ⟨k', hk', e2⟩
      · have := Option.some.inj e2
        subst this
        rcases g3 with g3 | g3
        · exact .inl g3
        · exact .inr ⟨k, by simp, by rw [g3]; exact h1⟩
      · exact .inr ⟨k', by simp [hk'], e2⟩
    · intro b' hb'
      exact Nat.le_trans (e3 b0 rfl) (g5 b' hb')
    · intro k' hk' ts' hts'
      rcases List.mem_cons.1 hk' with rfl | hk'
      · rw [h1] at hts'
        have := Except.ok.inj hts'
        subst this
        exact Nat.le_trans (e3 b0 rfl) g4
      · exact e4 k' hk' ts' hts'

theorem mem_exts {n k : Nat} : k ∈ (List.range (min (n - 1) 8 + 1)).drop 2 ↔ 2 ≤ k ∧ k < n ∧ k ≤ 8 ∨
    (2 ≤ k ∧ n = 0 ∧ k ≤ 0) := by
  rw [List.range_eq_range', List.drop_range', List.mem_range'_1]
  omega

theorem byExt_spec {counts : Counts} (ho : Ordered counts) {u : Char → Nat} (hag : Agrees u counts) {n : Nat}
    (hn : 3 ≤ n) : ∃ ts k, optimizeCharsByExt counts n = .ok ts ∧ 2 ≤ k ∧ k < n ∧ k ≤ 8 ∧
      optimizeChars counts (n - k) k = .ok ts ∧
      ∀ k' ts', 2 ≤ k' → k' < n → k' ≤ 8 → optimizeChars counts (n - k') k' = .ok ts' →
        tableCost ts counts ≤ tableCost ts' counts := by
  obtain ⟨r, h1, h2, h3⟩ := byExtLoop_spec ho hag (n := n) ((List.range (min (n - 1) 8 + 1)).drop 2) none (by
    intro k hk
    rcases mem_exts.1 hk with h | h <;> omega) (by intro b h; cases h)
  have hne : r ≠ none := by
    intro e
    have := (h2.1 e).2
    have h : 2 ∈ (List.range (min (n - 1) 8 + 1)).drop 2 := mem_exts.2 (.inl (by omega))
    rw [this] at h
    cases h
  cases r with
  | none => exact absurd rfl hne
  | some b =>
    obtain ⟨e1, e2, _, e4⟩ := h3 b rfl
    rcases e2 with e2 | ⟨k, hk, e2⟩
    · cases e2
    · refine ⟨b.1, k, ?_, ?_⟩
      · unfold optimizeCharsByExt
        rw [subR_of (by omega), R.ok_bind, h1, R.ok_bind, unwrapR_some, R.ok_bind]
      · have := mem_exts.1 hk
        refine ⟨by omega, by omega, by omega, e2, ?_⟩
        intro k' ts' g1 g2 g3 g4
        rw [← e1]
        exact e4 k' (mem_exts.2 (.inl ⟨g1, g2, g3⟩)) ts' g4

theorem byExt_few {counts : Counts} {n : Nat} (hn : n < 3) :
    optimizeCharsByExt counts n = .error (if n = 0 then .underflow else .unwrapNone) := by
  unfold optimizeCharsByExt
  by_cases h0 : n = 0
  · subst h0
    rfl
  · rw [subR_of (by omega), R.ok_bind, if_neg h0]
    have : (List.range (min (n - 1) 8 + 1)).drop 2 = [] := by
      rw [List.drop_eq_nil_iff, List.length_range]
      omega
    rw [this]
    rfl

/-! ### The sets of the optimizer -/

/-- What is known of a set of the optimizer. -/
structure Sound (counts : Counts) (w : Nat) (ts : CSet) (nExt : Nat) : Prop where
  made : Made ts
  own : OwnTexts ts
  exts : ∀ i t, ts.tokens[i]? = some t → (t.text = none ↔ i < nExt)
  enc : ∀ c, c ∈ counts.map Prod.fst ↔ ∃ e, encOf ts c = some e
  code : ∀ c e, encOf ts c = some e → (∃ i, e = [i] ∧ ts.tokens[i]? = some (.char c)) ∨
    (¬ IsToken ts [c] ∧ ∃ t ds, e = t :: ds ∧ nExt ≤ t ∧ t < ts.tokens.length ∧ ds ≠ [] ∧ ∀ d ∈ ds, d < nExt)
  inj : ∀ c c' e, encOf ts c = some e → encOf ts c' = some e → c = c'
  short : ∀ c m e, (c, m) ∈ counts → encOf ts c = some e → ShortFor m (e.length - 2) w

theorem _root_.Tokens.Chars.CharsInv.sound {u : Char → Nat} {counts : Counts} (hag : Agrees u counts) {w k : Nat}
    {ts : CSet} {tops : List Char} (h : CharsInv u w k counts ts tops) : Sound counts w ts k := by
  have hget : ∀ i t, ts.tokens[i]? = some t → (i < k ∧ t.text = none) ∨
      (k ≤ i ∧ ∃ c, tops[i - k]? = some c ∧ t = .char c) := by
    intro i t hi
    rw [h.tokens] at hi
    by_cases hlt : i < k
    · rw [List.getElem?_append_left (by simpa using hlt)] at hi
      left
      refine ⟨hlt, ?_⟩
      rw [List.getElem?_map] at hi
      cases hr : (List.range k)[i]? with
      | none => rw [hr] at hi; cases hi
      | some a =>
        rw [hr] at hi
        rw [← Option.some.inj hi]
        rfl
    · rw [List.getElem?_append_right (by simpa using hlt)] at hi
      right
      refine ⟨by omega, ?_⟩
      rw [List.getElem?_map, List.length_map, List.length_range] at hi
      cases hr : tops[i - k]? with
      | none => rw [hr] at hi; cases hi
      | some a =>
        rw [hr] at hi
        exact ⟨a, rfl, (Option.some.inj hi).symm⟩
  have htok : ∀ c, IsToken ts [c] → c ∈ tops := by
    rintro c ⟨t, ht, hx⟩
    obtain ⟨i, hi, hi'⟩ := List.getElem_of_mem ht
    rcases hget i t (by rw [List.getElem?_eq_getElem hi, hi']) with ⟨_, h2⟩ | ⟨_, d, h2, rfl⟩
    · rw [h2] at hx; cases hx
    · have := Option.some.inj hx
      simp only [List.cons.injEq, and_true] at this
      subst this
      exact List.mem_of_getElem? h2
  refine ⟨h.made, ⟨?_, ?_⟩, ?_, h.enc, ?_, h.inj, ?_⟩
  · intro i j t t' s hi hj ht ht'
    rcases hget i t hi with ⟨_, h1⟩ | ⟨hki, c, h1, rfl⟩
    · rw [h1] at ht; cases ht
    · rcases hget j t' hj with ⟨_, h2⟩ | ⟨hkj, d, h2, rfl⟩
      · rw [h2] at ht'; cases ht'
      · rw [← ht'] at ht
        have := Option.some.inj ht
        simp only [List.cons.injEq, and_true] at this
        subst this
        have e := (List.getElem?_inj (by
          by_contra hge
          rw [List.getElem?_eq_none (by omega)] at h1
          cases h1) h.nodup).1 (h1.trans h2.symm)
        omega
  · intro t ht e
    obtain ⟨i, hi, hi'⟩ := List.getElem_of_mem ht
    rcases hget i t (by rw [List.getElem?_eq_getElem hi, hi']) with ⟨_, h2⟩ | ⟨_, d, h2, rfl⟩
    · rw [h2] at e; cases e
    · cases e
  · intro i t hi
    rcases hget i t hi with ⟨h1, h2⟩ | ⟨h1, c, _, rfl⟩
    · exact ⟨fun _ => h1, fun _ => h2⟩
    · constructor
      · intro h; cases h
      · intro h; omega
  · intro c e he
    by_cases hc : c ∈ tops
    · left
      obtain ⟨i, hi, hi'⟩ := List.getElem_of_mem hc
      have hti : tops[i]? = some c := by rw [List.getElem?_eq_getElem hi, hi']
      have := h.own c i hti
      rw [he] at this
      refine ⟨k + i, Option.some.inj this, ?_⟩
      rw [h.tokens, List.getElem?_append_right (by simp), List.getElem?_map, List.length_map, List.length_range,
        Nat.add_sub_cancel_left, hti]
      rfl
    · exact .inr ⟨fun ht => hc (htok c ht), h.code c e hc he⟩
  · intro c m e hm he
    have := hag _ hm
    rw [show m = u c from this]
    exact h.short c e he

theorem Sound.add {counts : Counts} {w k : Nat} {ts : CSet} (h : Sound counts w ts k) {s : Text}
    (hs : ¬ IsToken ts s) (hl : 2 ≤ s.length) (hk : k ≤ ts.tokens.length) : Sound counts w (ts.addString s) k := by
  have hne : s ≠ [] := by rintro rfl; simp at hl
  refine ⟨.string s h.made, ownTexts_addString h.own hs hne, ?_, h.enc, ?_, h.inj, h.short⟩
  · intro i t hi
    have hi : (ts.tokens ++ [.str s])[i]? = some t := hi
    by_cases hlt : i < ts.tokens.length
    · rw [List.getElem?_append_left hlt] at hi
      exact h.exts i t hi
    · rw [List.getElem?_append_right (by omega)] at hi
      have h0 : i - ts.tokens.length = 0 := by
        by_contra hne
        rw [List.getElem?_eq_none (by simp; omega)] at hi
        cases hi
      rw [h0] at hi
      rw [← Option.some.inj hi]
      constructor
      · intro h; cases h
      · intro h; omega
  · intro c e he
    rcases h.code c e he with ⟨i, h1, h2⟩ | ⟨h1, t, ds, h2, h3, h4, h5, h6⟩
    · refine .inl ⟨i, h1, ?_⟩
      show (ts.tokens ++ [_])[i]? = _
      rw [List.getElem?_append_left]
      · exact h2
      · by_contra hge
        rw [List.getElem?_eq_none (by omega)] at h2
        cases h2
    · refine .inr ⟨?_, t, ds, h2, h3, ?_, h5, h6⟩
      · intro ht
        rcases isToken_addString ht with ht | ht
        · exact h1 ht
        · rw [← ht] at hl; simp at hl
      · show t < (ts.tokens ++ [_]).length
        rw [List.length_append]
        omega

/-- The numbers of a code, taken apart. -/
theorem split_codes {k : Nat} {a b : Nat} {as bs x y : List Nat} (ha : k ≤ a) (hb : k ≤ b)
    (has : ∀ d ∈ as, d < k) (hbs : ∀ d ∈ bs, d < k) (hx : ∀ d, x.head? = some d → k ≤ d)
    (hy : ∀ d, y.head? = some d → k ≤ d) (h : a :: as ++ x = b :: bs ++ y) : a = b ∧ as = bs ∧ x = y := by
  have key : ∀ (as bs : List Nat), (∀ d ∈ as, d < k) → (∀ d ∈ bs, d < k) → as ++ x = bs ++ y → as = bs ∧ x = y := by
    intro as
    induction as with
    | nil =>
      intro bs _ hbs h
      cases bs with
      | nil => exact ⟨rfl, h⟩
      | cons b bs =>
        have := hx b (by rw [List.nil_append] at h; rw [h]; rfl)
        have := hbs b (by simp)
        omega
    | cons a as ih =>
      intro bs has hbs h
      cases bs with
      | nil =>
        have := hy a (by rw [List.nil_append] at h; rw [← h]; rfl)
        have := has a (by simp)
        omega
      | cons b bs =>
        simp only [List.cons_append, List.cons.injEq] at h
        obtain ⟨h1, h2⟩ := ih bs (fun d hd => has d (by simp [hd])) (fun d hd => hbs d (by simp [hd])) h.2
        exact ⟨by rw [h.1, h1], h2⟩
  simp only [List.cons_append, List.cons.injEq] at h
  obtain ⟨h1, h2⟩ := key as bs has hbs h.2
  exact ⟨h.1, h1, h2⟩

/-- The code of a piece: a number of a token with a text, then numbers of ext tokens. -/
theorem Sound.piece {counts : Counts} {w k : Nat} {ts : CSet} (h : Sound counts w ts k) {p : Piece}
    {ps : List Piece} {s y : Text} (hp : Says ts p s) (hs : Spells ts ps y) {v : List Nat}
    (hw : Written ts (p :: ps) v) : ∃ t ds v', v = t :: ds ++ v' ∧ k ≤ t ∧ (∀ d ∈ ds, d < k) ∧ Written ts ps v' ∧
      ((p = .tok t ∧ ds = []) ∨ (∃ c, p = .lit c ∧ ds ≠ [] ∧ encOf ts c = some (t :: ds))) := by
  cases hw with
  | tok i hw =>
    obtain ⟨t, h1, h2⟩ := says_tok_iff.1 hp
    refine ⟨i, [], _, rfl, ?_, by simp, hw, .inl ⟨rfl, rfl⟩⟩
    by_contra hlt
    have := (h.exts i t h1).2 (by omega)
    rw [h2] at this
    cases this
  | @lit _ w' c e hc hw =>
    cases hp with
    | lit hnot =>
      rcases h.code c e hc with ⟨i, h1, h2⟩ | ⟨_, t, ds, h1, h2, h3, h4, h5⟩
      · exact absurd ⟨_, List.mem_of_getElem? h2, rfl⟩ hnot
      · subst h1
        exact ⟨t, ds, w', rfl, h2, h5, hw, .inr ⟨c, rfl, h4, hc⟩⟩

theorem Sound.head {counts : Counts} {w k : Nat} {ts : CSet} (h : Sound counts w ts k) {ps : List Piece}
    {x : Text} (hs : Spells ts ps x) {v : List Nat} (hw : Written ts ps v) : ∀ d, v.head? = some d → k ≤ d := by
  intro d hd
  cases hs with
  | nil => cases hw; cases hd
  | cons hp hs =>
    obtain ⟨t, ds, v', rfl, h2, _⟩ := h.piece hp hs hw
    have := Option.some.inj hd
    omega

/-- The pieces can be read off the numbers. -/
theorem Sound.decode {counts : Counts} {w k : Nat} {ts : CSet} (h : Sound counts w ts k) : ∀ (ps qs : List Piece)
    (x y : Text) (v : List Nat), Spells ts ps x → Spells ts qs y → Written ts ps v → Written ts qs v → ps = qs := by
  intro ps
  induction ps with
  | nil =>
    intro qs x y v _ hy hv hv'
    cases hv
    cases hy with
    | nil => rfl
    | cons hp hs =>
      obtain ⟨t, ds, v', h1, _⟩ := h.piece hp hs hv'
      cases h1
  | cons p ps ih =>
    intro qs x y v hx hy hv hv'
    obtain ⟨s, x', rfl, hp, hs⟩ := spells_cons_inv hx
    obtain ⟨t, ds, v1, h1, h2, h3, h4, h5⟩ := h.piece hp hs hv
    cases qs with
    | nil => cases hv'; cases h1
    | cons q qs =>
      obtain ⟨s', y', rfl, hq, hs'⟩ := spells_cons_inv hy
      obtain ⟨t', ds', v2, g1, g2, g3, g4, g5⟩ := h.piece hq hs' hv'
      rw [h1] at g1
      obtain ⟨e1, e2, e3⟩ := split_codes h2 g2 h3 g3 (h.head hs h4) (h.head hs' g4) g1
      subst e1 e2 e3
      have := ih qs x' y' v1 hs hs' h4 g4
      subst this
      rcases h5 with ⟨rfl, h5⟩ | ⟨c, rfl, h5, h6⟩ <;> rcases g5 with ⟨rfl, g5⟩ | ⟨c', rfl, g5, g6⟩
      · rfl
      · exact absurd h5 g5
      · exact absurd g5 h5
      · rw [h.inj c c' _ h6 g6]

theorem spells_text {ts : CSet} {ps : List Piece} {x : Text} (hx : Spells ts ps x) : ∀ {y : Text}, Spells ts ps y →
    x = y := by
  induction hx with
  | nil => intro y hy; cases hy; rfl
  | cons hp _ ih =>
    intro y hy
    obtain ⟨s, z, rfl, hp', hs'⟩ := spells_cons_inv hy
    have e := ih hs'
    have e2 : ∀ {p : Piece} {s s' : Text}, Says ts p s → Says ts p s' → s = s' := by
      intro p s s' h1 h2
      cases h1 with
      | tok h3 h4 => exact (says_tok h2 h3 h4).symm
      | lit _ => cases h2; rfl
    rw [e, e2 hp hp']

/-- Texts of counted characters can be written. -/
theorem Sound.written {counts : Counts} {w k : Nat} {ts : CSet} (h : Sound counts w ts k) {ps : List Piece}
    {x : Text} (hs : Spells ts ps x) (hx : ∀ c ∈ x, c ∈ counts.map Prod.fst) :
    ∃ v, Written ts ps v ∧ v.length = cost ts ps ∧ ∀ i ∈ v, i < ts.tokens.length := by
  induction hs with
  | nil => exact ⟨[], .nil, rfl, by simp⟩
  | @cons p ps s y hp _ ih =>
    obtain ⟨v, h1, h2, h3⟩ := ih (fun c hc => hx c (List.mem_append_right _ hc))
    have hk : ∀ t ds, k ≤ t → t < ts.tokens.length → (∀ d ∈ ds, d < k) → ∀ i ∈ t :: ds, i < ts.tokens.length := by
      intro t ds k1 k2 k3 i hi
      rcases List.mem_cons.1 hi with rfl | hi
      · exact k2
      · have := k3 i hi; omega
    cases hp with
    | @tok i t _ hi _ =>
      refine ⟨i :: v, .tok i h1, by simp [cost, h2]; omega, ?_⟩
      intro a ha
      rcases List.mem_cons.1 ha with rfl | ha
      · by_contra hge
        rw [List.getElem?_eq_none (by omega)] at hi
        cases hi
      · exact h3 a ha
    | @lit c hnot =>
      obtain ⟨e, he⟩ := (h.enc c).1 (hx c (by simp))
      refine ⟨e ++ v, .lit he h1, by rw [List.length_append, cost, encLength_of he, h2], ?_⟩
      intro a ha
      rcases List.mem_append.1 ha with ha | ha
      · rcases h.code c e he with ⟨i, h4, h5⟩ | ⟨_, t, ds, h4, h5, h6, h7, h8⟩
        · exact absurd ⟨_, List.mem_of_getElem? h5, rfl⟩ hnot
        · rw [h4] at ha
          exact hk t ds h5 h6 h8 a ha
      · exact h3 a ha

end Chars
end Tokens
