import Verif.Proofs.CharsFile
import Verif.Props.CharsOptimizer

/-!
C103: the file that the optimizer over characters writes (`/repo/src/chars`, not part of the program).
-/

set_option linter.unusedVariables false

namespace Tokens.Props
open Tokens Tokens.Chars Tokens.Spec.Chars Tokens.Spec

/-! ### The sets of a run can be recovered -/

theorem plain_base {samples : List Text} {counts : Counts} {base : CSet} {k : Nat} {tops : List Char} (hk : k ≤ 8)
    (h : CharsInv (fun c => samples.flatten.count c) (Chars.weight counts) k counts base tops)
    (hs : Sound counts (Chars.weight counts) base k) : Chars.Plain base := by
  have htok : ∀ t ∈ base.tokens, (∃ i < k, t = .ext i) ∨ ∃ c ∈ tops, t = .char c := by
    intro t ht
    rw [h.tokens] at ht
    rcases List.mem_append.1 ht with hm | hm
    · obtain ⟨a, ha, rfl⟩ := List.mem_map.1 hm
      have := List.mem_range.1 ha
      exact .inl ⟨a, this, by rw [Nat.mod_eq_of_lt (by omega)]⟩
    · obtain ⟨c, hc, rfl⟩ := List.mem_map.1 hm
      exact .inr ⟨c, hc, rfl⟩
  refine ⟨hs.made, hs.own, ?_, ?_, ?_, ?_, ?_⟩
  · intro i m hi
    have hlt := (hs.exts i _ hi).1 rfl
    rw [h.tokens, List.getElem?_append_left (by simpa using hlt), List.getElem?_map, List.getElem?_range hlt] at hi
    have := Option.some.inj hi
    rw [CToken.ext.injEq, Nat.mod_eq_of_lt (by omega)] at this
    exact this.symm
  · intro m hm
    rcases htok _ hm with ⟨i, hi, e⟩ | ⟨c, -, e⟩
    · rw [CToken.ext.injEq] at e
      omega
    · cases e
  · intro t ht c hc
    rcases htok t ht with ⟨i, hi, rfl⟩ | ⟨d, hd, rfl⟩
    · cases hc
    · obtain rfl := List.singleton_inj.1 (Option.some.inj hc)
      exact ⟨rfl, (h.enc d).1 (h.sub d hd)⟩
  · intro c e he
    rcases hs.code c e he with h | ⟨h1, t, ds, rfl, -, -, hne, -⟩
    · exact .inl h
    · refine .inr ⟨?_, h1⟩
      have := List.length_pos_iff.2 hne
      rw [List.length_cons]
      omega
  · intro c e he i hi
    rcases hs.code c e he with ⟨j, rfl, hj⟩ | ⟨h1, t, ds, rfl, h2, h3, hne, h4⟩
    · rw [List.mem_singleton.1 hi]
      exact (List.getElem?_eq_some_iff.1 hj).1
    · rcases List.mem_cons.1 hi with rfl | hi
      · exact h3
      · have := h4 i hi; omega

theorem plain_rounds {samples : List Text} {m : Nat} {ts ts' : CSet} {st st' : CStats}
    (hr : Rounds samples m ts st ts' st') : Chars.Plain ts → Chars.Plain ts' := by
  induction hr with
  | none => exact id
  | @more _ ts0 _ _ _ _ _ h1 _ ih =>
    intro h
    obtain ⟨i, j, t, t', s, s', g1, g2, g3, g4, _, _, g5, rfl, _⟩ := h1.pair
    refine ih ?_
    have hn1 : s ≠ [] := fun e => h.own.nonempty t (List.mem_of_getElem? g1) (by rw [g2, e])
    have hn2 : s' ≠ [] := fun e => h.own.nonempty t' (List.mem_of_getElem? g3) (by rw [g4, e])
    have hlen : 2 ≤ (s ++ s').length := by
      have := List.length_pos_iff.2 hn1
      have := List.length_pos_iff.2 hn2
      rw [List.length_append]
      omega
    have hget : ∀ (a : Nat) (u : CToken), (ts0.addString (s ++ s')).tokens[a]? = some u →
        ts0.tokens[a]? = some u ∨ (a = ts0.tokens.length ∧ u = .str (s ++ s')) := by
      intro a u hu
      change (ts0.tokens ++ [CToken.str (s ++ s')])[a]? = some u at hu
      by_cases ha : a < ts0.tokens.length
      · rw [List.getElem?_append_left ha] at hu
        exact .inl hu
      · rw [List.getElem?_append_right (by omega)] at hu
        have := (List.getElem?_eq_some_iff.1 hu).1
        simp only [List.length_singleton] at this
        have ha : a - ts0.tokens.length = 0 := by omega
        rw [ha] at hu
        exact .inr ⟨by omega, (Option.some.inj hu).symm⟩
    have hmem : ∀ u ∈ (ts0.addString (s ++ s')).tokens, u ∈ ts0.tokens ∨ u = .str (s ++ s') := by
      intro u hu
      rcases List.mem_append.1 hu with hu | hu
      · exact .inl hu
      · exact .inr (List.mem_singleton.1 hu)
    refine ⟨.string _ h.made, ⟨?_, ?_⟩, ?_, ?_, ?_, ?_, ?_⟩
    · intro a b u u' x h1 h2 h3 h4
      rcases hget a u h1 with h1 | ⟨rfl, rfl⟩
      · rcases hget b u' h2 with h2 | ⟨rfl, rfl⟩
        · exact h.own.own a b u u' x h1 h2 h3 h4
        · exact absurd ⟨u, List.mem_of_getElem? h1, by rw [h3, ← h4]; rfl⟩ g5
      · rcases hget b u' h2 with h2 | ⟨rfl, rfl⟩
        · exact absurd ⟨u', List.mem_of_getElem? h2, by rw [h4, ← h3]; rfl⟩ g5
        · rfl
    · intro u hu
      rcases hmem u hu with hu | rfl
      · exact h.own.nonempty u hu
      · intro e
        have := Option.some.inj e
        rw [this] at hlen
        simp at hlen
    · intro a b hab
      rcases hget a _ hab with hab | ⟨_, e⟩
      · exact h.ext a b hab
      · cases e
    · intro a ha
      rcases hmem _ ha with ha | e
      · exact h.small a ha
      · cases e
    · intro u hu c hc
      rcases hmem u hu with hu | rfl
      · exact h.single u hu c hc
      · have := Option.some.inj hc
        rw [this] at hlen
        simp at hlen
    · intro c e he
      rcases h.code c e he with ⟨a, h1, h2⟩ | ⟨h1, h2⟩
      · exact .inl ⟨a, h1, by
          show (ts0.tokens ++ _)[a]? = _
          rw [List.getElem?_append_left (List.getElem?_eq_some_iff.1 h2).1]
          exact h2⟩
      · refine .inr ⟨h1, ?_⟩
        rintro ⟨u, hu, hx⟩
        rcases hmem u hu with hu | rfl
        · exact h2 ⟨u, hu, hx⟩
        · have := Option.some.inj hx
          rw [this] at hlen
          simp at hlen
    · intro c e he a ha
      have := h.range c e he a ha
      show a < (ts0.tokens ++ _).length
      rw [List.length_append]
      omega

theorem run_plain {order : CStats → List (Nat × Nat)} (ho : Traverses order) {samples : List Text} {n : Nat}
    (hn' : n ≤ 65536) (hsize : samples.flatten.length < 2 ^ 64) {ts : CSet} {st : CStats}
    (hrun : optimizeCharsTokens order samples n = .ok (ts, st)) : Chars.Plain ts ∧ ts.tokens.length = n := by
  obtain ⟨hn, counts, base, st0, _, h1, h2, h3, h4, h5, h6, h7, -⟩ := run_ok ho hn' hsize hrun
  obtain ⟨counts', base', st0', k, tops, e1, e2, e3, e4, e5, e6, e7, e8, e9, e10, -⟩ := run_start samples hn hsize
  rw [h1] at e1
  obtain rfl := Except.ok.inj e1
  rw [h3] at e3
  obtain rfl := Except.ok.inj e3
  exact ⟨plain_rounds h7 (plain_base e7 e9 e10), h6⟩

/-- The number of tokens of the samples fits into 64 bits. -/
theorem run_total {order : CStats → List (Nat × Nat)} (ho : Traverses order) {samples : List Text} {n : Nat}
    (hn' : n ≤ 65536) (hsize : samples.flatten.length < 2 ^ 56) {ts : CSet} {st : CStats}
    (hrun : optimizeCharsTokens order samples n = .ok (ts, st)) : st.total < 2 ^ 64 := by
  have hsize' : samples.flatten.length < 2 ^ 64 := by omega
  have hn := (run_ok ho hn' hsize' hrun).1
  obtain ⟨counts, base, st0, h1, h2, -, -, h3⟩ := C91_total ho hn' hsize' hrun
  obtain ⟨counts', base', st0', k, tops, e1, e2, e3, e4, e5, e6, e7, e8, e9, e10, e11, _⟩ := run_start samples hn hsize'
  rw [h1] at e1
  obtain rfl := Except.ok.inj e1
  rw [h2] at e3
  obtain rfl := Except.ok.inj e3
  have h4 : tableCost base counts = (samples.flatten.map (encLength base)).sum := table_sum e2 (encLength base)
  have h5 : ∀ x : Text, (x.map (encLength base)).sum ≤ 156 * x.length := by
    intro x
    induction x with
    | nil => exact Nat.zero_le _
    | cons c x ih =>
      rw [List.map_cons, List.sum_cons, List.length_cons]
      have := e11 c
      omega
  have := h5 samples.flatten
  omega

/-- C103 (the file).  For all samples, every number of tokens, every order of the maps: a run that ends normally writes a JSON text.  It
describes the set of the result: all tokens in order, and the encodings of exactly the characters that are written with more than one token;
and the statistics. -/
theorem C103_file {ratio : Nat → Nat → Json} (hr : RatioText ratio) {order : CStats → List (Nat × Nat)} (ho : Traverses order)
    {samples : List Text} {n init : Nat} (hn' : n ≤ 65536) (hsize : samples.flatten.length < 2 ^ 56) (hinit : init < 2 ^ 64) {ts : CSet}
    {st : CStats} (hrun : optimizeCharsTokens order samples n = .ok (ts, st)) :
    ∃ text v, optimizedFile ratio order samples n init = .ok text ∧ JsonText text v ∧ Describes v ts st.total init ∧
      JsonRead.parseBytes (utf8Encode text) = some v := by
  have htotal := run_total ho hn' hsize hrun
  obtain ⟨hp, hlen⟩ := run_plain ho hn' (by omega) hrun
  obtain ⟨v, h1, h2, h3⟩ := toJson_ok hp ratio st init
  have hs := h3 hr (by omega) htotal hinit
  refine ⟨_, v, ?_, JsonWrite.pretty_jsonText hs 0, h2, JsonWrite.parseBytes_of (JsonWrite.pretty_jsonText hs 0) hs (by decide)⟩
  unfold optimizedFile
  rw [hrun, R.ok_bind]
  dsimp only
  rw [h1, R.ok_bind]

/-- C103 (nothing is lost).  If two runs, on whatever samples, with whatever numbers of tokens and orders, write the same
file, then their results are the same tokens and the same encodings of all characters; so what is written with the
tokens can be read with the file alone: the same numbers of tokens are the same text. -/
theorem C103_determined {ratio ratio' : Nat → Nat → Json} (hr : RatioText ratio) (hr' : RatioText ratio')
    {order order' : CStats → List (Nat × Nat)} (ho : Traverses order) (ho' : Traverses order')
    {samples samples' : List Text} {n n' init init' : Nat} (hn : n ≤ 65536) (hn' : n' ≤ 65536)
    (hsize : samples.flatten.length < 2 ^ 56) (hsize' : samples'.flatten.length < 2 ^ 56) (hinit : init < 2 ^ 64) (hinit' : init' < 2 ^ 64)
    {ts ts' : CSet} {st st' : CStats} (hrun : optimizeCharsTokens order samples n = .ok (ts, st))
    (hrun' : optimizeCharsTokens order' samples' n' = .ok (ts', st'))
    (hfile : optimizedFile ratio order samples n init = optimizedFile ratio' order' samples' n' init') :
    ts.tokens = ts'.tokens ∧ (∀ c, encOf ts c = encOf ts' c) ∧ st.total = st'.total ∧ init = init' ∧
      ∀ ps qs x y w, Spells ts ps x → Spells ts' qs y → Written ts ps w → Written ts' qs w → ps = qs ∧ x = y := by
  obtain ⟨text, v, h1, h2, h3, h4⟩ := C103_file hr ho hn hsize hinit hrun
  obtain ⟨text', v', h1', h2', h3', h4'⟩ := C103_file hr' ho' hn' hsize' hinit' hrun'
  rw [h1, h1'] at hfile
  obtain rfl := Except.ok.inj hfile
  rw [h4] at h4'
  obtain rfl := Option.some.inj h4'
  obtain ⟨e1, e2, e3, e4⟩ := described_eq (run_plain ho hn (by omega) hrun).1 (run_plain ho' hn' (by omega) hrun').1 h3 h3'
  refine ⟨e1, e2, e3, e4, ?_⟩
  intro ps qs x y w hx hy hw hw'
  refine C89_decodable ho hn (by omega) hrun ps qs x y w hx ?_ hw ?_
  · clear hw'
    induction hy with
    | nil => exact .nil
    | cons h _ ih =>
      refine .cons ?_ ih
      cases h with
      | tok hi hs => exact .tok (by rw [e1]; exact hi) hs
      | lit h => exact .lit (by unfold IsToken; rw [e1]; exact h)
  · clear hy hw
    induction hw' with
    | nil => exact .nil
    | tok i _ ih => exact .tok i ih
    | lit hc _ ih => exact .lit (by rw [e2]; exact hc) ih

-- a text with five different characters and five tokens: there is a file, and it describes the set
example : ∃ ts st text v, optimizeCharsTokens someOrder [['a', 'b', 'r', 'a'], ['c', 'a', 'd']] 5 = .ok (ts, st) ∧
    optimizedFile (fun _ _ => .null) someOrder [['a', 'b', 'r', 'a'], ['c', 'a', 'd']] 5 7 = .ok text ∧ JsonText text v ∧
    Describes v ts st.total 7 := by
  obtain ⟨ts, st, h⟩ := C91_many_chars someOrder someOrder_traverses [['a', 'b', 'r', 'a'], ['c', 'a', 'd']] (n := 5)
    (by decide) (by decide) (by norm_num) ['a', 'b', 'r', 'c', 'd'] (by decide) (by decide) (by decide)
  obtain ⟨text, v, h1, h2, h3, -⟩ := C103_file (ratio := fun _ _ => .null) (init := 7) (fun _ _ => .inl rfl) someOrder_traverses
    (by decide) (by norm_num) (by norm_num) h
  exact ⟨ts, st, text, v, h, h1, h2, h3⟩

-- how `to_string_pretty` writes a value
example : (Json.obj [(['a'], .arr [.num 1, .str ['b']]), (['c'], .arr []), (['d'], .obj [])]).renderPretty 0 =
    "{\n  \"a\": [\n    1,\n    \"b\"\n  ],\n  \"c\": [],\n  \"d\": {}\n}".toList := by
  decide +kernel

end Tokens.Props
