import Verif.Proofs.CountLog
import Verif.Props.CountChars

/-!
# Property C118: what count-chars prints

Read together with `Verif/Spec/CountLog.lean`.  `countCharsT` (`Verif/Model/CountLog.lean`) is
`count_chars` with its output; `plain` says which characters Rust prints as they are, `order` is the
order of the hash map.
-/

namespace Tokens.Props
open Tokens Spec Input Main Json Processing

set_option linter.unusedVariables false

/-! ### Proofs -/

theorem charFromU32_char (c : Char) : charFromU32 c.toNat = some c := by
  unfold charFromU32
  rw [if_pos (show c.toNat.isValidChar from c.valid)]
  exact congrArg some (Char.ofNat_toNat c)

theorem charFromU32_low {n : Nat} (h : n < 256) : charFromU32 n = some (Char.ofNat n) := by
  unfold charFromU32
  rw [if_pos (.inl (by omega))]

theorem toNat_low {n : Nat} (h : n < 256) : (Char.ofNat n).toNat = n := by
  have hv : n.isValidChar := .inl (by omega)
  simp [Char.ofNat, Char.ofNatAux, hv, Char.toNat]

theorem lowLines_eq (plain : Char → Bool) (low : List Nat) (k : Nat) (h : k + low.length ≤ 256) :
    lowLines plain k low = .ok ((((low.zipIdx k).filter (fun e => decide (e.1 > 0))).map
      (fun e => (Char.ofNat e.2, e.1))).flatMap (charLine plain)) := by
  induction low generalizing k with
  | nil => rfl
  | cons n low ih =>
    rw [List.length_cons] at h
    have ih := ih (k + 1) (by omega)
    rw [lowLines, List.zipIdx_cons]
    by_cases hn : n > 0
    · rw [if_pos hn, charFromU32_low (by omega), List.filter_cons_of_pos (by simpa using hn)]
      simp only [unwrapR, R.ok_bind, ih]
      simp [charLine]
    · rw [if_neg hn, ih, List.filter_cons_of_neg (by simpa using hn)]

theorem ok_report {order : List Nat → List Nat} {text : Text} {s : CharCounts} (ts : List Text)
    (h1 : splitLines (utf8Encode text) = ts.map utf8Encode)
    (h : countLines ⟨0, List.replicate 256 0, []⟩ (ts.map utf8Encode) = .ok s) :
    countChars order (utf8Encode text) = .ok ⟨s.total,
      (s.low.zipIdx.filter (fun e => decide (e.1 > 0))).map (fun e => (e.2, e.1)),
      maxKey (order (s.counts.map Prod.fst))⟩ := by
  unfold countChars
  rw [h1, h, R.ok_bind]

/-! ## C118 -/

/-- **C118**.  Printing changes nothing: with its output, `count_chars` succeeds or panics as without
(C44). -/
theorem C118_same_result (plain : Char → Bool) (order : List Nat → List Nat) (ho : ∀ l, (order l).Perm l)
    (file : Bytes) : (countCharsT plain order file).2 = (countChars order file).map (fun _ => ()) := by
  cases hv : validUtf8 file with
  | true =>
    obtain ⟨text, rfl⟩ := validUtf8_iff.1 hv
    obtain ⟨ts, h1, h2, h3⟩ := text_lines text
    obtain ⟨s, g1, g2, g3, g4, g5⟩ := countLines_spec ts ⟨0, List.replicate 256 0, []⟩ List.length_replicate
    have hr := ok_report (order := order) ts h3 g1
    obtain ⟨r, k1, k2, k3, k4, k5, k6, k7⟩ := C44_counts_partial order ho text
    have := Except.ok.inj (k1.symm.trans hr)
    subst this
    have hmax : charFromU32 (maxKey (order (s.counts.map Prod.fst))) ≠ none := by
      by_cases hc : ∃ c ∈ text, 256 ≤ c.toNat
      · obtain ⟨⟨c, hc, e⟩, _⟩ := k6 hc
        have e' : c.toNat = maxKey (order (s.counts.map Prod.fst)) := e
        rw [← e', charFromU32_char]; simp
      · have e := k7 (fun c hcm => by
          by_contra hx
          exact hc ⟨c, hcm, by omega⟩)
        have e' : maxKey (order (s.counts.map Prod.fst)) = 0 := e
        rw [e', charFromU32_low (by omega)]; simp
    have hl := countLinesT_eq ts ⟨0, List.replicate 256 0, []⟩ List.length_replicate [] s g1
    rw [List.append_nil] at hl
    unfold countCharsT
    dsimp only
    rw [h3, hl]
    simp only [countLinesT]
    rw [lowLines_eq plain s.low 0 (by omega), k1]
    cases hm : charFromU32 (maxKey (order (s.counts.map Prod.fst))) with
    | none => exact absurd hm hmax
    | some c => rfl
  | false =>
    obtain ⟨e, he⟩ := (C44_panics_iff order ho file).2 hv
    rw [he]
    have key : ∀ (ls : List Bytes) (s : CharCounts), (countLinesT s ls).2 = countLines s ls := by
      intro ls
      induction ls with
      | nil => intro s; rfl
      | cons l ls ih =>
        intro s
        rw [countLinesT, countLines]
        cases utf8Decode l with
        | none => rfl
        | some t =>
          simp only
          cases countLine s.low s.counts t with
          | error e => rfl
          | ok p => exact ih _
    have hc : countLines ⟨0, List.replicate 256 0, []⟩ (splitLines file) = .error e := by
      unfold countChars at he
      cases h : countLines ⟨0, List.replicate 256 0, []⟩ (splitLines file) with
      | error e' => rw [h] at he; simpa using he
      | ok s => rw [h] at he; cases he
    unfold countCharsT
    dsimp only
    rw [key, hc]
    rfl

/-- **C118**.  On a text, `count_chars` prints exactly this: the progress (the first end of a line in every
billion of characters), the total, a line with its number of occurrences for each character below 256
that occurs, in order, and the maximum. -/
theorem C118_output (plain : Char → Bool) (order : List Nat → List Nat) (ho : ∀ l, (order l).Perm l)
    (text : Text) : ∃ ns cs m, BillionMarks text ns ∧ LowChars text cs ∧ ReportedMax text m ∧
      countCharsT plain order (utf8Encode text) = (
        ns.flatMap (fun n => Nat.toDigits 10 n ++ ['\n']) ++
        (['T', 'o', 't', 'a', 'l', ':', ' '] ++ Nat.toDigits 10 text.length ++ ['\n'] ++
        (cs.flatMap (fun c => debugCharLit plain c ++ [' '] ++ Nat.toDigits 10 (text.count c) ++ ['\n']) ++
        (['M', 'a', 'x', ' ', 'c', 'h', 'a', 'r', ':', ' '] ++ debugCharLit plain m ++ ['\n']))),
        .ok ()) := by
  obtain ⟨ts, h1, h2, h3⟩ := text_lines text
  obtain ⟨s, g1, g2, g3, g4, g5⟩ := countLines_spec ts ⟨0, List.replicate 256 0, []⟩ List.length_replicate
  have hr := ok_report (order := order) ts h3 g1
  obtain ⟨r, k1, k2, k3, k4, k5, k6, k7⟩ := C44_counts_partial order ho text
  have := Except.ok.inj (k1.symm.trans hr)
  subst this
  have hl := countLinesT_eq ts ⟨0, List.replicate 256 0, []⟩ List.length_replicate [] s g1
  rw [List.append_nil] at hl
  obtain ⟨m, hm1, hm2⟩ : ∃ m, charFromU32 (maxKey (order (s.counts.map Prod.fst))) = some m ∧
      ReportedMax text m := by
    by_cases hc : ∃ c ∈ text, 256 ≤ c.toNat
    · obtain ⟨⟨c, hcm, e⟩, hb⟩ := k6 hc
      have e' : c.toNat = maxKey (order (s.counts.map Prod.fst)) := e
      refine ⟨c, by rw [← e', charFromU32_char], .inl ⟨hc, hcm, ?_⟩⟩
      rw [e']; exact hb
    · have hall : ∀ c ∈ text, c.toNat < 256 := fun c hcm => by
        by_contra hx
        exact hc ⟨c, hcm, by omega⟩
      have e' : maxKey (order (s.counts.map Prod.fst)) = 0 := k7 hall
      exact ⟨_, by rw [e', charFromU32_low (by omega)], .inr ⟨hall, rfl⟩⟩
  obtain ⟨printed, hpr⟩ : ∃ p, p = (s.low.zipIdx.filter (fun e => decide (e.1 > 0))).map
    (fun e => (e.2, e.1)) := ⟨_, rfl⟩
  simp only [← hpr] at k3 k4
  have hcount : ∀ e ∈ printed, e.1 < 256 ∧ text.count (Char.ofNat e.1) = e.2 ∧ 0 < e.2 := by
    rintro ⟨c, n⟩ he
    obtain ⟨a1, a2, a3⟩ := (k3 c n).1 he
    refine ⟨a1, ?_, a2⟩
    show text.count (Char.ofNat c) = n
    rw [a3, List.count]
    refine List.countP_congr fun x hx => ?_
    simp only [beq_iff_eq]
    constructor
    · rintro rfl; exact toNat_low a1
    · intro e; rw [← e, Char.ofNat_toNat]
  refine ⟨progress 0 ts, printed.map (fun e => Char.ofNat e.1), m, h2 ▸ progress_marks h1, ⟨?_, ?_⟩, hm2, ?_⟩
  · rw [List.pairwise_map]
    refine k4.imp_of_mem ?_
    intro a b ha hb hab
    rw [toNat_low (hcount a ha).1, toNat_low (hcount b hb).1]
    exact hab
  · intro c
    constructor
    · intro hc
      obtain ⟨e, he, rfl⟩ := List.mem_map.1 hc
      obtain ⟨a1, a2, a3⟩ := hcount e he
      exact ⟨List.count_pos_iff.1 (by omega), by rw [toNat_low a1]; exact a1⟩
    · rintro ⟨hc, hlt⟩
      refine List.mem_map.2 ⟨(c.toNat, text.countP (fun x => x.toNat == c.toNat)), ?_, Char.ofNat_toNat c⟩
      refine (k3 _ _).2 ⟨hlt, ?_, rfl⟩
      exact List.countP_pos_iff.2 ⟨c, hc, by simp⟩
  · unfold countCharsT
    dsimp only
    rw [h3, hl]
    simp only [countLinesT]
    rw [lowLines_eq plain s.low 0 (by omega)]
    simp only [hm1]
    have e1 : s.total = text.length := k2
    have e2 : ((s.low.zipIdx.filter (fun e => decide (e.1 > 0))).map
        (fun e => (Char.ofNat e.2, e.1))).flatMap (charLine plain) =
        (printed.map (fun e => Char.ofNat e.1)).flatMap
          (fun c => debugCharLit plain c ++ [' '] ++ Nat.toDigits 10 (text.count c) ++ ['\n']) := by
      have : (s.low.zipIdx.filter (fun e => decide (e.1 > 0))).map (fun e => (Char.ofNat e.2, e.1)) =
          printed.map (fun e => (Char.ofNat e.1, e.2)) := by
        rw [hpr, List.map_map]; rfl
      rw [this, List.flatMap_map, List.flatMap_map, List.flatMap_def, List.flatMap_def]
      congr 1
      refine List.map_congr_left fun e he => ?_
      rw [charLine, (hcount e he).2.1]
    rw [e1, e2]
    have e3 : (fun n => Nat.toDigits 10 n ++ ['\n']) = numLine := rfl
    rw [e3]
    simp only [List.append_nil, List.append_assoc]

/-- **C118**.  For a text of fewer than a billion characters no progress is printed; for a longer one the
last number printed shows the right number of billions. -/
theorem C118_progress (text : Text) (ns : List Nat) (h : BillionMarks text ns) :
    (text.length < 1000000000 → ns = []) ∧
    (1000000000 ≤ text.length → ∃ n, ns.getLast? = some n ∧ n ≤ text.length ∧
      n / 1000000000 = text.length / 1000000000) ∧
    ns.length ≤ text.length / 1000000000 := by
  have hle : ∀ p, LineEnd text p → p ≤ text.length := by
    rintro p ⟨h1, h2 | h2⟩
    · omega
    · have := (List.getElem?_eq_some_iff.1 h2).1
      omega
  refine ⟨?_, ?_, ?_⟩
  · intro hlt
    rw [List.eq_nil_iff_forall_not_mem]
    intro n hn
    obtain ⟨h1, h2, _⟩ := (h.exact_ n).1 hn
    have := hle n h1
    omega
  · intro hge
    -- the first line end in the last billion
    have hex : ∃ p, LineEnd text p ∧ p / 1000000000 = text.length / 1000000000 :=
      ⟨text.length, ⟨by omega, .inl rfl⟩, rfl⟩
    classical
    have hmin := Nat.find_spec hex
    have hlow := fun {k} => @Nat.find_min _ _ hex k
    generalize Nat.find hex = p at hmin hlow
    have hpos : 1 ≤ text.length / 1000000000 := by
      have := Nat.div_le_div_right (c := 1000000000) hge
      omega
    have hp : p ∈ ns := by
      refine (h.exact_ p).2 ⟨hmin.1, ?_, ?_⟩
      · by_contra hc
        have := Nat.div_eq_of_lt (by omega : p < 1000000000)
        omega
      · intro q hq hl
        have h1 := hlow hq
        have h2 := Nat.div_le_div_right (c := 1000000000) (Nat.le_of_lt hq)
        by_contra hc
        exact h1 ⟨hl, by omega⟩
    cases hns : ns.getLast? with
    | none => rw [List.getLast?_eq_none_iff] at hns; rw [hns] at hp; simp at hp
    | some n =>
      have hn : n ∈ ns := List.mem_of_getLast? hns
      obtain ⟨n1, n2, n3⟩ := (h.exact_ n).1 hn
      have hnl := hle n n1
      refine ⟨n, rfl, hnl, ?_⟩
      have hpn : p ≤ n := by
        obtain ⟨l, rfl⟩ : ∃ l, ns = l ++ [n] := by
          have := List.getLast?_eq_some_iff.1 hns
          exact this
        rcases List.mem_append.1 hp with hp | hp
        · exact Nat.le_of_lt ((List.pairwise_append.1 h.sorted).2.2 p hp n (by simp))
        · simp at hp; omega
      have a1 := Nat.div_le_div_right (c := 1000000000) hpn
      have a2 := Nat.div_le_div_right (c := 1000000000) hnl
      omega
  · -- the quotients are distinct and between 1 and the last one
    have hq : (ns.map (· / 1000000000)).Pairwise (· < ·) := by
      rw [List.pairwise_map]
      refine h.sorted.imp_of_mem ?_
      intro a b ha hb hab
      exact ((h.exact_ b).1 hb).2.2 a hab ((h.exact_ a).1 ha).1
    have hsub : ns.map (· / 1000000000) ⊆ List.range' 1 (text.length / 1000000000) := by
      intro x hx
      obtain ⟨n, hn, rfl⟩ := List.mem_map.1 hx
      obtain ⟨n1, n2, _⟩ := (h.exact_ n).1 hn
      have a1 := Nat.div_le_div_right (c := 1000000000) n2
      have a2 := Nat.div_le_div_right (c := 1000000000) (hle n n1)
      rw [List.mem_range'_1]
      omega
    have hnd : (ns.map (· / 1000000000)).Nodup := hq.imp (fun h => Nat.ne_of_lt h)
    have := (List.subperm_of_subset hnd hsub).length_le
    simpa using this

/-- **C118**.  The output tells exactly what was counted: if the same is printed for two texts, they have
the same length, the same number of occurrences of each character below 256, the same progress and the
same maximum. -/
theorem C118_readable (plain : Char → Bool) (order order' : List Nat → List Nat)
    (ho : ∀ l, (order l).Perm l) (ho' : ∀ l, (order' l).Perm l) (text text' : Text)
    (h : (countCharsT plain order (utf8Encode text)).1 = (countCharsT plain order' (utf8Encode text')).1) :
    text.length = text'.length ∧ (∀ c : Char, c.toNat < 256 → text.count c = text'.count c) ∧
    (∀ ns, BillionMarks text ns ↔ BillionMarks text' ns) ∧
    (∀ m, ReportedMax text m ↔ ReportedMax text' m) := by
  obtain ⟨ns, cs, m, h1, h2, h3, h4⟩ := C118_output plain order ho text
  obtain ⟨ns', cs', m', g1, g2, g3, g4⟩ := C118_output plain order' ho' text'
  rw [h4, g4] at h
  simp only [] at h
  have e3 : (fun n => Nat.toDigits 10 n ++ ['\n']) = numLine := rfl
  rw [e3] at h
  have ecs : ∀ (cs : List Char) (t : Text), cs.flatMap
      (fun c => debugCharLit plain c ++ [' '] ++ Nat.toDigits 10 (t.count c) ++ ['\n']) =
      (cs.map (fun c => (c, t.count c))).flatMap (charLine plain) := by
    intro cs t
    rw [List.flatMap_map]
    rfl
  rw [ecs, ecs] at h
  simp only [List.append_assoc, List.cons_append, List.nil_append] at h
  obtain ⟨hns, w⟩ := numLines_split ns ns' _ _ h
  clear h
  subst hns
  iterate 6 replace w := List.tail_eq_of_cons_eq w
  obtain ⟨hlen, w2⟩ := digits_split _ _ _ _ (noDigit_nl _) (noDigit_nl _) w
  replace w2 := List.tail_eq_of_cons_eq w2
  obtain ⟨hmap, w3⟩ := charLines_split plain _ _ _ _ w2
  iterate 9 replace w3 := List.tail_eq_of_cons_eq w3
  obtain ⟨hmm, -⟩ := debugCharLit_split plain _ _ _ _ w3
  subst hmm
  have hcs : cs = cs' := by
    have := congrArg (List.map Prod.fst) hmap
    simpa [List.map_map, Function.comp_def] using this
  subst hcs
  have hcnt : ∀ c ∈ cs, text.count c = text'.count c := by
    have := List.map_inj_left.1 hmap
    intro c hc
    exact (Prod.mk.inj (this c hc)).2
  refine ⟨hlen, ?_, ?_, ?_⟩
  · intro c hc
    by_cases hm : c ∈ cs
    · exact hcnt c hm
    · have a : c ∉ text := fun hx => hm ((h2.exact_ c).2 ⟨hx, hc⟩)
      have b : c ∉ text' := fun hx => hm ((g2.exact_ c).2 ⟨hx, hc⟩)
      rw [List.count_eq_zero_of_not_mem a, List.count_eq_zero_of_not_mem b]
  · -- a text has one list of marks
    have uniq : ∀ {t : Text} {a b : List Nat}, BillionMarks t a → BillionMarks t b → a = b := by
      intro t a b ha hb
      refine List.Perm.eq_of_pairwise (le := (· < ·)) ?_ ha.sorted hb.sorted ?_
      · intro x y _ _ h1 h2; omega
      · refine (List.perm_ext_iff_of_nodup ?_ ?_).2 ?_
        · exact ha.sorted.imp (fun h => Nat.ne_of_lt h)
        · exact hb.sorted.imp (fun h => Nat.ne_of_lt h)
        · intro x; rw [ha.exact_, hb.exact_]
    intro ks
    constructor
    · intro hk; rw [← uniq h1 hk]; exact g1
    · intro hk; rw [← uniq g1 hk]; exact h1
  · have uniq : ∀ {t : Text} {a b : Char}, ReportedMax t a → ReportedMax t b → a = b := by
      rintro t a b (⟨ha, ha1, ha2⟩ | ⟨ha, rfl⟩) (⟨hb, hb1, hb2⟩ | ⟨hb, rfl⟩)
      · have e1 := ha2 b hb1
        have e2 := hb2 a ha1
        have e : a.toNat = b.toNat := by omega
        rw [← Char.ofNat_toNat a, ← Char.ofNat_toNat b, e]
      · obtain ⟨c, hc, hx⟩ := ha
        have := hb c hc
        omega
      · obtain ⟨c, hc, hx⟩ := hb
        have := ha c hc
        omega
      · rfl
    intro x
    constructor
    · intro hk; rw [← uniq h3 hk]; exact g3
    · intro hk; rw [← uniq g3 hk]; exact h3

/-- **C118**.  If the file is not UTF-8, only the progress for the lines before the first bad one is
printed, and then it panics: no count at all is reported. -/
theorem C118_bad_file (plain : Char → Bool) (order : List Nat → List Nat) (ho : ∀ l, (order l).Perm l)
    (file : Bytes) (hv : validUtf8 file = false) :
    ∃ (text : Text) (rest bad more : Bytes) (ns : List Nat), file = utf8Encode text ++ rest ∧
      (text = [] ∨ text.getLast? = some '\n') ∧ rest = bad ++ more ∧ (10 : UInt8) ∉ bad.dropLast ∧
      validUtf8 bad = false ∧ BillionMarks text ns ∧
      countCharsT plain order file = (ns.flatMap (fun n => Nat.toDigits 10 n ++ ['\n']), .error .panic) := by
  obtain ⟨ls, l, rest, h1, h2, h3, -⟩ := processBytes_bad asciiOnly file hv
  have hlines : LinesOf (ls.map (· ++ ['\n'])) := by
    clear h2
    induction ls with
    | nil => exact .nil
    | cons x ls ih => exact .cons (h1 x (by simp)) (ih (fun y hy => h1 y (by simp [hy])))
  have hmap : ls.map (fun x => utf8Encode (x ++ ['\n'])) = (ls.map (· ++ ['\n'])).map utf8Encode := by
    rw [List.map_map]; rfl
  have hflat : ∀ L : List Text, (L.map utf8Encode).flatten = utf8Encode L.flatten := by
    intro L
    induction L with
    | nil => rfl
    | cons x L ih => rw [List.map_cons, List.flatten_cons, List.flatten_cons, utf8Encode_append, ih]
  obtain ⟨s, g1, _⟩ := countLines_spec (ls.map (· ++ ['\n'])) ⟨0, List.replicate 256 0, []⟩ List.length_replicate
  have hl := countLinesT_eq (ls.map (· ++ ['\n'])) ⟨0, List.replicate 256 0, []⟩ List.length_replicate
    (l :: rest) s g1
  have hdec : utf8Decode l = none := by
    have := h3
    unfold validUtf8 at this
    cases h : utf8Decode l with
    | none => rfl
    | some t => rw [h] at this; simp at this
  refine ⟨(ls.map (· ++ ['\n'])).flatten, l ++ rest.flatten, l, rest.flatten, progress 0 (ls.map (· ++ ['\n'])),
    ?_, ?_, rfl, ?_, h3, progress_marks hlines, ?_⟩
  · rw [← hflat, ← hmap]
    have := splitLines_flatten file
    rw [h2] at this
    rw [← this]
    simp
  · rcases List.eq_nil_or_concat ls with rfl | ⟨L, x, rfl⟩
    · exact .inl rfl
    · right
      simp
  · have := (splitLines_isLine file l (by rw [h2]; simp))
    intro hmem
    obtain ⟨u, v, e⟩ := List.append_of_mem hmem
    have hne : l ≠ [] := this.1
    have hl := List.dropLast_append_getLast hne
    have := this.2 u (v ++ [l.getLast hne]) (hl.symm.trans (by rw [e]; simp))
    simp at this
  · unfold countCharsT
    dsimp only
    rw [h2, hmap, hl, countLinesT, hdec]
    simp only [List.append_nil]
    rfl

/-! ### Non-vacuity -/

/-- A short text: no progress, three characters in order, and no maximum. -/
example : ∃ ns cs m, BillionMarks ['a', '\'', '\n'] ns ∧ LowChars ['a', '\'', '\n'] cs ∧
    ReportedMax ['a', '\'', '\n'] m ∧ ns = [] ∧ cs = ['\n', '\'', 'a'] ∧ m = Char.ofNat 0 := by
  refine ⟨[], ['\n', '\'', 'a'], Char.ofNat 0, ⟨.nil, ?_⟩, ⟨by decide, ?_⟩, .inr ⟨by decide, rfl⟩, rfl, rfl, rfl⟩
  · intro n
    constructor
    · intro h; cases h
    · rintro ⟨⟨_, h | h⟩, h2, _⟩
      · simp at h; omega
      · have := (List.getElem?_eq_some_iff.1 h).1
        simp at this; omega
  · intro c
    constructor
    · intro h
      simp only [List.mem_cons, List.not_mem_nil, or_false] at h
      rcases h with rfl | rfl | rfl <;> decide
    · rintro ⟨h, _⟩
      simp only [List.mem_cons, List.not_mem_nil, or_false] at h ⊢
      tauto

/-- A text with a character above 255, and how quotes and the end of a line are printed. -/
example : ReportedMax ['a', 'Ā', '\n'] 'Ā' ∧ debugCharLit (fun _ => true) '\'' = ['\'', '\\', '\'', '\''] ∧
    debugCharLit (fun _ => true) '"' = ['\'', '"', '\''] ∧
    debugCharLit (fun _ => true) '\n' = ['\'', '\\', 'n', '\''] := by
  refine ⟨.inl ⟨⟨'Ā', by decide, by decide⟩, by decide, by decide⟩, ?_, ?_, ?_⟩ <;> rfl

/-- After a billion characters in one line the progress is printed once, however long the line is. -/
example (n : Nat) (h : 1000000000 ≤ n) : BillionMarks (List.replicate n 'a') [n] := by
  have key : ∀ p, LineEnd (List.replicate n 'a') p ↔ p = n := by
    intro p
    constructor
    · rintro ⟨_, e | e⟩
      · simpa using e
      · rw [List.getElem?_replicate] at e
        split at e <;> simp at e
    · rintro rfl
      exact ⟨by omega, .inl (by simp)⟩
  refine ⟨by simp, fun x => ?_⟩
  rw [key, List.mem_singleton]
  constructor
  · rintro rfl
    exact ⟨rfl, h, fun p hp hl => absurd ((key p).1 hl) (by omega)⟩
  · exact fun hx => hx.1

/-- An order of the hash map, and a file that is not UTF-8. -/
example : (∀ l : List Nat, (List.reverse l).Perm l) ∧ validUtf8 [97, 10, 255] = false :=
  ⟨List.reverse_perm, by decide⟩

end Tokens.Props
