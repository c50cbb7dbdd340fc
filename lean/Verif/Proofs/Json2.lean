import Verif.Proofs.Json
import Verif.Proofs.Constructors
import Verif.Model.Cache
import Verif.Spec.Saved

/-! `to_json`, `from_json`: explicit forms and injectivity. -/

set_option linter.unusedSimpArgs false
set_option linter.unusedVariables false

namespace Tokens
open Spec

theorem asU8_toNat (b : UInt8) : Json.asU8 (b.toNat : Int) = b := by
  unfold Json.asU8
  have h : b.toNat < 256 := b.toNat_lt
  have : ((b.toNat : Int) % 256).toNat = b.toNat := by omega
  rw [this]
  exact UInt8.ofNat_toNat

theorem toNat_asI64 (b : UInt8) : (Json.num (b.toNat : Int)).asI64 = some (b.toNat : Int) := by
  unfold Json.asI64
  have h : b.toNat < 256 := b.toNat_lt
  simp only
  rw [if_pos (by omega)]

theorem parseByteArray_map (b : Bytes) :
    parseByteArray (b.map (fun x => .num x.toNat)) = .ok b := by
  induction b with
  | nil => rfl
  | cons x xs ih =>
    rw [List.map_cons, parseByteArray, toNat_asI64, ih]
    simp only [unwrapR, R.ok_bind, asU8_toNat]

theorem parseToken_bytesToJson (b : Bytes) : parseToken (bytesToJson b) = .ok (.str b) := by
  unfold bytesToJson
  split
  · next s h =>
    rw [parseToken, ← utf8Decode_iff.1 h]
  · rw [bytesAsArray, parseToken, parseByteArray_map]
    rfl

theorem parseToken_toJson (t : Token) : parseToken t.toJson = .ok t := by
  cases t with
  | str b => exact parseToken_bytesToJson b
  | ext n =>
    rw [Token.toJson, parseToken]
    unfold Json.asU64
    have h : n.toNat < 256 := n.toNat_lt
    simp only
    rw [if_pos (by omega)]
    simp only [unwrapR, R.ok_bind, asU8_toNat]

theorem toJson_inj {a b : Token} (h : a.toJson = b.toJson) : a = b := by
  have h1 := parseToken_toJson a
  rw [h, parseToken_toJson] at h1
  simpa using h1.symm

theorem bytesToJson_inj {a b : Bytes} (h : bytesToJson a = bytesToJson b) : a = b := by
  have h1 := parseToken_bytesToJson a
  rw [h, parseToken_bytesToJson] at h1
  simpa using h1.symm

theorem map_toJson_inj {a b : List Token} (h : a.map Token.toJson = b.map Token.toJson) : a = b := by
  induction a generalizing b with
  | nil => simpa using h.symm
  | cons x xs ih =>
    cases b with
    | nil => simp at h
    | cons y ys =>
      simp at h
      rw [toJson_inj h.1, ih (by simpa using h.2)]

/-! ### plain values -/

theorem bytesToJson_plain (b : Bytes) : (bytesToJson b).Plain := by
  unfold bytesToJson
  split
  · exact .str _
  · refine .arr _ ?_
    intro j hj
    obtain ⟨x, _, rfl⟩ := List.mem_map.1 hj
    exact .num _

theorem token_plain (t : Token) : t.toJson.Plain := by
  cases t with
  | str b => exact bytesToJson_plain b
  | ext n => exact .num _

/-! ### to_json -/

/-- JSON of the tokens with these numbers. -/
def listedOf (tokens : List Token) (l : List Nat) : List Token := l.map (fun i => tokens.getD i (.ext 0))

/-- JSON of a sequence. -/
def seqJson (tokens : List Token) (q : Sequence) : Json :=
  .obj [("string".toList, bytesToJson q.string),
    ("tokens".toList, .arr ((listedOf tokens q.tokens).map Token.toJson))]

/-- JSON of a set. -/
def jsonOf (ts : TokenSet) : Json :=
  .obj ([("processing".toList, .str ts.processing.text)] ++
    (if (ts.sequences.filter (fun q => decide (q.tokens.length > 1))).isEmpty then []
     else [("sequences".toList,
      .arr ((ts.sequences.filter (fun q => decide (q.tokens.length > 1))).map (seqJson ts.tokens)))]) ++
    [("split_paragraphs".toList, .bool ts.splitParagraphs),
     ("tokens".toList, .arr (ts.tokens.map Token.toJson)),
     ("type".toList, .str ts.tokenType.text)])

theorem listedJson_ok (tokens : List Token) (l : List Nat) (h : ∀ i ∈ l, i < tokens.length) :
    listedJson tokens l = .ok ((listedOf tokens l).map Token.toJson) := by
  induction l with
  | nil => rfl
  | cons i l ih =>
    rw [listedJson, ih (fun j hj => h j (by simp [hj]))]
    have hi := h i (by simp)
    rw [getR_of (List.getElem?_eq_getElem hi)]
    simp [listedOf, List.getD_eq_getElem?_getD, List.getElem?_eq_getElem hi]

theorem listedJson_ok_of (tokens : List Token) (l : List Nat) (js : List Json)
    (h : listedJson tokens l = .ok js) : ∀ i ∈ l, i < tokens.length := by
  induction l generalizing js with
  | nil => simp
  | cons i l ih =>
    rw [listedJson] at h
    cases hi : tokens[i]? with
    | none => simp [getR, hi, bind, Except.bind] at h
    | some t =>
      rw [getR_of hi] at h
      simp only [R.ok_bind] at h
      cases hl : listedJson tokens l with
      | error e => rw [hl] at h; simp [bind, Except.bind] at h
      | ok js' =>
        intro j hj
        rcases List.mem_cons.1 hj with rfl | hj
        · exact (List.getElem?_eq_some_iff.1 hi).1
        · exact ih js' hl j hj

theorem seqsJson_ok (tokens : List Token) (l : List Sequence)
    (h : ∀ q ∈ l, ∀ i ∈ q.tokens, i < tokens.length) :
    seqsJson tokens l = .ok (l.map (seqJson tokens)) := by
  induction l with
  | nil => rfl
  | cons q l ih =>
    rw [seqsJson, ih (fun x hx => h x (by simp [hx])), Sequence.toJson,
      listedJson_ok tokens q.tokens (h q (by simp))]
    rfl

theorem toJson_eq (ts : TokenSet) (h : SeqsInRange ts) : ts.toJson = .ok (jsonOf ts) := by
  unfold TokenSet.toJson
  rw [seqsJson_ok]
  · simp only [R.ok_bind, List.isEmpty_map, jsonOf]
  · intro q hq
    exact h q (List.mem_filter.1 hq).1

theorem seqJson_plain (tokens : List Token) (q : Sequence) : (seqJson tokens q).Plain := by
  refine .obj _ ?_
  intro kv hkv
  simp at hkv
  rcases hkv with rfl | rfl
  · exact bytesToJson_plain _
  · refine .arr _ ?_
    intro j hj
    obtain ⟨t, _, rfl⟩ := List.mem_map.1 hj
    exact token_plain t

theorem jsonOf_plain (ts : TokenSet) : (jsonOf ts).Plain := by
  refine .obj _ ?_
  intro kv hkv
  simp only [List.mem_append, List.mem_cons, List.not_mem_nil, or_false] at hkv
  rcases hkv with (rfl | hkv) | rfl | rfl | rfl
  · exact .str _
  · split at hkv
    · simp at hkv
    · simp only [List.mem_cons, List.not_mem_nil, or_false] at hkv
      subst hkv
      refine .arr _ ?_
      intro j hj
      obtain ⟨q, _, rfl⟩ := List.mem_map.1 hj
      exact seqJson_plain _ q
  · exact .bool _
  · refine .arr _ ?_
    intro j hj
    obtain ⟨t, _, rfl⟩ := List.mem_map.1 hj
    exact token_plain t
  · exact .str _

theorem processing_text_inj {a b : Processing} (h : a.text = b.text) : a = b := by
  cases a <;> cases b <;> first | rfl | exact absurd h (by decide)

theorem type_text_inj {a b : TokenType} (h : a.text = b.text) : a = b := by
  cases a <;> cases b <;> first | rfl | exact absurd h (by decide)

theorem listedOf_inj {tokens : List Token} (hnd : tokens.Nodup) {a b : List Nat}
    (ha : ∀ i ∈ a, i < tokens.length) (hb : ∀ i ∈ b, i < tokens.length)
    (h : listedOf tokens a = listedOf tokens b) : a = b := by
  induction a generalizing b with
  | nil => cases b <;> simp [listedOf] at h ⊢
  | cons x xs ih =>
    cases b with
    | nil => simp [listedOf] at h
    | cons y ys =>
      have hx := ha x (by simp)
      have hy := hb y (by simp)
      simp only [listedOf, List.map_cons, List.cons.injEq] at h
      have e : tokens[x] = tokens[y] := by
        have := h.1
        simpa [List.getD_eq_getElem?_getD, List.getElem?_eq_getElem hx,
          List.getElem?_eq_getElem hy] using this
      have hxy : x = y := List.getElem_inj hnd |>.1 e
      rw [hxy, ih (fun i hi => ha i (by simp [hi])) (fun i hi => hb i (by simp [hi])) h.2]

theorem jsonOf_inj {a b : TokenSet} (ha : Identified a) (hb : Identified b) (ra : SeqsInRange a)
    (rb : SeqsInRange b) (h : jsonOf a = jsonOf b) : a = b := by
  have fa : a.sequences.filter (fun q => decide (q.tokens.length > 1)) = a.sequences :=
    List.filter_eq_self.2 (fun q hq => by have := ha.long q hq; simp; omega)
  have fb : b.sequences.filter (fun q => decide (q.tokens.length > 1)) = b.sequences :=
    List.filter_eq_self.2 (fun q hq => by have := hb.long q hq; simp; omega)
  unfold jsonOf at h
  rw [fa, fb] at h
  have hseqkey : ("sequences".toList : Text) ≠ "split_paragraphs".toList := by decide
  have key : a.processing.text = b.processing.text ∧ a.splitParagraphs = b.splitParagraphs ∧
      a.tokens.map Token.toJson = b.tokens.map Token.toJson ∧ a.tokenType.text = b.tokenType.text ∧
      a.sequences.map (seqJson a.tokens) = b.sequences.map (seqJson b.tokens) := by
    by_cases h1 : a.sequences.isEmpty = true <;> by_cases h2 : b.sequences.isEmpty = true
    · rw [if_pos h1, if_pos h2] at h
      simp only [Json.obj.injEq, List.cons_append, List.nil_append, List.cons.injEq, Prod.mk.injEq,
        Json.str.injEq, Json.bool.injEq, Json.arr.injEq, true_and, and_true] at h
      refine ⟨h.1, h.2.1, h.2.2.1, h.2.2.2, ?_⟩
      rw [List.isEmpty_iff.1 h1, List.isEmpty_iff.1 h2]; rfl
    · rw [if_pos h1, if_neg h2] at h
      have := congrArg (fun j => match j with | Json.obj l => l.length | _ => 0) h
      simp at this
    · rw [if_neg h1, if_pos h2] at h
      have := congrArg (fun j => match j with | Json.obj l => l.length | _ => 0) h
      simp at this
    · rw [if_neg h1, if_neg h2] at h
      simp only [Json.obj.injEq, List.cons_append, List.nil_append, List.cons.injEq, Prod.mk.injEq,
        Json.str.injEq, Json.bool.injEq, Json.arr.injEq, true_and, and_true] at h
      exact ⟨h.1, h.2.2.1, h.2.2.2.1, h.2.2.2.2, h.2.1⟩
  obtain ⟨k1, k2, k3, k4, k5⟩ := key
  have htok := map_toJson_inj k3
  have hseq : a.sequences = b.sequences := by
    have ra' : ∀ q ∈ a.sequences, ∀ i ∈ q.tokens, i < a.tokens.length := ra
    have rb' : ∀ q ∈ b.sequences, ∀ i ∈ q.tokens, i < a.tokens.length := by rw [htok]; exact rb
    rw [← htok] at k5
    have hnd := ha.distinct
    clear h fa fb ha hb ra rb
    generalize a.sequences = l1 at *
    generalize b.sequences = l2 at *
    induction l1 generalizing l2 with
    | nil => cases l2 <;> simp at k5 ⊢
    | cons q1 l1 ih =>
      cases l2 with
      | nil => simp at k5
      | cons q2 l2 =>
        simp only [List.map_cons, List.cons.injEq] at k5
        have e := k5.1
        unfold seqJson at e
        simp only [Json.obj.injEq, List.cons.injEq, Prod.mk.injEq, Json.arr.injEq, true_and,
          and_true] at e
        have e1 := bytesToJson_inj e.1
        have e2 := listedOf_inj hnd (ra' q1 (by simp)) (rb' q2 (by simp)) (map_toJson_inj e.2)
        have : q1 = q2 := by cases q1; cases q2; simp_all
        rw [this, ih (fun q hq => ra' q (by simp [hq])) l2 (fun q hq => rb' q (by simp [hq])) k5.2]
  have hext : a.nExt = b.nExt := by rw [ha.exts, hb.exts, htok]
  cases a; cases b
  simp only at *
  subst htok hseq hext k2
  rw [processing_text_inj k1, type_text_inj k4]

/-- The cache key determines the set. -/
theorem getKey_inj {a b : TokenSet} {k : Text} (ha : Identified a) (hb : Identified b)
    (ra : SeqsInRange a) (rb : SeqsInRange b) (h1 : Batch.getKey a = .ok k)
    (h2 : Batch.getKey b = .ok k) : a = b := by
  unfold Batch.getKey at h1 h2
  rw [toJson_eq a ra] at h1
  rw [toJson_eq b rb] at h2
  simp only [R.ok_bind, Except.ok.injEq] at h1 h2
  exact jsonOf_inj ha hb ra rb (Json.render_inj (jsonOf_plain a) (jsonOf_plain b) (h1.trans h2.symm))

theorem extCount_perm {a b : List Token} (h : a.Perm b) : extCount a = extCount b := by
  induction h with
  | nil => rfl
  | cons x _ ih => cases x <;> simp [extCount, ih]
  | swap x y l => cases x <;> cases y <;> simp [extCount]
  | trans _ _ ih1 ih2 => exact ih1.trans ih2

theorem identified_sort {ts ts' : TokenSet} (h : Identified ts) (hs : ts.sort = .ok ts') :
    Identified ts' := by
  obtain ⟨⟨hh, ht, hm⟩, _, _, hr⟩ := TokenSet.sort_sameSet hs
  refine ⟨ht.nodup_iff.2 h.distinct, ?_, ?_⟩
  · rw [hh.nExt, h.exts, extCount_perm ht]
  · intro q hq
    have : (q.string, listed ts' q) ∈ meaning ts := hm.mem_iff.1 (List.mem_map.2 ⟨q, hq, rfl⟩)
    obtain ⟨q0, h0, e⟩ := List.mem_map.1 this
    have := congrArg (fun x => x.2.length) e
    simp [listed] at this
    have := h.long q0 h0
    omega

/-! ### name -/

theorem name_inj {a b : TokenSet} (h : a.name = b.name) :
    a.tokens.length = b.tokens.length ∧ a.processing = b.processing ∧ a.tokenType = b.tokenType := by
  unfold TokenSet.name at h
  simp only [List.append_assoc, List.append_cancel_left_eq] at h
  have nd : ∀ t : Text, Json.NoDigit (['_'] ++ t) := by intro t c hc; simp at hc; subst hc; rfl
  obtain ⟨h1, h2⟩ := Json.digits_split _ _ _ _ (nd _) (nd _) h
  refine ⟨h1, ?_⟩
  simp only [List.append_cancel_left_eq] at h2
  have : ∀ {p q : Processing} {s t : TokenType}, p.text ++ (['_'] ++ s.text) = q.text ++ (['_'] ++ t.text) →
      p = q ∧ s = t := by
    intro p q s t
    cases p <;> cases q <;> cases s <;> cases t <;> decide
  exact this h2

end Tokens
