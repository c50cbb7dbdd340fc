import Verif.Model.Args
import Verif.Spec.CommandLine
import Mathlib.Data.List.Basic
import Mathlib.Data.List.Nodup
import Mathlib.Tactic.Ring

/-! The parser of the command line finds what the command line says (for C82). -/

namespace Tokens
namespace Args
open Spec

theorem lit_data : "data".toList = ['d', 'a', 't', 'a'] := rfl
theorem lit_output : "output".toList = ['o', 'u', 't', 'p', 'u', 't'] := rfl
theorem lit_processed_data : "processed-data".toList = ['p', 'r', 'o', 'c', 'e', 's', 's', 'e', 'd', '-', 'd', 'a', 't', 'a'] := rfl
theorem lit_input_tokens : "input-tokens".toList = ['i', 'n', 'p', 'u', 't', '-', 't', 'o', 'k', 'e', 'n', 's'] := rfl
theorem lit_tokens_dir : "tokens-dir".toList = ['t', 'o', 'k', 'e', 'n', 's', '-', 'd', 'i', 'r'] := rfl
theorem lit_processing : "processing".toList = ['p', 'r', 'o', 'c', 'e', 's', 's', 'i', 'n', 'g'] := rfl
theorem lit_type : "type".toList = ['t', 'y', 'p', 'e'] := rfl
theorem lit_ntokens : "ntokens".toList = ['n', 't', 'o', 'k', 'e', 'n', 's'] := rfl
theorem lit_min_data_size : "min-data-size".toList = ['m', 'i', 'n', '-', 'd', 'a', 't', 'a', '-', 's', 'i', 'z', 'e'] := rfl
theorem lit_process : "process".toList = ['p', 'r', 'o', 'c', 'e', 's', 's'] := rfl
theorem lit_count_chars : "count-chars".toList = ['c', 'o', 'u', 'n', 't', '-', 'c', 'h', 'a', 'r', 's'] := rfl
theorem lit_convert_tokens : "convert-tokens".toList = ['c', 'o', 'n', 'v', 'e', 'r', 't', '-', 't', 'o', 'k', 'e', 'n', 's'] := rfl
theorem lit_optimize : "optimize".toList = ['o', 'p', 't', 'i', 'm', 'i', 'z', 'e'] := rfl
theorem lit_raw : "raw".toList = ['r', 'a', 'w'] := rfl
theorem lit_caps_words : "caps-words".toList = ['c', 'a', 'p', 's', '-', 'w', 'o', 'r', 'd', 's'] := rfl
theorem lit_bits1 : "bits1".toList = ['b', 'i', 't', 's', '1'] := rfl
theorem lit_bits2 : "bits2".toList = ['b', 'i', 't', 's', '2'] := rfl
theorem lit_bits4 : "bits4".toList = ['b', 'i', 't', 's', '4'] := rfl
theorem lit_bytes : "bytes".toList = ['b', 'y', 't', 'e', 's'] := rfl
theorem lit_bytes_huff : "bytes-huff".toList = ['b', 'y', 't', 'e', 's', '-', 'h', 'u', 'f', 'f'] := rfl

/-- the option of a field -/
def opt : Id → Opt
  | .data => ⟨['d', 'a', 't', 'a'], some 'd'⟩
  | .output => ⟨['o', 'u', 't', 'p', 'u', 't'], some 'o'⟩
  | .processedData => ⟨['p', 'r', 'o', 'c', 'e', 's', 's', 'e', 'd', '-', 'd', 'a', 't', 'a'], none⟩
  | .inputTokens => ⟨['i', 'n', 'p', 'u', 't', '-', 't', 'o', 'k', 'e', 'n', 's'], some 'i'⟩
  | .tokensDir => ⟨['t', 'o', 'k', 'e', 'n', 's', '-', 'd', 'i', 'r'], some 't'⟩
  | .processing => ⟨['p', 'r', 'o', 'c', 'e', 's', 's', 'i', 'n', 'g'], some 'p'⟩
  | .type => ⟨['t', 'y', 'p', 'e'], none⟩
  | .ntokens => ⟨['n', 't', 'o', 'k', 'e', 'n', 's'], some 'n'⟩
  | .minDataSize => ⟨['m', 'i', 'n', '-', 'd', 'a', 't', 'a', '-', 's', 'i', 'z', 'e'], none⟩

theorem opt_data : Opt.data = opt .data := rfl
theorem opt_output : Opt.output = opt .output := rfl
theorem opt_processedData : Opt.processedData = opt .processedData := rfl
theorem opt_inputTokens : Opt.inputTokens = opt .inputTokens := rfl
theorem opt_tokensDir : Opt.tokensDir = opt .tokensDir := rfl
theorem opt_processing : Opt.processing = opt .processing := rfl
theorem opt_type : Opt.type = opt .type := rfl
theorem opt_ntokens : Opt.ntokens = opt .ntokens := rfl
theorem opt_minDataSize : Opt.minDataSize = opt .minDataSize := rfl

/-- the fields of a subcommand -/
def ids : Sub → List Id
  | .process => [.data, .output]
  | .countChars => [.data]
  | .convertTokens => [.data, .processedData, .inputTokens, .tokensDir]
  | .optimize => [.data, .processedData, .tokensDir, .processing, .type, .ntokens, .inputTokens, .minDataSize]

theorem longs_eq (c : Sub) : longs c = (ids c).map (fun i => ((opt i).long, i)) := by
  cases c <;> rfl

theorem opt_inj {a b : Id} (h : opt a = opt b) : a = b := by
  have h : (opt a).long = (opt b).long := by rw [h]
  revert h
  cases a <;> cases b <;> first | (intro _; rfl) | (intro h; exact absurd h (by unfold opt; decide))

theorem long_noeq (a : Id) : '=' ∉ (opt a).long := by cases a <;> unfold opt <;> decide

theorem long_ne (a : Id) : (opt a).long ≠ [] := by cases a <;> unfold opt <;> decide

theorem short_ne {a : Id} {c : Char} (h : (opt a).short = some c) : c ≠ '-' := by
  cases a <;> simp [opt] at h <;> subst h <;> decide

theorem lookup_iff {α β : Type} [BEq α] [LawfulBEq α] (l : List (α × β)) (h : (l.map Prod.fst).Nodup) (a : α) (b : β) :
    l.lookup a = some b ↔ (a, b) ∈ l := by
  induction l with
  | nil => simp
  | cons x l ih =>
    obtain ⟨x1, x2⟩ := x
    rw [List.map_cons, List.nodup_cons] at h
    rw [List.lookup_cons]
    by_cases e : a = x1
    · subst e
      simp only [beq_self_eq_true, if_true, Option.some.injEq, List.mem_cons, Prod.mk.injEq, true_and]
      constructor
      · intro e; exact .inl e.symm
      · rintro (e | e)
        · exact e.symm
        · exact absurd (List.mem_map.2 ⟨_, e, rfl⟩) h.1
    · have : (a == x1) = false := by simpa using e
      simp only [this, ih h.2]
      simp [e]

theorem lookup_none {α β : Type} [BEq α] [LawfulBEq α] (l : List (α × β)) (a : α) :
    l.lookup a = none ↔ ∀ x ∈ l, x.1 ≠ a := by
  induction l with
  | nil => simp
  | cons x l ih =>
    obtain ⟨x1, x2⟩ := x
    rw [List.lookup_cons]
    by_cases e : a = x1
    · subst e; simp
    · have : (a == x1) = false := by simpa using e
      simp only [this, ih]
      simp [Ne.symm e]

theorem ids_nodup (c : Sub) : (ids c).Nodup := by cases c <;> decide

theorem longs_lookup (c : Sub) (n : Text) (id : Id) :
    (longs c).lookup n = some id ↔ id ∈ ids c ∧ n = (opt id).long := by
  have hn : ((longs c).map Prod.fst).Nodup := by
    rw [longs_eq, List.map_map]
    refine (ids_nodup c).map ?_
    intro a b h
    have h : (opt a).long = (opt b).long := h
    revert h
    cases a <;> cases b <;> first | (intro _; rfl) | (intro h; exact absurd h (by unfold opt; decide))
  rw [lookup_iff _ hn, longs_eq]
  constructor
  · intro h
    obtain ⟨i, hi, e⟩ := List.mem_map.1 h
    simp only [Prod.mk.injEq] at e
    obtain ⟨e1, rfl⟩ := e
    exact ⟨hi, e1.symm⟩
  · rintro ⟨h, rfl⟩
    exact List.mem_map.2 ⟨id, h, rfl⟩

theorem shorts_lookup (c : Sub) (ch : Char) (id : Id) :
    (shorts c).lookup ch = some id ↔ id ∈ ids c ∧ (opt id).short = some ch := by
  rw [lookup_iff _ (by cases c <;> simp [shorts])]
  cases c <;> cases id <;> simp [shorts, ids, opt, eq_comm]

theorem splitEq_none {b n : Text} : splitEq b = (n, none) ↔ b = n ∧ '=' ∉ n := by
  induction b generalizing n with
  | nil => simp [splitEq, eq_comm]; rintro rfl; simp
  | cons c cs ih =>
    unfold splitEq
    by_cases e : c = '='
    · subst e
      simp only [if_true, Prod.mk.injEq, reduceCtorEq, and_false, false_iff]
      rintro ⟨rfl, h⟩; simp at h
    · rw [if_neg e]
      constructor
      · intro h
        simp only [Prod.mk.injEq] at h
        obtain ⟨h1, h2⟩ := h
        obtain ⟨i1, i2⟩ := (ih (n := (splitEq cs).1)).1 (Prod.ext rfl h2)
        rw [← i1] at h1
        subst h1
        refine ⟨rfl, ?_⟩
        rw [← i1] at i2
        simp [Ne.symm e, i2]
      · rintro ⟨rfl, h⟩
        simp only [List.mem_cons, not_or] at h
        rw [(ih (n := cs)).2 ⟨rfl, h.2⟩]

theorem splitEq_some {b n v : Text} : splitEq b = (n, some v) ↔ b = n ++ '=' :: v ∧ '=' ∉ n := by
  induction b generalizing n with
  | nil => simp [splitEq]
  | cons c cs ih =>
    unfold splitEq
    by_cases e : c = '='
    · subst e
      simp only [if_true, Prod.mk.injEq, Option.some.injEq]
      constructor
      · rintro ⟨rfl, rfl⟩; simp
      · rintro ⟨h1, h2⟩
        cases n with
        | nil => simpa using h1
        | cons x n => simp at h1; exact absurd h1.1 (by simp at h2; exact h2.1)
    · rw [if_neg e]
      constructor
      · intro h
        simp only [Prod.mk.injEq] at h
        obtain ⟨h1, h2⟩ := h
        obtain ⟨i1, i2⟩ := (ih (n := (splitEq cs).1)).1 (Prod.ext rfl h2)
        subst h1
        refine ⟨by rw [List.cons_append, ← i1], ?_⟩
        simp [Ne.symm e, i2]
      · rintro ⟨h1, h⟩
        cases n with
        | nil => simp at h1; exact absurd h1.1 e
        | cons x n =>
          simp only [List.cons_append, List.cons.injEq] at h1
          obtain ⟨rfl, h1⟩ := h1
          simp only [List.mem_cons, not_or] at h
          rw [(ih (n := n)).2 ⟨h1, h.2⟩]

theorem loop_pending (c : Sub) (args : List Text) (id : Id) (acc res : List (Id × Text)) :
    loop c args (some id) acc = some res ↔
      ∃ v as, args = v :: as ∧ Standalone v ∧ loop c as none (acc ++ [(id, v)]) = some res := by
  match args with
  | [] => simp [loop]
  | ['-', '-'] :: as => simp [loop, Standalone]
  | ('-' :: '-' :: x :: body) :: as => simp [loop, Standalone]
  | ['-'] :: as => simp [loop, Standalone]
  | [] :: as => simp [loop, Standalone]
  | (c1 :: rest) :: as =>
    by_cases e : c1 = '-'
    · subst e
      match rest with
      | [] => simp [loop, Standalone]
      | ch :: rest =>
        by_cases e2 : ch = '-'
        · subst e2
          cases rest <;> simp [loop, Standalone]
        · simp [loop, Standalone]
          unfold loop
          split
          · simp_all
          · simp_all
          · simp
          · simp_all
    · have : Standalone (c1 :: rest) := .inl (by simp [e])
      rw [loop.eq_def]
      simp only
      split
      · simp_all
      · simp_all
      · simp_all
      · constructor
        · intro h; exact ⟨_, _, rfl, this, h⟩
        · rintro ⟨v, as', e, -, h⟩
          obtain ⟨rfl, rfl⟩ := List.cons.inj e
          exact h

theorem loop_plain (c : Sub) (a : Text) (as : List Text) (acc : List (Id × Text)) (h : Standalone a) :
    loop c (a :: as) none acc = none := by
  unfold loop
  split
  · simp [Standalone] at h
  · simp [Standalone] at h
  · simp [Standalone] at h
  · rfl

theorem loop_escape (c : Sub) (as : List Text) (acc res : List (Id × Text)) :
    loop c (['-', '-'] :: as) none acc = some res ↔ as = [] ∧ res = acc := by
  cases as <;> simp [loop, eq_comm]

theorem loop_long (c : Sub) (x : Char) (body : Text) (as : List Text) (acc res : List (Id × Text)) :
    loop c (('-' :: '-' :: x :: body) :: as) none acc = some res ↔
      ∃ id ∈ ids c, id ∉ acc.map Prod.fst ∧
        ((x :: body = (opt id).long ∧ loop c as (some id) acc = some res) ∨
         ∃ v, x :: body = (opt id).long ++ '=' :: v ∧ loop c as none (acc ++ [(id, v)]) = some res) := by
  rw [loop.eq_def]
  simp only
  rcases hs : splitEq (x :: body) with ⟨n, _ | v⟩
  · have h1 := splitEq_none.1 hs
    cases hl : (longs c).lookup n with
    | none =>
      simp only [hl, reduceCtorEq, false_iff]
      rintro ⟨id, hid, -, ⟨e, -⟩ | ⟨v, e, -⟩⟩
      · rw [← h1.1, (longs_lookup c _ id).2 ⟨hid, e⟩] at hl; cases hl
      · rw [← h1.1, e] at h1; simp at h1
    | some id =>
      obtain ⟨hid, hn⟩ := (longs_lookup c n id).1 hl
      simp only [hl]
      by_cases hd : (acc.map Prod.fst).contains id = true
      · rw [if_pos hd]
        simp only [reduceCtorEq, false_iff]
        rintro ⟨id', hid', hnot, ⟨e, -⟩ | ⟨v, e, -⟩⟩
        · have : id' = id := by
            have := (longs_lookup c n id').2 ⟨hid', by rw [← h1.1, e]⟩
            rw [hl] at this; exact (Option.some.inj this).symm
          subst this
          exact hnot (by simpa using hd)
        · rw [← h1.1, e] at h1; simp at h1
      · rw [if_neg hd]
        constructor
        · intro h
          exact ⟨id, hid, by simpa using hd, .inl ⟨by rw [h1.1, hn], h⟩⟩
        · rintro ⟨id', hid', hnot, ⟨e, h⟩ | ⟨v, e, -⟩⟩
          · have : id' = id := by
              have := (longs_lookup c n id').2 ⟨hid', by rw [← h1.1, e]⟩
              rw [hl] at this; exact (Option.some.inj this).symm
            subst this
            exact h
          · rw [← h1.1, e] at h1; simp at h1
  · have h1 := splitEq_some.1 hs
    have key : ∀ id', x :: body = (opt id').long → False := by
      intro id' e
      have := long_noeq id'
      rw [← e, h1.1] at this; simp at this
    have key2 : ∀ id' v', x :: body = (opt id').long ++ '=' :: v' → n = (opt id').long ∧ v' = v := by
      intro id' v' e
      have := splitEq_some.2 ⟨e, long_noeq id'⟩
      rw [hs] at this
      simp only [Prod.mk.injEq, Option.some.injEq] at this
      exact ⟨this.1, this.2.symm⟩
    cases hl : (longs c).lookup n with
    | none =>
      simp only [hl, reduceCtorEq, false_iff]
      rintro ⟨id, hid, -, ⟨e, -⟩ | ⟨v, e, -⟩⟩
      · exact key _ e
      · rw [(longs_lookup c _ id).2 ⟨hid, (key2 _ _ e).1⟩] at hl; cases hl
    | some id =>
      obtain ⟨hid, hn⟩ := (longs_lookup c n id).1 hl
      have uniq : ∀ id' v', id' ∈ ids c → x :: body = (opt id').long ++ '=' :: v' → id' = id ∧ v' = v := by
        intro id' v' hid' e
        have := (longs_lookup c n id').2 ⟨hid', (key2 _ _ e).1⟩
        rw [hl] at this; exact ⟨(Option.some.inj this).symm, (key2 _ _ e).2⟩
      simp only [hl]
      by_cases hd : (acc.map Prod.fst).contains id = true
      · rw [if_pos hd]
        simp only [reduceCtorEq, false_iff]
        rintro ⟨id', hid', hnot, ⟨e, -⟩ | ⟨v, e, -⟩⟩
        · exact key _ e
        · rw [(uniq _ _ hid' e).1] at hnot
          exact hnot (by simpa using hd)
      · rw [if_neg hd]
        constructor
        · intro h
          exact ⟨id, hid, by simpa using hd, .inr ⟨v, by rw [h1.1, hn], h⟩⟩
        · rintro ⟨id', hid', hnot, ⟨e, h⟩ | ⟨v', e, h⟩⟩
          · exact (key _ e).elim
          · obtain ⟨rfl, rfl⟩ := uniq _ _ hid' e
            exact h

theorem loop_short (c : Sub) (ch : Char) (hch : ch ≠ '-') (rest : Text) (as : List Text)
    (acc res : List (Id × Text)) :
    loop c (('-' :: ch :: rest) :: as) none acc = some res ↔
      ∃ id ∈ ids c, (opt id).short = some ch ∧ id ∉ acc.map Prod.fst ∧
        ((rest = [] ∧ loop c as (some id) acc = some res) ∨
         ∃ v, (rest = '=' :: v ∨ (rest = v ∧ v ≠ [] ∧ v.head? ≠ some '=')) ∧
          loop c as none (acc ++ [(id, v)]) = some res) := by
  have e0 : loop c (('-' :: ch :: rest) :: as) none acc =
      match (shorts c).lookup ch with
      | some id =>
        if (acc.map Prod.fst).contains id then none
        else match attached rest with
          | none => loop c as (some id) acc
          | some v => loop c as none (acc ++ [(id, v)])
      | none => none := by
    rw [loop.eq_def]
    simp only
    split
    · simp_all
    · simp_all
    · rename_i heq
      simp only [List.cons.injEq, true_and] at heq
      obtain ⟨rfl, rfl⟩ := heq
      cases (shorts c).lookup ch <;> rfl
    · rename_i h1
      exact absurd rfl (h1 ch rest)
  rw [e0]
  cases hl : (shorts c).lookup ch with
  | none =>
    simp only [reduceCtorEq, false_iff]
    rintro ⟨id, hid, hs, -⟩
    rw [(shorts_lookup c ch id).2 ⟨hid, hs⟩] at hl; cases hl
  | some id =>
    obtain ⟨hid, hn⟩ := (shorts_lookup c ch id).1 hl
    have uniq : ∀ id', id' ∈ ids c → (opt id').short = some ch → id' = id := by
      intro id' hid' hs
      have := (shorts_lookup c ch id').2 ⟨hid', hs⟩
      rw [hl] at this; exact (Option.some.inj this).symm
    have hat : (attached rest = none ↔ rest = []) ∧ ∀ v, attached rest = some v ↔
        (rest = '=' :: v ∨ (rest = v ∧ v ≠ [] ∧ v.head? ≠ some '=')) := by
      unfold attached
      split
      · refine ⟨by simp, fun v => ?_⟩
        simp; rintro rfl h; exact absurd rfl h
      · refine ⟨by simp, fun v => ?_⟩
        simp; rintro rfl; simp
      · rename_i h1 h2
        refine ⟨?_, fun v => ?_⟩
        · simpa using h1
        · simp only [Option.some.injEq]
          constructor
          · rintro rfl
            refine .inr ⟨rfl, h1, ?_⟩
            cases rest with
            | nil => simp
            | cons x r => simp; rintro rfl; exact h2 r rfl
          · rintro (e | ⟨e, -⟩)
            · exact absurd e (h2 v)
            · exact e
    simp only
    by_cases hd : (acc.map Prod.fst).contains id = true
    · rw [if_pos hd]
      simp only [reduceCtorEq, false_iff]
      rintro ⟨id', hid', hs, hnot, -⟩
      rw [uniq _ hid' hs] at hnot
      exact hnot (by simpa using hd)
    · rw [if_neg hd]
      constructor
      · intro h
        refine ⟨id, hid, hn, by simpa using hd, ?_⟩
        cases ha : attached rest with
        | none => rw [ha] at h; exact .inl ⟨hat.1.1 ha, h⟩
        | some v => rw [ha] at h; exact .inr ⟨v, (hat.2 v).1 ha, h⟩
      · rintro ⟨id', hid', hs, hnot, ⟨e, h⟩ | ⟨v, e, h⟩⟩
        · rw [uniq _ hid' hs] at h; rw [hat.1.2 e]; exact h
        · rw [uniq _ hid' hs] at h; rw [(hat.2 v).2 e]; exact h

/-- a setting with its field -/
abbrev Found := Id × Text × List Text

/-- what the loop finds -/
structure Finds (c : Sub) (args : List Text) (acc : List (Id × Text)) (fs : List Found) : Prop where
  args_eq : args = fs.flatMap (·.2.2) ∨ args = fs.flatMap (·.2.2) ++ [['-', '-']]
  written : ∀ s ∈ fs, s.1 ∈ ids c ∧ Written (opt s.1) s.2.1 s.2.2
  once : (acc.map Prod.fst ++ fs.map Prod.fst).Nodup

theorem finds_cons {c : Sub} {as : List Text} {acc : List (Id × Text)} {fs : List Found} {id : Id} {v : Text}
    {ws : List Text} (hid : id ∈ ids c) (hw : Written (opt id) v ws)
    (h : Finds c as (acc ++ [(id, v)]) fs) : Finds c (ws ++ as) acc ((id, v, ws) :: fs) := by
  refine ⟨?_, ?_, ?_⟩
  · rcases h.args_eq with e | e
    · left; simp [e]
    · right; simp [e]
  · intro s hs
    rcases List.mem_cons.1 hs with rfl | hs
    · exact ⟨hid, hw⟩
    · exact h.written s hs
  · have := h.once
    simpa using this

theorem loop_finds (c : Sub) (n : Nat) (args : List Text) (hn : args.length ≤ n) (acc res : List (Id × Text))
    (hacc : (acc.map Prod.fst).Nodup) (h : loop c args none acc = some res) :
    ∃ fs, Finds c args acc fs ∧ res = acc ++ fs.map (fun s => (s.1, s.2.1)) := by
  induction n generalizing args acc with
  | zero =>
    have : args = [] := List.length_eq_zero_iff.1 (by omega)
    subst this
    simp only [loop, Option.some.injEq] at h
    subst h
    exact ⟨[], ⟨.inl rfl, by simp, by simpa using hacc⟩, by simp⟩
  | succ n ih =>
    have step : ∀ (id : Id) (v : Text) (ws as : List Text), args = ws ++ as → ws ≠ [] → id ∈ ids c →
        id ∉ acc.map Prod.fst → Written (opt id) v ws → loop c as none (acc ++ [(id, v)]) = some res →
        ∃ fs, Finds c args acc fs ∧ res = acc ++ fs.map (fun s => (s.1, s.2.1)) := by
      intro id v ws as e hne hid hnot hw hl
      have hlen : as.length ≤ n := by
        have : 0 < ws.length := List.length_pos_iff.2 hne
        rw [e, List.length_append] at hn; omega
      obtain ⟨fs, h1, h2⟩ := ih as hlen (acc ++ [(id, v)])
        (by rw [List.map_append, List.nodup_append]; exact ⟨hacc, by simp, by
              intro a ha b hb; simp at hb; subst hb; rintro rfl; exact hnot ha⟩) hl
      exact ⟨(id, v, ws) :: fs, e ▸ finds_cons hid hw h1, by rw [h2]; simp⟩
    match args, hn, h, step with
    | [], _, h, _ =>
      simp only [loop, Option.some.injEq] at h
      subst h
      exact ⟨[], ⟨.inl rfl, by simp, by simpa using hacc⟩, by simp⟩
    | a :: as, hn, h, step =>
      by_cases hst : Standalone a
      · rw [loop_plain c a as acc hst] at h; cases h
      · have hst' : a.head? = some '-' ∧ a ≠ ['-'] := by
          unfold Standalone at hst; push Not at hst; exact hst
        match a, hst', h, step with
        | [_], ⟨h1, h2⟩, _, _ => simp at h1; subst h1; exact absurd rfl h2
        | x :: ch :: rest, ⟨h1, _⟩, h, step =>
          simp at h1; subst h1
          by_cases hch : ch = '-'
          · subst hch
            cases rest with
            | nil =>
              obtain ⟨rfl, rfl⟩ := (loop_escape c as acc res).1 h
              exact ⟨[], ⟨.inr rfl, by simp, by simpa using hacc⟩, by simp⟩
            | cons y body =>
              obtain ⟨id, hid, hnot, ⟨e, hl⟩ | ⟨v, e, hl⟩⟩ := (loop_long c y body as acc res).1 h
              · obtain ⟨v, as', rfl, hv, hl⟩ := (loop_pending c as id acc res).1 hl
                refine step id v ['-' :: '-' :: y :: body, v] as' (by simp) (by simp) hid hnot ?_ hl
                rw [e]
                exact .long hv
              · refine step id v ['-' :: '-' :: y :: body] as (by simp) (by simp) hid hnot ?_ hl
                rw [e]
                exact .longEq
          · obtain ⟨id, hid, hs, hnot, ⟨e, hl⟩ | ⟨v, e, hl⟩⟩ := (loop_short c ch hch rest as acc res).1 h
            · subst e
              obtain ⟨v, as', rfl, hv, hl⟩ := (loop_pending c as id acc res).1 hl
              exact step id v [['-', ch], v] as' (by simp) (by simp) hid hnot (.short hs hv) hl
            · refine step id v ['-' :: ch :: rest] as (by simp) (by simp) hid hnot ?_ hl
              rcases e with rfl | ⟨rfl, h1, h2⟩
              · exact .shortEq hs
              · exact .shortGlued hs h1 h2

theorem loop_of_finds (c : Sub) (fs : List Found) (args : List Text) (acc : List (Id × Text))
    (h : Finds c args acc fs) :
    loop c args none acc = some (acc ++ fs.map (fun s => (s.1, s.2.1))) := by
  induction fs generalizing args acc with
  | nil =>
    rcases h.args_eq with e | e
    · subst e; simp [loop]
    · subst e; simp [loop]
  | cons s fs ih =>
    obtain ⟨id, v, ws⟩ := s
    obtain ⟨hid, hw⟩ := h.written _ List.mem_cons_self
    simp only at hid hw
    have honce := h.once
    have hnot : id ∉ acc.map Prod.fst := by
      intro hm
      rw [List.nodup_append] at honce
      exact honce.2.2 id hm id (by simp) rfl
    obtain ⟨as, e, he⟩ : ∃ as, args = ws ++ as ∧
        (as = fs.flatMap (·.2.2) ∨ as = fs.flatMap (·.2.2) ++ [['-', '-']]) := by
      rcases h.args_eq with e | e
      · exact ⟨_, by simpa using e, .inl rfl⟩
      · exact ⟨_, by simpa using e, .inr rfl⟩
    have hrest : loop c as none (acc ++ [(id, v)]) =
        some (acc ++ ((id, v, ws) :: fs).map (fun s => (s.1, s.2.1))) := by
      rw [ih as (acc ++ [(id, v)]) ⟨he, fun s hs => h.written s (List.mem_cons_of_mem _ hs), by
        simpa using honce⟩]
      simp
    subst e
    cases hw with
    | longEq =>
      have hne := long_ne id
      cases hl : (opt id).long with
      | nil => exact absurd hl hne
      | cons y body =>
        refine (loop_long c y _ as acc _).2 ⟨id, hid, hnot, .inr ⟨v, ?_, hrest⟩⟩
        rw [hl]; rfl
    | long hv =>
      have hne := long_ne id
      cases hl : (opt id).long with
      | nil => exact absurd hl hne
      | cons y body =>
        refine (loop_long c y _ _ acc _).2 ⟨id, hid, hnot, .inl ⟨hl.symm, ?_⟩⟩
        exact (loop_pending c _ id acc _).2 ⟨v, as, rfl, hv, hrest⟩
    | shortEq hc =>
      exact (loop_short c _ (short_ne hc) _ as acc _).2 ⟨id, hid, hc, hnot, .inr ⟨v, .inl rfl, hrest⟩⟩
    | shortGlued hc h1 h2 =>
      exact (loop_short c _ (short_ne hc) _ as acc _).2 ⟨id, hid, hc, hnot, .inr ⟨v, .inr ⟨rfl, h1, h2⟩, hrest⟩⟩
    | short hc hv =>
      refine (loop_short c _ (short_ne hc) _ _ acc _).2 ⟨id, hid, hc, hnot, .inl ⟨rfl, ?_⟩⟩
      exact (loop_pending c _ id acc _).2 ⟨v, as, rfl, hv, hrest⟩

/-- the setting of the specification -/
def Found.setting (s : Found) : Setting := ⟨opt s.1, s.2.1, s.2.2⟩

theorem exists_found (is : List Id) (ss : List Setting) (h : ∀ s ∈ ss, s.opt ∈ is.map opt) :
    ∃ fs : List Found, fs.map Found.setting = ss ∧ ∀ s ∈ fs, s.1 ∈ is := by
  induction ss with
  | nil => exact ⟨[], rfl, by simp⟩
  | cons s ss ih =>
    obtain ⟨fs, h1, h2⟩ := ih (fun s hs => h s (List.mem_cons_of_mem _ hs))
    obtain ⟨id, hid, e⟩ := List.mem_map.1 (h s List.mem_cons_self)
    refine ⟨(id, s.value, s.args) :: fs, ?_, ?_⟩
    · rw [List.map_cons, h1]
      simp only [Found.setting, e]
    · intro x hx
      rcases List.mem_cons.1 hx with rfl | hx
      · exact hid
      · exact h2 x hx

/-- The loop accepts exactly the lines of settings. -/
theorem loop_iff (c : Sub) (args : List Text) (vals : List (Id × Text)) :
    loop c args none [] = some vals ↔
      ∃ fs : List Found, Line ((ids c).map opt) (fs.map Found.setting) args ∧
        vals = fs.map (fun s => (s.1, s.2.1)) := by
  constructor
  · intro h
    obtain ⟨fs, h1, h2⟩ := loop_finds c args.length args le_rfl [] vals (by simp) h
    refine ⟨fs, ⟨?_, ?_, ?_⟩, by simpa using h2⟩
    · rw [List.flatMap_map]
      exact h1.args_eq
    · intro s hs
      obtain ⟨f, hf, rfl⟩ := List.mem_map.1 hs
      exact ⟨List.mem_map.2 ⟨_, (h1.written f hf).1, rfl⟩, (h1.written f hf).2⟩
    · have := h1.once
      simp only [List.map_nil, List.nil_append] at this
      rw [List.map_map]
      have e : (Setting.opt ∘ Found.setting) = opt ∘ (Prod.fst : Found → Id) := rfl
      rw [e, ← List.map_map]
      exact this.map (fun _ _ h => opt_inj h)
  · rintro ⟨fs, h, rfl⟩
    have := loop_of_finds c fs args [] ⟨?_, ?_, ?_⟩
    · simpa using this
    · have := h.args_eq
      rwa [List.flatMap_map] at this
    · intro s hs
      have := h.written _ (List.mem_map.2 ⟨s, hs, rfl⟩)
      refine ⟨?_, this.2⟩
      obtain ⟨id, hid, e⟩ := List.mem_map.1 this.1
      rw [← opt_inj (a := id) (b := s.1) e]; exact hid
    · have := h.once
      rw [List.map_map] at this
      have e : (Setting.opt ∘ Found.setting) = opt ∘ (Prod.fst : Found → Id) := rfl
      rw [e, ← List.map_map] at this
      simpa using List.Nodup.of_map _ this

theorem given_iff {fs : List Found} {is : List Opt} {args : List Text} (h : Line is (fs.map Found.setting) args) (id : Id)
    (v : Text) : (fs.map (fun s => (s.1, s.2.1))).lookup id = some v ↔ Given (fs.map Found.setting) (opt id) v := by
  have hn : ((fs.map (fun s => (s.1, s.2.1))).map Prod.fst).Nodup := by
    have := h.once
    rw [List.map_map] at this
    have e : (Setting.opt ∘ Found.setting) = opt ∘ (Prod.fst : Found → Id) := rfl
    rw [e, ← List.map_map] at this
    rw [List.map_map]
    exact List.Nodup.of_map _ this
  rw [lookup_iff _ hn]
  unfold Given
  constructor
  · intro h
    obtain ⟨f, hf, e⟩ := List.mem_map.1 h
    simp only [Prod.mk.injEq] at e
    exact ⟨f.setting, List.mem_map.2 ⟨f, hf, rfl⟩, by rw [← e.1]; rfl, e.2⟩
  · rintro ⟨s, hs, e1, e2⟩
    obtain ⟨f, hf, rfl⟩ := List.mem_map.1 hs
    exact List.mem_map.2 ⟨f, hf, by rw [← e2, ← opt_inj (a := f.1) (b := id) e1]; rfl⟩

theorem absent_iff (fs : List Found) (id : Id) :
    (fs.map (fun s => (s.1, s.2.1))).lookup id = none ↔ ∀ s ∈ fs.map Found.setting, s.opt ≠ opt id := by
  rw [lookup_none]
  constructor
  · intro h s hs e
    obtain ⟨f, hf, rfl⟩ := List.mem_map.1 hs
    exact h _ (List.mem_map.2 ⟨f, hf, rfl⟩) (opt_inj e)
  · intro h x hx e
    obtain ⟨f, hf, rfl⟩ := List.mem_map.1 hx
    exact h f.setting (List.mem_map.2 ⟨f, hf, rfl⟩) (by rw [← e]; rfl)

theorem maybe_iff {fs : List Found} {is : List Opt} {args : List Text} (h : Line is (fs.map Found.setting) args)
    (id : Id) (v : Option Text) :
    (fs.map (fun s => (s.1, s.2.1))).lookup id = v ↔ Maybe (fs.map Found.setting) (opt id) v := by
  unfold Maybe
  cases v with
  | none => rw [absent_iff]; simp
  | some x => rw [given_iff h]; simp

theorem digitChar_spec (d : Nat) (h : d < 10) : d.digitChar.isDigit = true ∧ d.digitChar.toNat - 48 = d := by
  revert d; decide

theorem digit_char (c : Char) (h : c.isDigit = true) : c.toNat - 48 < 10 ∧ Nat.digitChar (c.toNat - 48) = c := by
  have h1 : 48 ≤ c.toNat ∧ c.toNat ≤ 57 := by
    simp only [Char.isDigit, Bool.and_eq_true, decide_eq_true_eq] at h
    obtain ⟨a, b⟩ := h
    exact ⟨a, b⟩
  refine ⟨by omega, ?_⟩
  have : c = Char.ofNat (c.toNat - 48 + 48) := by
    rw [Nat.sub_add_cancel h1.1, Char.ofNat_toNat]
  rw [this]
  have hk : c.toNat - 48 < 10 := by omega
  generalize c.toNat - 48 = k at hk
  revert k; decide

theorem parseDigits_map (ds : List Nat) (h : ∀ d ∈ ds, d < 10) (acc : Nat) :
    parseDigits acc (ds.map Nat.digitChar) = some (acc * 10 ^ ds.length + Nat.ofDigits 10 ds.reverse) := by
  induction ds generalizing acc with
  | nil => simp [parseDigits]
  | cons d ds ih =>
    have hd := digitChar_spec d (h d List.mem_cons_self)
    rw [List.map_cons, parseDigits, if_pos hd.1, hd.2, ih (fun x hx => h x (List.mem_cons_of_mem _ hx))]
    rw [List.reverse_cons, Nat.ofDigits_append, List.length_reverse, Nat.ofDigits_singleton, List.length_cons]
    congr 1
    ring

theorem parseDigits_some (v : Text) (acc n : Nat) (h : parseDigits acc v = some n) :
    ∃ ds : List Nat, (∀ d ∈ ds, d < 10) ∧ v = ds.map Nat.digitChar := by
  induction v generalizing acc with
  | nil => exact ⟨[], by simp, rfl⟩
  | cons c cs ih =>
    rw [parseDigits] at h
    split at h
    · rename_i hc
      obtain ⟨ds, h1, h2⟩ := ih _ h
      obtain ⟨k1, k2⟩ := digit_char c hc
      refine ⟨(c.toNat - 48) :: ds, ?_, by rw [List.map_cons, k2, h2]⟩
      intro d hd
      rcases List.mem_cons.1 hd with rfl | hd
      · exact k1
      · exact h1 d hd
    · cases h

theorem parseUsize_iff (v : Text) (n : Nat) : parseUsize v = some n ↔ Number v n := by
  have core : ∀ ds : Text, (if ds.isEmpty then none else match parseDigits 0 ds with
      | some n => if n < 2 ^ 64 then some n else none
      | none => none) = some n ↔ ∃ l : List Nat, l ≠ [] ∧ (∀ d ∈ l, d < 10) ∧ n = Nat.ofDigits 10 l.reverse ∧
        n < 2 ^ 64 ∧ ds = l.map Nat.digitChar := by
    intro ds
    constructor
    · intro h
      split at h
      · cases h
      · rename_i hne
        split at h
        · rename_i k hk
          split at h
          · rename_i hlt
            obtain ⟨l, h1, h2⟩ := parseDigits_some ds 0 k hk
            have hk' := parseDigits_map l h1 0
            rw [← h2, hk] at hk'
            simp only [Option.some.injEq, Nat.zero_mul, Nat.zero_add] at hk' h
            subst h
            refine ⟨l, ?_, h1, hk', hlt, h2⟩
            rintro rfl; simp [h2] at hne
          · cases h
        · cases h
    · rintro ⟨l, h0, h1, h2, h3, rfl⟩
      rw [if_neg (by simpa using h0), parseDigits_map l h1 0]
      simp only [Nat.zero_mul, Nat.zero_add, ← h2]
      rw [if_pos h3]
  have nodigit : ∀ l : List Nat, (∀ d ∈ l, d < 10) → ∀ r, l.map Nat.digitChar ≠ '+' :: r := by
    intro l hl r e
    cases l with
    | nil => cases e
    | cons d l =>
      rw [List.map_cons, List.cons.injEq] at e
      have := (digitChar_spec d (hl d List.mem_cons_self)).1
      rw [e.1] at this; exact absurd this (by decide)
  unfold parseUsize Number
  split
  · rename_i rest
    refine (core rest).trans ?_
    constructor
    · rintro ⟨l, h0, h1, h2, h3, h4⟩
      exact ⟨l, h0, h1, h2, h3, .inr (by rw [h4])⟩
    · rintro ⟨l, h0, h1, h2, h3, h4 | h4⟩
      · exact absurd h4.symm (nodigit l h1 rest)
      · exact ⟨l, h0, h1, h2, h3, (List.cons.inj h4).2⟩
  · rename_i hne
    refine (core v).trans ?_
    constructor
    · rintro ⟨l, h0, h1, h2, h3, h4⟩
      exact ⟨l, h0, h1, h2, h3, .inl h4⟩
    · rintro ⟨l, h0, h1, h2, h3, h4 | h4⟩
      · exact ⟨l, h0, h1, h2, h3, h4⟩
      · exact absurd h4 (hne _)

theorem parseProcessing_iff (v : Text) (p : Processing) : parseProcessing v = some p ↔ v = processingName p := by
  have e : parseProcessing v = if v = ['r', 'a', 'w'] then some .raw else if v = ['c', 'a', 'p', 's', '-', 'w', 'o', 'r', 'd', 's'] then some .capsWords else none := rfl
  have e1 : processingName .raw = ['r', 'a', 'w'] := rfl
  have e2 : processingName .capsWords = ['c', 'a', 'p', 's', '-', 'w', 'o', 'r', 'd', 's'] := rfl
  rw [e]
  constructor
  · intro h
    repeat (split at h; · cases h; assumption)
    cases h
  · rintro rfl
    cases p
    · rw [e1]; decide
    · rw [e2]; decide

theorem parseType_iff (v : Text) (ty : TokenType) : parseType v = some ty ↔ v = typeName ty := by
  have e : parseType v = if v = ['b', 'i', 't', 's', '1'] then some .bits1 else if v = ['b', 'i', 't', 's', '2'] then some .bits2
      else if v = ['b', 'i', 't', 's', '4'] then some .bits4 else if v = ['b', 'y', 't', 'e', 's'] then some .bytes
      else if v = ['b', 'y', 't', 'e', 's', '-', 'h', 'u', 'f', 'f'] then some .bytesHuff else none := rfl
  have e1 : typeName .bits1 = ['b', 'i', 't', 's', '1'] := rfl
  have e2 : typeName .bits2 = ['b', 'i', 't', 's', '2'] := rfl
  have e3 : typeName .bits4 = ['b', 'i', 't', 's', '4'] := rfl
  have e4 : typeName .bytes = ['b', 'y', 't', 'e', 's'] := rfl
  have e5 : typeName .bytesHuff = ['b', 'y', 't', 'e', 's', '-', 'h', 'u', 'f', 'f'] := rfl
  rw [e]
  constructor
  · intro h
    repeat (split at h; · cases h; assumption)
    cases h
  · rintro rfl
    cases ty
    · rw [e1]; decide
    · rw [e2]; decide
    · rw [e3]; decide
    · rw [e4]; decide
    · rw [e5]; decide

end Args
end Tokens
