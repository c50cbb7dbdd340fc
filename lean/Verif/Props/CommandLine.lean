import Verif.Proofs.Args
import Verif.Props.Disk

/-!
C82: the command line means what it says.
-/

namespace Tokens
namespace Props
open Args Spec Disk Main

theorem sub_process : subcommand "process".toList = some .process := rfl
theorem sub_count : subcommand "count-chars".toList = some .countChars := rfl
theorem sub_convert : subcommand "convert-tokens".toList = some .convertTokens := rfl
theorem sub_optimize : subcommand "optimize".toList = some .optimize := rfl

theorem sub_cases {name : Text} {c : Sub} (h : subcommand name = some c) :
    (c = .process ∧ name = "process".toList) ∨ (c = .countChars ∧ name = "count-chars".toList) ∨
    (c = .convertTokens ∧ name = "convert-tokens".toList) ∨ (c = .optimize ∧ name = "optimize".toList) := by
  unfold subcommand at h
  split at h
  · cases h; exact .inl ⟨rfl, ‹_›⟩
  · split at h
    · cases h; exact .inr (.inl ⟨rfl, ‹_›⟩)
    · split at h
      · cases h; exact .inr (.inr (.inl ⟨rfl, ‹_›⟩))
      · split at h
        · cases h; exact .inr (.inr (.inr ⟨rfl, ‹_›⟩))
        · cases h

theorem parse_iff (name : Text) (args : List Text) (cmd : Command) (c : Sub) (h : subcommand name = some c) :
    parse (name :: args) = some cmd ↔ ∃ fs : List Found, Line ((ids c).map opt) (fs.map Found.setting) args ∧
      build c (fs.map (fun s => (s.1, s.2.1))) = some cmd := by
  unfold parse
  simp only [h]
  simp only [Option.bind_eq_bind, Option.bind_some, Option.bind_eq_some_iff]
  constructor
  · rintro ⟨vals, h1, h2⟩
    obtain ⟨fs, h3, rfl⟩ := (loop_iff c args vals).1 h1
    exact ⟨fs, h3, h2⟩
  · rintro ⟨fs, h3, h2⟩
    exact ⟨_, (loop_iff c args _).2 ⟨fs, h3, rfl⟩, h2⟩

/-- the fields of a line of settings -/
theorem exists_fields {c : Sub} {ss : List Setting} {args : List Text} (h : Line ((ids c).map opt) ss args) :
    ∃ fs : List Found, fs.map Found.setting = ss := by
  obtain ⟨fs, h1, -⟩ := exists_found (ids c) ss (fun s hs => (h.written s hs).1)
  exact ⟨fs, h1⟩

/-- **C82**.  A command line is accepted exactly if it asks for a command, and then it is this command
that runs: every option is given to the use that its name says, in whatever order and spelling the options
are written; a line with an unknown, repeated, missing or malformed option is refused. -/
theorem C82_exact (args : List Text) (cmd : Command) : parse args = some cmd ↔ Asks args cmd := by
  constructor
  · intro h
    cases args with
    | nil => cases h
    | cons name args =>
      obtain ⟨c, hc⟩ : ∃ c, subcommand name = some c := by
        unfold parse at h
        cases hc : subcommand name with
        | none => simp only [hc] at h; cases h
        | some c => exact ⟨c, rfl⟩
      obtain ⟨fs, hl, hb⟩ := (parse_iff name args cmd c hc).1 h
      rcases sub_cases hc with ⟨rfl, rfl⟩ | ⟨rfl, rfl⟩ | ⟨rfl, rfl⟩ | ⟨rfl, rfl⟩
      · simp only [build, Option.bind_eq_bind, Option.bind_eq_some_iff, Option.some.injEq] at hb
        obtain ⟨d, hd, o, ho, rfl⟩ := hb
        exact .process hl ((given_iff hl .data d).1 hd) ((given_iff hl .output o).1 ho)
      · simp only [build, Option.bind_eq_bind, Option.bind_eq_some_iff, Option.some.injEq] at hb
        obtain ⟨d, hd, rfl⟩ := hb
        exact .countChars hl ((given_iff hl .data d).1 hd)
      · simp only [build, Option.bind_eq_bind, Option.bind_eq_some_iff, Option.some.injEq] at hb
        obtain ⟨d, hd, i, hi, t, ht, rfl⟩ := hb
        exact .convert hl ((given_iff hl .data d).1 hd) ((maybe_iff hl .processedData _).1 rfl)
          ((given_iff hl .inputTokens i).1 hi) ((given_iff hl .tokensDir t).1 ht)
      · simp only [build, Option.bind_eq_bind, Option.bind_eq_some_iff, Option.some.injEq] at hb
        obtain ⟨d, hd, t, ht, p, ⟨pv, hp, hp'⟩, ty, ⟨tv, hty, hty'⟩, n, ⟨nv, hn, hn'⟩, ms, hm, rfl⟩ := hb
        have hp' := (Args.parseProcessing_iff pv p).1 hp'
        have hty' := (Args.parseType_iff tv ty).1 hty'
        subst hp' hty'
        refine .optimize hl ((given_iff hl .data d).1 hd) ((maybe_iff hl .processedData _).1 rfl)
          ((given_iff hl .tokensDir t).1 ht) ((given_iff hl .processing _).1 hp) ((given_iff hl .type _).1 hty)
          ((given_iff hl .ntokens _).1 hn) ((parseUsize_iff nv n).1 hn') ((maybe_iff hl .inputTokens _).1 rfl) ?_
        cases hlk : (fs.map (fun s => (s.1, s.2.1))).lookup Id.minDataSize with
        | none =>
          rw [hlk] at hm
          simp only [Args.optional, Option.some.injEq] at hm
          exact .inr ⟨hm.symm, (absent_iff fs .minDataSize).1 hlk⟩
        | some x =>
          rw [hlk] at hm
          simp only [Args.optional, Option.map_eq_some_iff] at hm
          obtain ⟨k, hk, rfl⟩ := hm
          exact .inl ⟨x, k, (given_iff hl .minDataSize x).1 hlk, (parseUsize_iff x k).1 hk, rfl⟩
  · intro h
    cases h with
    | @process ss args data output hl hd ho =>
      have hl : Line ((ids .process).map opt) ss args := hl
      obtain ⟨fs, rfl⟩ := exists_fields hl
      refine (parse_iff _ args _ _ sub_process).2 ⟨fs, hl, ?_⟩
      simp only [build, Option.bind_eq_bind, Option.bind_eq_some_iff, Option.some.injEq]
      exact ⟨_, (given_iff hl .data _).2 hd, _, (given_iff hl .output _).2 ho, rfl⟩
    | @countChars ss args data hl hd =>
      have hl : Line ((ids .countChars).map opt) ss args := hl
      obtain ⟨fs, rfl⟩ := exists_fields hl
      refine (parse_iff _ args _ _ sub_count).2 ⟨fs, hl, ?_⟩
      simp only [build, Option.bind_eq_bind, Option.bind_eq_some_iff, Option.some.injEq]
      exact ⟨_, (given_iff hl .data _).2 hd, rfl⟩
    | @convert ss args data processed inputTokens tokensDir hl hd hp hi ht =>
      have hl : Line ((ids .convertTokens).map opt) ss args := hl
      obtain ⟨fs, rfl⟩ := exists_fields hl
      refine (parse_iff _ args _ _ sub_convert).2 ⟨fs, hl, ?_⟩
      simp only [build, Option.bind_eq_bind, Option.bind_eq_some_iff, Option.some.injEq]
      exact ⟨_, (given_iff hl .data _).2 hd, _, (given_iff hl .inputTokens _).2 hi, _,
        (given_iff hl .tokensDir _).2 ht, by rw [(maybe_iff hl .processedData _).2 hp]⟩
    | @optimize ss args data processed tokensDir p ty ntokens inputTokens minSize nv hl hd hpd ht hp hty hn hnn
        hi hm =>
      have hl : Line ((ids .optimize).map opt) ss args := hl
      obtain ⟨fs, rfl⟩ := exists_fields hl
      refine (parse_iff _ args _ _ sub_optimize).2 ⟨fs, hl, ?_⟩
      simp only [build, Option.bind_eq_bind, Option.bind_eq_some_iff, Option.some.injEq]
      refine ⟨_, (given_iff hl .data _).2 hd, _, (given_iff hl .tokensDir _).2 ht, p,
        ⟨_, (given_iff hl .processing _).2 hp, (Args.parseProcessing_iff _ p).2 rfl⟩, ty,
        ⟨_, (given_iff hl .type _).2 hty, (Args.parseType_iff _ ty).2 rfl⟩, ntokens,
        ⟨_, (given_iff hl .ntokens _).2 hn, (parseUsize_iff _ _).2 hnn⟩, minSize, ?_, ?_⟩
      · rcases hm with ⟨x, n, h1, h2, rfl⟩ | ⟨rfl, h1⟩
        · rw [(given_iff hl .minDataSize x).2 h1]
          simp only [Args.optional, (parseUsize_iff x n).2 h2, Option.map_some]
        · rw [(absent_iff fs .minDataSize).2 h1]; rfl
      · rw [(maybe_iff hl .processedData _).2 hpd, (maybe_iff hl .inputTokens _).2 hi]

theorem build_congr (c : Sub) (v v' : List (Id × Text)) (h : ∀ id, v.lookup id = v'.lookup id) :
    build c v = build c v' := by
  cases c <;> simp only [build, h]

theorem parse_of_line {c : Sub} {name : Text} (hc : subcommand name = some c) {fs : List Found} {args : List Text}
    (h : Line ((ids c).map opt) (fs.map Found.setting) args) :
    parse (name :: args) = build c (fs.map (fun s => (s.1, s.2.1))) := by
  unfold parse
  simp only [hc, (loop_iff c args _).2 ⟨fs, h, rfl⟩, Option.bind_eq_bind, Option.bind_some]

/-- **C82**.  Neither the order of the options nor the way in which each of them is written matters: two
lines that give the same values to the same options have the same effect. -/
theorem C82_order (name : Text) (opts : List Opt) (hn : (name, opts) ∈ subcommands) (ss ss' : List Setting)
    (args args' : List Text) (h : Line opts ss args) (h' : Line opts ss' args')
    (hp : (ss.map (fun s => (s.opt, s.value))).Perm (ss'.map (fun s => (s.opt, s.value)))) :
    parse (name :: args) = parse (name :: args') := by
  obtain ⟨c, hc, rfl⟩ : ∃ c, subcommand name = some c ∧ opts = (ids c).map opt := by
    simp only [subcommands, List.mem_cons, List.not_mem_nil, or_false, Prod.mk.injEq] at hn
    rcases hn with ⟨rfl, rfl⟩ | ⟨rfl, rfl⟩ | ⟨rfl, rfl⟩ | ⟨rfl, rfl⟩
    · exact ⟨.process, sub_process, rfl⟩
    · exact ⟨.countChars, sub_count, rfl⟩
    · exact ⟨.convertTokens, sub_convert, rfl⟩
    · exact ⟨.optimize, sub_optimize, rfl⟩
  obtain ⟨fs, rfl⟩ := exists_fields h
  obtain ⟨fs', rfl⟩ := exists_fields h'
  rw [parse_of_line hc h, parse_of_line hc h']
  apply build_congr
  intro id
  have key : ∀ v, (fs.map (fun s => (s.1, s.2.1))).lookup id = some v ↔
      (fs'.map (fun s => (s.1, s.2.1))).lookup id = some v := by
    intro v
    rw [given_iff h, given_iff h']
    have : ∀ l : List Found, Given (l.map Found.setting) (opt id) v ↔
        (opt id, v) ∈ (l.map Found.setting).map (fun s => (s.opt, s.value)) := by
      intro l
      unfold Given
      rw [List.mem_map]
      simp only [Prod.mk.injEq]
    rw [this, this, hp.mem_iff]
  cases e : (fs.map (fun s => (s.1, s.2.1))).lookup id with
  | some v => exact ((key v).1 e).symm
  | none =>
    cases e' : (fs'.map (fun s => (s.1, s.2.1))).lookup id with
    | none => rfl
    | some v => rw [(key v).2 e'] at e; cases e

/-- **C82**.  The program either refuses the command line, does nothing and writes nothing, which happens
exactly if the line asks for no command; or it executes the command asked for. -/
theorem C82_program (m : Machine) (d : Files) (args : List Text) (r : Option (R Unit)) (ws : List (Text × Bytes)) :
    Program m d args r ws ↔
      (r = none ∧ ws = [] ∧ ¬ ∃ cmd, Asks args cmd) ∨
      ∃ cmd r', Asks args cmd ∧ r = some r' ∧ Exec m d cmd (r', ws) := by
  constructor
  · intro h
    cases h with
    | refused h =>
      left
      refine ⟨rfl, rfl, ?_⟩
      rintro ⟨cmd, hc⟩
      rw [(C82_exact args cmd).2 hc] at h; cases h
    | @run cmd r ws h he => exact .inr ⟨cmd, r, (C82_exact args cmd).1 h, rfl, he⟩
  · rintro (⟨rfl, rfl, h⟩ | ⟨cmd, r', hc, rfl, he⟩)
    · refine .refused ?_
      cases hp : parse args with
      | none => rfl
      | some cmd => exact absurd ⟨cmd, (C82_exact args cmd).1 hp⟩ h
    · exact .run ((C82_exact args cmd).2 hc) he

/-- **C82**.  A command line asks for one command at most. -/
theorem C82_one_meaning (args : List Text) (cmd cmd' : Command) (h : Asks args cmd) (h' : Asks args cmd') :
    cmd = cmd' := by
  have := (C82_exact args cmd).2 h
  rw [(C82_exact args cmd').2 h'] at this
  exact (Option.some.inj this).symm

/-- The settings of the command line of the README: `-d <data> -t <dir> --type=bits4 -p caps-words
-n 1024`. -/
def readmeLine : List Setting :=
  [⟨.data, ['f'], [['-', 'd'], ['f']]⟩, ⟨.tokensDir, ['d'], [['-', 't'], ['d']]⟩,
   ⟨.type, typeName .bits4, ["--".toList ++ Opt.type.long ++ '=' :: typeName .bits4]⟩,
   ⟨.processing, processingName .capsWords, [['-', 'p'], processingName .capsWords]⟩,
   ⟨.ntokens, ['1', '0', '2', '4'], [['-', 'n'], ['1', '0', '2', '4']]⟩]

theorem readme_line : Line [.data, .processedData, .tokensDir, .processing, .type, .ntokens, .inputTokens,
    .minDataSize] readmeLine (readmeLine.flatMap (·.args)) where
  args_eq := .inl rfl
  written := by
    intro s hs
    simp only [readmeLine, List.mem_cons, List.not_mem_nil, or_false] at hs
    rcases hs with rfl | rfl | rfl | rfl | rfl
    · exact ⟨by simp, .short rfl (.inl (by decide))⟩
    · exact ⟨by simp, .short rfl (.inl (by decide))⟩
    · exact ⟨by simp, .longEq⟩
    · refine ⟨by simp, .short rfl (.inl ?_)⟩
      rw [show processingName .capsWords = ['c', 'a', 'p', 's', '-', 'w', 'o', 'r', 'd', 's'] from rfl]
      decide
    · exact ⟨by simp, .short rfl (.inl (by decide))⟩
  once := by
    have : readmeLine.map (·.opt) = ([.data, .tokensDir, .type, .processing, .ntokens] : List Id).map opt := rfl
    rw [this]
    exact List.Nodup.map (fun _ _ h => opt_inj h) (by decide)

/-- The README's example asks for what the README says. -/
theorem readme_asks : Asks ("optimize".toList :: readmeLine.flatMap (·.args))
    (.optimize ['f'] none ['d'] .capsWords .bits4 1024 none none) := by
  have absent : ∀ id : Id, id ∉ ([.data, .tokensDir, .type, .processing, .ntokens] : List Id) →
      ∀ s ∈ readmeLine, s.opt ≠ opt id := by
    intro id hid s hs e
    have : s.opt ∈ readmeLine.map (·.opt) := List.mem_map.2 ⟨s, hs, rfl⟩
    rw [show readmeLine.map (·.opt) = ([.data, .tokensDir, .type, .processing, .ntokens] : List Id).map opt from rfl,
      e] at this
    obtain ⟨i, hi, e⟩ := List.mem_map.1 this
    rw [opt_inj e] at hi
    exact hid hi
  refine .optimize readme_line ⟨⟨.data, ['f'], [['-', 'd'], ['f']]⟩, by simp [readmeLine], rfl, rfl⟩ (.inr ⟨rfl, absent .processedData (by decide)⟩)
    ⟨⟨.tokensDir, ['d'], [['-', 't'], ['d']]⟩, by simp [readmeLine], rfl, rfl⟩
    ⟨⟨.processing, processingName .capsWords, [['-', 'p'], processingName .capsWords]⟩, by simp [readmeLine], rfl, rfl⟩
    ⟨⟨.type, typeName .bits4, ["--".toList ++ Opt.type.long ++ '=' :: typeName .bits4]⟩, by simp [readmeLine], rfl, rfl⟩
    ⟨⟨.ntokens, ['1', '0', '2', '4'], [['-', 'n'], ['1', '0', '2', '4']]⟩, by simp [readmeLine], rfl, rfl⟩
    ⟨[1, 0, 2, 4], by simp, by simp, by decide, by norm_num, .inl (by decide)⟩
    (.inr ⟨rfl, absent .inputTokens (by decide)⟩) (.inr ⟨rfl, absent .minDataSize (by decide)⟩)

example : parse ("optimize".toList :: readmeLine.flatMap (·.args)) =
    some (.optimize ['f'] none ['d'] .capsWords .bits4 1024 none none) := (C82_exact _ _).2 readme_asks

/-- The same line backwards. -/
example (args : List Text) (h : Line [.data, .processedData, .tokensDir, .processing, .type, .ntokens,
    .inputTokens, .minDataSize] readmeLine.reverse args) :
    parse ("optimize".toList :: args) = some (.optimize ['f'] none ['d'] .capsWords .bits4 1024 none none) := by
  rw [← (C82_exact _ _).2 readme_asks]
  exact C82_order _ _ (by simp [subcommands]) _ _ _ _ h readme_line
    ((List.reverse_perm readmeLine).map _)

end Props
end Tokens
