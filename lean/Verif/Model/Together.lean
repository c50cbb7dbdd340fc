import Verif.Model.Running

/-!
Several runs of the program at the same time, on the same files.

Each run is one of the commands of `src/main.rs`; it has been started at some moment and does its system calls
one after the other, in between those of the others.  Simplified: a command reads its input when it starts
(as in `Verif/Model/Disk.lean`), and writing a file is a call that creates or empties it, followed by calls that
write at the position of the open file, which no other program changes.  Files are not removed or renamed.
-/

namespace Tokens
namespace Disk
open Main

/-- A system call that changes a file: `open` with `O_CREAT | O_TRUNC`, or `write` at a position; these
are the calls of `std::fs::write` (src/main.rs:141, 148; src/optimize.rs:291) and of `File::create` with
`BufWriter` (src/main.rs:49-51). -/
inductive Call where
  | create (path : Text)
  | write (path : Text) (pos : Nat) (piece : Bytes)

/-- The file it changes. -/
def Call.path : Call → Text
  | .create path => path
  | .write path _ _ => path

/-- `write` at a position, as used by `std::fs::write` (src/main.rs:141, 148; src/optimize.rs:291) and `BufWriter`
(src/main.rs:51): what is there is replaced, the file grows if needed, and a gap is filled with zeros.  Writing
nothing does nothing. -/
def overlay (old : Bytes) (pos : Nat) (piece : Bytes) : Bytes :=
  if piece = [] then old
  else old.take pos ++ List.replicate (pos - old.length) 0 ++ piece ++ old.drop (pos + piece.length)

/-- The files after a call. -/
def Call.apply (d : Files) : Call → Files
  | .create path => d.write path []
  | .write path pos piece => d.write path (overlay ((d.read path).getD []) pos piece)

/-- The files after some calls. -/
def applyCalls (d : Files) : List Call → Files
  | [] => d
  | c :: cs => applyCalls (c.apply d) cs

/-- The calls for writing these pieces one after the other, from a position on (src/main.rs:51, 141, 148;
src/optimize.rs:291). -/
def writesAt (path : Text) : Nat → List Bytes → List Call
  | _, [] => []
  | pos, x :: xs => .write path pos x :: writesAt path (pos + x.length) xs

/-- The calls for writing these files one after the other, each in some pieces. -/
inductive CallsFor : List (Text × Bytes) → List Call → Prop where
  | nil : CallsFor [] []
  | cons {path b ws cs} (pieces : List Bytes) (hp : pieces.flatten = b) (h : CallsFor ws cs) :
      CallsFor ((path, b) :: ws) (.create path :: (writesAt path 0 pieces ++ cs))

/-- A run that has been started: how it will end (`none` if it is not going to, or if it is killed), what it will
write until then, and the calls it has done and has still to do. -/
structure Job where
  result : Option (R Unit)
  writes : List (Text × Bytes)
  done : List Call
  todo : List Call

/-- A command, started on the files `d`, may end with this result (or be at work, for `none`), having written
these files (src/main.rs:313-348). -/
def Begins (m : Machine) (d : Files) (cmd : Command) (result : Option (R Unit)) (ws : List (Text × Bytes)) : Prop :=
  match result with
  | some r => Exec m d cmd (r, ws)
  | none => Running m d cmd ws

/-- The files, and the runs by number (`none`: not started yet). -/
structure Together where
  files : Files
  job : Nat → Option Job

/-- One of the runs makes a step: it is started, or does its next call.  `prog i` is the machine and the command of
the i-th run, if there are so many. -/
inductive Together.Step (prog : Nat → Option (Machine × Command)) : Together → Together → Prop where
  | start {s : Together} (i : Nat) {m cmd result ws calls} (hp : prog i = some (m, cmd)) (hn : s.job i = none)
      (hb : Begins m s.files cmd result ws) (hc : CallsFor ws calls) :
      Together.Step prog s ⟨s.files, fun j => if j = i then some ⟨result, ws, [], calls⟩ else s.job j⟩
  | call {s : Together} (i : Nat) {j : Job} {c : Call} {rest : List Call} (hj : s.job i = some j)
      (ht : j.todo = c :: rest) :
      Together.Step prog s ⟨c.apply s.files,
        fun k => if k = i then some { j with done := j.done ++ [c], todo := rest } else s.job k⟩

/-- What may come of it. -/
inductive Together.Steps (prog : Nat → Option (Machine × Command)) : Together → Together → Prop where
  | refl {s} : Together.Steps prog s s
  | tail {s t u} (h : Together.Steps prog s t) (hs : Together.Step prog t u) : Together.Steps prog s u

/-- Before any of them has been started. -/
def Together.fresh (d : Files) : Together := ⟨d, fun _ => none⟩

end Disk
end Tokens
