import Verif.Model.JsonRead
import Verif.Model.Pretty
import Verif.Model.Cache
open Tokens
def jsonEq : Json → Json → Bool := fun a b => a.render == b.render
def main (args : List String) : IO Unit := do
  for f in args do
    let b ← IO.FS.readBinFile f
    let bytes := b.toList
    match JsonRead.parseBytes bytes with
    | none => IO.println s!"{f}: not JSON"
    | some v =>
      -- pretty.py's output is a fixed point
      let p := Pretty.pretty id v
      let same := (String.ofList p).toUTF8.toList == bytes
      let r := TokenSet.fromJson v
      let rs := match r with
        | .ok ts =>
          let tj := match ts.toJson with
            | .ok (.obj l) => match v with
                | .obj l' => s!"toJson same: {Json.render (.obj l) == Json.render (.obj (l'.filter (fun kv => kv.1 != "stats".toList)))}"
                | _ => "?"
            | _ => "?"
          s!"loads as {String.ofList ts.name} {ts.tokens.length} {ts.sequences.length} {tj}; new {match FragmentTokenizer.new ts with | .ok _ => true | .error _ => false}"
        | .error e => s!"panic {repr e}"
      IO.println s!"{f}: pretty fixed {same}; {rs}"
