import Verif.Model.Processing
open Tokens Processing
def al : List Char := ['à','â','æ','ç','è','é','ê','ë','î','ï','ô','ö','ù','û','ü','œ','É','À','Æ']
def up : List Char := ['É','À','Æ']
def low (c : Char) : Char := match c with | 'É' => 'é' | 'À' => 'à' | 'Æ' => 'æ' | c => c.toLower
def db : CharTables where
  isAlphabetic c := c.isAlpha || al.contains c
  isUppercase c := c.isUpper || up.contains c
  isLowercase c := c.isLower || (al.contains c && !up.contains c)
  lowerFirst := low
  lowerStr := List.map low
def main (args : List String) : IO Unit := do
  let t ← IO.FS.readFile args[0]!
  let ls := lines t.toList
  let h ← IO.FS.Handle.mk args[1]! .write
  for l in ls do
    match process db l with
    | .ok z => h.putStr (String.ofList (z ++ ['\n']))
    | .error _ => IO.eprintln "panic"
