import Verif.Model.OldAll
import Verif.Model.Disk

/-!
Model of the names of the files of the first generation (`/repo/src/tokens.rs`, `/repo/src/optimizer.rs`).
-/

namespace Tokens
namespace Old

/-- src/tokens.rs:28-45 `Display` of `LiteralEncoding`. -/
def LiteralEncoding.display : LiteralEncoding → Text
  | .all => ['a', 'l', 'l']
  | .bits1 => ['b', 'i', 't', 's', '1']
  | .bits2 => ['b', 'i', 't', 's', '2']
  | .bits4 => ['b', 'i', 't', 's', '4']
  | .dist2 => ['d', 'i', 's', 't', '2']
  | .dist4 => ['d', 'i', 's', 't', '4']
  | .dist8 => ['d', 'i', 's', 't', '8']
  | .hex => ['h', 'e', 'x']

/-- src/optimizer.rs:671-672: `format!("tokens{}_{}_{}.json", ntokens, processing, literal_encoding)`. -/
def fileName (n : Nat) (processing : Text) (le : LiteralEncoding) : Text :=
  ['t', 'o', 'k', 'e', 'n', 's'] ++ Nat.toDigits 10 n ++ ['_'] ++ processing ++ ['_'] ++ le.display ++
    ['.', 'j', 's', 'o', 'n']

/-- src/optimizer.rs:632, 673: `tokens_dir_path.join(output_filename)`, the path that is written. -/
def savePath (dir : Text) (n : Nat) (processing : Text) (le : LiteralEncoding) : Text :=
  Disk.joinPath dir (fileName n processing le)

/-- src/optimizer.rs:606-609: `format!("{}/tokens{}_{}_{}.json", ...)`, the path that `load_prev_token_set` looks
for and reads. -/
def loadPath (dir : Text) (n : Nat) (processing : Text) (le : LiteralEncoding) : Text :=
  dir ++ ['/'] ++ (['t', 'o', 'k', 'e', 'n', 's'] ++ Nat.toDigits 10 n ++ ['_'] ++ processing ++ ['_'] ++ le.display ++
    ['.', 'j', 's', 'o', 'n'])

end Old
end Tokens
