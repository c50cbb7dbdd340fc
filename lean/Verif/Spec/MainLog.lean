import Verif.Model.MainLog

/-! What the console output of the commands is read for. -/

namespace Tokens
namespace Spec
open Optimize Main

/-- The name of the file that a line of the optimizer announces. -/
def announces : Printed → Option Text
  | .writing ts => some (ts.name ++ ".json".toList)
  | _ => none

/-- The names of the files that are announced ("Writing the token set to …"), in order. -/
def announced (l : List Printed) : List Text := l.filterMap announces

/-- The name of the file that a line of a command announces. -/
def noteAnnounces : Note → Option Text
  | .writing n => some n
  | .opt e => announces e
  | _ => none

/-- The names of the files that a command announces, in order. -/
def announcedBy (l : List Note) : List Text := l.filterMap noteAnnounces

/-- The sizes of the samples that were printed ("Optimizing with … bytes of data."), in order. -/
def sampleSizes (l : List Note) : List Nat :=
  l.filterMap (fun | .sample n => some n | _ => none)

end Spec
end Tokens
