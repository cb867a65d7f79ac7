import Verif.VssSave
import Verif.ExpFiles
/-
Printing of data sets and of patches (internal/vssgen/vss.go:78-92).
-/
namespace Verif

/-- `VssJson.Print` (internal/vssgen/vss.go:79-83): what is written to the standard output.  The error of `MarshalIndent` is
ignored; the text is empty then. -/
def vssPrint (P : Nat → Bool) (d : Js) : Bytes :=
  match anyIndent P [] b!"    " .top d with
  | .ok s => s ++ [10]
  | _ => [10]

/-- The loop of `PrintWithIndex` (internal/vssgen/vss.go:89-91), from the line with number `i` on. -/
def numberedFrom (i : Nat) : List Bytes → Bytes
  | [] => []
  | l :: ls => padded 5 i ++ b!": " ++ l ++ 10 :: numberedFrom (i + 1) ls

/-- `VssJson.PrintWithIndex` (internal/vssgen/vss.go:86-92) for the text that `json.MarshalIndent` gives (the empty text if it
fails); see `printData` for the data. -/
def printWithIndex (txt : Bytes) : Bytes := numberedFrom 1 (split 10 txt)

end Verif
