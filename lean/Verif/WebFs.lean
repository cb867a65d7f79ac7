import Verif.WebDemo
import Verif.VssTable
/-
The web demonstration with its files (web_demo.go, internal/vssgen/args.go): what a request reads, and what a start of the program
does to the directory `dataset`.

The file system is a tree of directories and files; paths are followed as the operating system does.  Not modelled: links, rights,
limits of the length of paths, errors of the disk, several requests at a time.
-/
namespace Verif

/-! ### The tree of files -/

/-- A file with its contents, or a directory. [what `os.ReadFile`, `os.Stat` and `os.RemoveAll` see, web_demo.go:67, 77-80, 90;
internal/vssgen/args.go:52-62] -/
inductive FsNode where
  | file (b : Bytes)
  | dir (m : List (Bytes × FsNode))

/-- An entry of a directory. [part of `os.ReadFile`, web_demo.go:67, 77-80] -/
def FsNode.child : FsNode → Bytes → Option FsNode
  | .dir m, k => mget m k
  | .file _, _ => none

/-- The node at a place, given by the names from the root. [part of `os.ReadFile`, web_demo.go:67, 77-80] -/
def FsNode.at? (t : FsNode) : List Bytes → Option FsNode
  | [] => some t
  | k :: ks => (t.child k).bind fun c => c.at? ks

/-- Following the parts of a path from a place, as the operating system does: every part but the last must be a directory, empty
parts and `.` stay, `..` goes to the directory above (the root is above itself).  [part of `os.ReadFile`, web_demo.go:67, 77-80] -/
def walk (root : FsNode) : List Bytes → List Bytes → Option (List Bytes)
  | loc, [] => some loc
  | loc, p :: ps =>
    match root.at? loc with
    | some (.dir m) =>
      if p = [] ∨ p = b!"." then walk root loc ps
      else if p = b!".." then walk root loc.dropLast ps
      else if (mget m p).isSome then walk root (loc ++ [p]) ps
      else none
    | _ => none

/-- `os.ReadFile` of a relative path in the working directory (web_demo.go:67, 77, 80, 90, 97); `none` is an error. -/
def fsRead (root : FsNode) (cwd : List Bytes) (path : Bytes) : Option Bytes :=
  match walk root cwd (split bSlash path) with
  | some loc =>
    match root.at? loc with
    | some (.file b) => some b
    | _ => none
  | none => none

/-- Putting a node at a place; missing directories on the way are made.  [`os.MkdirAll`, `os.WriteFile`,
internal/vssgen/args.go:62, 69, 94-99] -/
def FsNode.put : FsNode → List Bytes → FsNode → FsNode
  | _, [], n => n
  | .file b, _ :: _, _ => .file b
  | .dir m, k :: ks, n => .dir (mset m k (((mget m k).getD (.dir [])).put ks n))

/-! ### Requests -/

/-- `homeHandler` (web_demo.go:66-70): the error is ignored. -/
def homeHandler (root : FsNode) (cwd : List Bytes) : Bytes := (fsRead root cwd b!"index.html").getD []

/-- `updateHandler` (web_demo.go:73-83) on the values of the query, which can be any texts; errors are ignored. -/
def updateHandler (root : FsNode) (cwd : List Bytes) (car patch : Bytes) : Bytes :=
  if patch = [] then
    (fsRead root cwd (b!"dataset/car_" ++ (car ++ (b!"/tson/" ++ (car ++ b!"_1.tson"))))).getD []
  else
    (fsRead root cwd (b!"dataset/car_" ++ (car ++ (b!"/patches/" ++ (car ++ 95 :: (patch ++ b!".json")))))).getD []

/-- The value of `strconv.Atoi` if its error is ignored (web_demo.go:88-89): 0 for a text that is no number, and the nearest number
for one out of range. -/
def atoiValue (s : Bytes) : Int :=
  match signedDigits s with
  | none => 0
  | some v => if v < minInt64 then minInt64 else if maxInt64 < v then maxInt64 else v

/-- The texts that `patchHandler` reads (web_demo.go:90, 94-98); files that cannot be read give no bytes. -/
def patchTexts (root : FsNode) (cwd : List Bytes) (car maxpatch : Int) : Bytes × List Bytes :=
  ((fsRead root cwd (b!"dataset/car_" ++ (itoa car ++ (b!"/tson/" ++ (itoa car ++ b!"_1.tson"))))).getD [],
    (List.range (maxpatch - 1).toNat).map fun i =>
      (fsRead root cwd (b!"dataset/car_" ++ (itoa car ++ (b!"/patches/" ++ (itoa car ++ 95 :: (natDigits (i + 2) ++ b!".json")))))).getD [])

/-- `patchHandler` (web_demo.go:86-112) on the values of the query. -/
def patchRequest (P : Nat → Bool) (root : FsNode) (cwd : List Bytes) (car patch : Bytes) : Res Bytes :=
  let t := patchTexts root cwd (atoiValue car) (atoiValue patch)
  patchHandler P t.1 t.2

/-! ### The start -/

/-- The place of the data (web_demo.go:56). -/
def dataPlace (cwd : List Bytes) : List Bytes := cwd ++ [b!"dataset"]

/-- `PrepareOutputDir` (internal/vssgen/args.go:49-63): a directory is removed and made again; if there is a file of that name, it
stays, and the error of `MkdirAll` is ignored. -/
def prepareOutputDir (root : FsNode) (cwd : List Bytes) : FsNode :=
  match root.at? (dataPlace cwd) with
  | some (.file _) => root
  | _ => root.put (dataPlace cwd) (.dir [])

/-- The text of an argument. [part of `json.MarshalIndent`, internal/vssgen/args.go:68] -/
def Arg.text : Arg → Res Bytes
  | .str s => .ok (jsonStr s)
  | .int n => .ok (itoa n)
  | .float f => if (Js.num f).finite then .ok (jsonNum f) else .err

/-- The lines of the members. [part of `json.MarshalIndent` with four spaces, internal/vssgen/args.go:68] -/
def metadataLines : List (Bytes × Arg) → Res Bytes
  | [] => .ok []
  | [(k, v)] => v.text.map fun b => b!"\n    " ++ (jsonStr k ++ (b!": " ++ b))
  | (k, v) :: x :: m => v.text.bind fun b => (metadataLines (x :: m)).map fun r => b!"\n    " ++ (jsonStr k ++ (b!": " ++ (b ++ 44 :: r)))

/-- The text of `metadata.json` (internal/vssgen/args.go:68): keys in order; the error for a rate that is not a finite number is
ignored, and the file is empty.  Simplification: the map has members (it always has five). -/
def metadataText (m : List (Bytes × Arg)) : Bytes :=
  match metadataLines (sortM m) with
  | .ok b => 123 :: (b ++ b!"\n}")
  | _ => []

/-- `SaveMetadata` (internal/vssgen/args.go:66-70): without the directory nothing is written. -/
def saveMetadata (root : FsNode) (cwd : List Bytes) (m : List (Bytes × Arg)) : FsNode :=
  match root.at? (dataPlace cwd) with
  | some (.dir _) => root.put (dataPlace cwd ++ [b!"metadata.json"]) (.file (metadataText m))
  | _ => root

/-- The directory of a car (internal/vssgen/args.go:88-113): its number, and for each round the data set and the patch. -/
def carDir (i : Nat) (files : List (Bytes × Bytes)) : FsNode :=
  .dir [
    (b!"tson", .dir (files.mapIdx fun j f => (natDigits i ++ 95 :: (natDigits (j + 1) ++ b!".tson"), .file f.1))),
    (b!"patches", .dir (files.mapIdx fun j f => (natDigits i ++ 95 :: (natDigits (j + 1) ++ b!".json"), .file f.2)))]

/-- The directories of the cars (internal/vssgen/args.go:88-114).  Simplification: they are made at once instead of file by file. -/
def carDirs (cars : List (List (Bytes × Bytes))) : List (Bytes × FsNode) :=
  cars.mapIdx fun i files => (b!"car_" ++ natDigits (i + 1), carDir (i + 1) files)

/-- `Generate` (internal/vssgen/args.go:73-115), where `texts` are the texts of the files (`genCar`) for the arguments: the
arguments are taken first, which can panic; if `dataset` is no directory nothing is written. -/
def generateFiles (root : FsNode) (cwd : List Bytes) (m : List (Bytes × Arg)) (texts : GenArgs → List (List (Bytes × Bytes))) :
    FsNode × Res Unit :=
  match genArgs m with
  | .ok a =>
    match root.at? (dataPlace cwd) with
    | some (.dir es) => (root.put (dataPlace cwd) (.dir (es ++ carDirs (texts a))), .ok ())
    | _ => (root, .ok ())
  | .err => (root, .err)
  | .panic => (root, .panic)

/-- `generateVss` (web_demo.go:41-63) with the arguments it has. -/
def generateVss (root : FsNode) (cwd : List Bytes) (m : List (Bytes × Arg)) (texts : GenArgs → List (List (Bytes × Bytes))) :
    FsNode × Res Unit :=
  generateFiles (saveMetadata (prepareOutputDir root cwd) cwd m) cwd m texts

/-- What becomes of the program: it ends by itself, it serves requests, or it panics. [web_demo.go:22-39] -/
inductive WebEnd where
  | ends
  | serves
  | panics
deriving DecidableEq

/-- The values of the flags on the command line. [internal/vssgen/args.go:17-23] -/
structure Flags where
  dataset : Bytes
  cars : Int
  files : Int
  changeRate : F64
  size : F64

/-- `WebDemo` (web_demo.go:22-39): without arguments the data is made and the server started; with arguments only the data is made,
and without the numbers of cars and files the program ends at once (internal/vssgen/args.go:26-29).  Not modelled: the reading of
the command line. -/
def webDemo (root : FsNode) (cwd : List Bytes) (line : Option Flags) (texts : GenArgs → List (List (Bytes × Bytes))) : FsNode × WebEnd :=
  match line with
  | some f =>
    if f.cars < 0 ∨ f.files < 0 then (root, .ends)
    else
      match generateVss root cwd (parseArgs f.dataset f.cars f.files f.changeRate f.size) texts with
      | (root', .ok ()) => (root', .ends)
      | (root', _) => (root', .panics)
  | none =>
    match generateVss root cwd (defaultArgs (dec 2 10) (dec 1 10)) texts with
    | (root', .ok ()) => (root', .serves)
    | (root', _) => (root', .panics)

example : metadataText (defaultArgs (dec 2 10) (dec 1 10)) =
    b!"{\n    \"cars\": 5,\n    \"change_rate\": 0.2,\n    \"dataset\": \"internal/vssgen/vss.json\",\n    \"files\": 10,\n    \"size\": 0.1\n}" := by
  decide +kernel
example : fsRead (.dir [(b!"srv", .dir [(b!"a", .file b!"x")])]) [b!"srv"] b!"./..//srv/a" = some b!"x" := by decide +kernel
example : fsRead (.dir [(b!"srv", .dir [(b!"a", .file b!"x")])]) [b!"srv"] b!"b/../a" = none := by decide +kernel

end Verif
