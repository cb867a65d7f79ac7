import Verif.Logument
import Verif.VssSave
/-
The web demonstration (web_demo.go), the generation of its files (internal/vssgen/args.go), and the conversion of data sets
to plain maps (internal/vssgen/extension.go:18-41).
-/
namespace Verif

/-! ### Arguments -/

/-- The dynamic types of the metadata (internal/vssgen/args.go:39-45, web_demo.go:48-54). -/
inductive Arg where
  | str (s : Bytes)
  | int (n : Int)
  | float (f : F64)

/-- The map returned by `ParseArgs` (internal/vssgen/args.go:16-46).  Not modelled: the command line; if the number of cars
or files is missing or negative, the program ends. -/
def parseArgs (dataset : Bytes) (cars files : Int) (changeRate size : F64) : List (Bytes × Arg) :=
  [(b!"dataset", .str dataset), (b!"cars", .int cars), (b!"files", .int files), (b!"change_rate", .float changeRate),
    (b!"size", .float size)]

/-- The map that `generateVss` builds without arguments on the command line (web_demo.go:48-54, main.go:10-12); the rates are
0.2 and 0.1. -/
def defaultArgs (changeRate size : F64) : List (Bytes × Arg) :=
  [(b!"dataset", .str b!"internal/vssgen/vss.json"), (b!"cars", .int 5), (b!"files", .int 10), (b!"change_rate", .float changeRate),
    (b!"size", .float size)]

/-- `metadata[key].(string)` (internal/vssgen/args.go:75). -/
def strArg (m : List (Bytes × Arg)) (k : Bytes) : Res Bytes :=
  match mget m k with
  | some (.str s) => .ok s
  | _ => .panic

/-- `metadata[key].(int)` (internal/vssgen/args.go:76-77). -/
def intArg (m : List (Bytes × Arg)) (k : Bytes) : Res Int :=
  match mget m k with
  | some (.int n) => .ok n
  | _ => .panic

/-- `metadata[key].(float64)` (internal/vssgen/args.go:78-80). -/
def floatArg (m : List (Bytes × Arg)) (k : Bytes) : Res F64 :=
  match mget m k with
  | some (.float f) => .ok f
  | _ => .panic

/-- What `Generate` takes from the metadata (internal/vssgen/args.go:74-81). -/
structure GenArgs where
  dataset : Bytes
  cars : Int
  files : Int
  changeRate : F64
  maintainRate : F64
  size : F64

/-- The declarations at the beginning of `Generate` (internal/vssgen/args.go:74-81). -/
def genArgs (m : List (Bytes × Arg)) : Res GenArgs :=
  (strArg m b!"dataset").bind fun dataset => (intArg m b!"cars").bind fun cars => (intArg m b!"files").bind fun files =>
    (floatArg m b!"change_rate").bind fun changeRate => (floatArg m b!"maintain_rate").bind fun maintainRate =>
      (floatArg m b!"size").map fun size => ⟨dataset, cars, files, changeRate, maintainRate, size⟩

/-! ### Files -/

/-- One round of the inner loop (internal/vssgen/args.go:108-113): the next data set and the two files.  The variables `data`
and `patch` of the loop body are new ones, so that `data` on the right is the first data set in every round (109). -/
def genFile (P : Nat → Bool) (first : List (Bytes × Js)) (ts : Int) (draw : Bytes → NextDraw) : Res (Bytes × Bytes) :=
  (generateNext ts draw (.obj first)).bind fun next => (vssPatch first next).bind fun patch =>
    (vssSave P (.obj next)).bind fun a => (vssSave P patch).map fun b => (a, b)

/-- The files of a car (internal/vssgen/args.go:101-113): for each number the data set and the patch; the first patch file is the
data set as well (104).  The list has the time and the draws of each round. -/
def genCar (P : Nat → Bool) (first : List (Bytes × Js)) (rounds : List (Int × (Bytes → NextDraw))) : Res (List (Bytes × Bytes)) :=
  (vssSave P (.obj first)).bind fun a => (go rounds).map fun l => (a, a) :: l
where
  /-- The inner loop (internal/vssgen/args.go:108-113). -/
  go : List (Int × (Bytes → NextDraw)) → Res (List (Bytes × Bytes))
    | [] => .ok []
    | r :: rs => (genFile P first r.1 r.2).bind fun f => (go rs).map fun l => f :: l

/-! ### Plain maps -/

/-- `ToMapStringInterface` (internal/vssgen/extension.go:18-41): the data set is saved and read as JSON.  Not modelled: the
file system. -/
def toPlainMap (P : Nat → Bool) (data : Js) : Res Js :=
  (vssSave P data).bind fun txt => (unmarshalText txt).bind fun j =>
    match j with
    | .obj m => .ok (.obj m)
    | .null => .ok .null
    | _ => .err

/-! ### The server -/

/-- The loop of `patchHandler` (web_demo.go:94-101). -/
def storeTexts (g : Lgm) : List Bytes → Lgm × Res Unit
  | [] => (g, .ok ())
  | b :: bs =>
    match g.store (.text ((unmarshalPatch b).map fun p => p.map fun l => l.map POp.toOp)) with
    | (g, .ok ()) => storeTexts g bs
    | r => r

/-- `patchHandler` (web_demo.go:86-112) on the text of the first data set and the texts of the patches from the second one on;
texts of files that cannot be read are empty.  Errors of `Append` and `MarshalIndent` are ignored.  Not modelled: the file
system and the network (the server recovers from a panic and closes the connection). -/
def patchHandler (P : Nat → Bool) (original : Bytes) (patches : List Bytes) : Res Bytes :=
  match unmarshal original with
  | .ok t =>
    let s := (newLogument [] t none).1
    match storeTexts s.lgm patches with
    | (g, .ok ()) =>
      match St.snapshot ⟨s.heap, g.append.1⟩ 1 with
      | (s', .ok v) =>
        match s'.heap.view v with
        | some t' => .ok (marshalIndent P t' [] b!"  ")
        | none => .panic
      | _ => .panic
    | _ => .panic
  | _ => .panic

end Verif
