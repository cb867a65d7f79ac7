import Verif.Vss
/-
The generator of vehicle data (internal/vssgen/vss.go:138-377): the first data set and the following ones.

What `math/rand` returns is a parameter (`Draw`, `NextDraw`), for each place in the program a function or a value of its
own; so is the time.  The order in which the maps are visited is the order of the lists.
-/
namespace Verif

/-! ### Groups of leaf nodes -/

/-- The name up to the last dot and behind it (`strings.LastIndex` and the slices, internal/vssgen/vss.go:146-150); nothing
without a dot. -/
def lastDot : Bytes → Option (Bytes × Bytes)
  | [] => none
  | c :: s =>
    match lastDot s with
    | some (a, b) => some (c :: a, b)
    | none => if c = bDot then some ([], s) else none

/-- The members read so far of the map `leafs` (internal/vssgen/vss.go:142). -/
abbrev Groups := List (Bytes × List (Bytes × Js))

/-- The loop over the leaf nodes (internal/vssgen/vss.go:144-152): a panic for a name without a dot. -/
def groupAll (g : Groups) : List (Bytes × Js) → Res Groups
  | [] => .ok g
  | (key, v) :: r =>
    match lastDot key with
    | none => .panic
    | some (parent, k) => groupAll (mset g parent (mset ((mget g parent).getD []) k v)) r

/-! ### Random values -/

/-- The strings to choose from (internal/vssgen/vss.go:423-445). -/
def testStrings : List Bytes := (List.range 20).map fun i => b!"TEST_STRING_VALUE_" ++ itoa ((i + 1 : Nat) : Int)

/-- What `math/rand` returns for one group: whether the group is left out (internal/vssgen/vss.go:156), a truth value (181),
`rand.Float64() * 100` (185, 205, 212), an index (200), numbers (218, 236, 243), indices of strings (414), and the numbers
that end the loops (210, 228, 241), by round. -/
structure Draw where
  skip : Bool
  flag : Bool
  hundred : Nat → F64
  index : Nat
  upTo200 : Nat
  upTo100 : Nat → Nat
  string : Nat → Nat
  bound : Nat → Nat

/-- The map with value and timestamp (internal/vssgen/vss.go:180-183). -/
def vssLeaf (v : Js) (ts : Int) : Js := .obj [(b!"value", v), (b!"timestamp", .int ts)]

/-- `genRandomString` (internal/vssgen/vss.go:413-415). -/
def randomString (i : Nat) : Bytes := testStrings.getD i []

/-- The rounds from `i` of a loop `for i := 0; i < rand.Intn(5)+1; i++` (internal/vssgen/vss.go:210, 228, 241).  The first
argument bounds the number of rounds: the loop ends when `i` is 5. -/
def rounds (bound : Nat → Nat) : Nat → Nat → List Nat
  | 0, _ => []
  | n + 1, i => if i < bound i + 1 then i :: rounds bound n (i + 1) else []

/-- The array made by such a loop (internal/vssgen/vss.go:209-215, 227-233, 240-246). -/
def arrayOf (bound : Nat → Nat) (ts : Int) (f : Nat → Js) : Js := .arr ((rounds bound 6 0).map fun i => vssLeaf (f i) ts)

/-- A member of the metadata is the string (internal/vssgen/vss.go:179-239). -/
def isStr (o : Option Js) (s : Bytes) : Bool :=
  match o with
  | some (.str t) => t == s
  | _ => false

/-- The `switch` on the datatype (internal/vssgen/vss.go:176-252): what is put at the place of the node, nothing if no case
applies.  `int(f)` is in the range of `int64`. -/
def drawValue (md : List (Bytes × Js)) (ts : Int) (d : Draw) : Res (Option Js) :=
  let dt := mget md b!"datatype"
  let leaf (v : Js) : Res (Option Js) := .ok (some (vssLeaf v ts))
  if isStr dt b!"boolean" then leaf (.bool d.flag)
  else if isStr dt b!"int8" || isStr dt b!"uint8" || isStr dt b!"float" && isStr (mget md b!"unit") b!"percent" then
    if isStr dt b!"float" then leaf (.num (d.hundred 0)) else leaf (.int (d.hundred 0).toInt64)
  else
    match mget md b!"allowed" with
    | some (.arr l) =>
      match l[d.index]? with
      | some v => leaf v
      | none => .panic
    | some _ => .panic
    | none =>
      if isStr dt b!"double" || isStr dt b!"float" then leaf (.num (d.hundred 0))
      else if isStr dt b!"float[]" then .ok (some (arrayOf d.bound ts fun i => .num (d.hundred i)))
      else if isStr dt b!"int16" || isStr dt b!"int32" then leaf (.int ((d.upTo200 : Int) - 100))
      else if isStr dt b!"string" then leaf (.str (randomString (d.string 0)))
      else if isStr dt b!"string[]" then .ok (some (arrayOf d.bound ts fun i => .str (randomString (d.string i))))
      else if isStr dt b!"uint16" || isStr dt b!"uint32" then leaf (.int (d.upTo100 0))
      else if isStr dt b!"uint8[]" then .ok (some (arrayOf d.bound ts fun i => .int (d.upTo100 i)))
      else
        match dt with
        | none => leaf .null
        | some .null => leaf .null
        | some _ => .ok none

/-! ### Nodes -/

/-- The loop over the parts of a name (internal/vssgen/vss.go:159-174, 277-292) and the assignment to `new[node]` behind it
(180-251, 295-339), if there is one: the map after it.  If the last part was there, the loop has stepped into it. -/
def placeNode (v : Option Js) : List (Bytes × Js) → List Bytes → Res (List (Bytes × Js))
  | m, [] => .ok m
  | m, node :: parts =>
    match mget m node with
    | none =>
      if parts = [] then .ok (mset m node (v.getD (.obj [])))
      else (placeNode v [] parts).map fun n => mset m node (.obj n)
    | some (.obj n) =>
      if parts = [] then
        match v with
        | some v => .ok (mset m node (.obj (mset n node v)))
        | none => .ok m
      else (placeNode v n parts).map fun n => mset m node (.obj n)
    | some _ => .panic

/-- The loop over the groups (internal/vssgen/vss.go:154-253). -/
def generateAll (ts : Int) (draw : Bytes → Draw) (m : List (Bytes × Js)) : Groups → Res (List (Bytes × Js))
  | [] => .ok m
  | (parent, md) :: r =>
    if (draw parent).skip then generateAll ts draw m r
    else (drawValue md ts (draw parent)).bind fun v =>
      (placeNode v m (split bDot parent)).bind fun m => generateAll ts draw m r

/-- `Generate` (internal/vssgen/vss.go:139-263) at the time `ts`; the draws of a group by its name.  `order` is the order in
which the groups are visited.  `SAVE_METADATA` is false. -/
def generate (order : Groups → Groups) (ts : Int) (draw : Bytes → Draw) (catalogue : Js) : Res (List (Bytes × Js)) :=
  (groupAll [] (leafNodes catalogue)).bind fun g => generateAll ts draw [] (order g)

/-! ### The next data set -/

/-- What happens to a leaf (internal/vssgen/vss.go:305-340). -/
inductive Fate
  | change
  | touch
  | keep
deriving DecidableEq, Repr

/-- What `math/rand` returns for one leaf: what the number drawn means for the rates (internal/vssgen/vss.go:305, 306, 331),
a number (322), `rand.Float64() * 100` (327) and a string (311). -/
structure NextDraw where
  fate : Fate
  upTo200 : Nat
  hundred : F64
  string : Nat

/-- The elements of an array get the new timestamp (internal/vssgen/vss.go:294-303): a panic for an element that is not a
map. -/
def restamp (ts : Int) : List Js → Res (List Js)
  | [] => .ok []
  | .obj m :: l => (restamp ts l).map fun r => vssLeaf ((mget m b!"value").getD .null) ts :: r
  | _ :: _ => .panic

/-- The new leaf (internal/vssgen/vss.go:294-340), nothing if no case of the `switch` applies. -/
def nextValue (ts : Int) (d : NextDraw) : Js → Res (Option Js)
  | .arr l => (restamp ts l).map fun r => some (.arr r)
  | .obj m =>
    match d.fate with
    | .change =>
      match mget m b!"value" with
      | some (.str _) => .ok (some (vssLeaf (.str (randomString d.string)) ts))
      | some (.bool b) => .ok (some (vssLeaf (.bool !b) ts))
      | some (.int _) => .ok (some (vssLeaf (.int ((d.upTo200 : Int) - 100)) ts))
      | some (.num _) => .ok (some (vssLeaf (.num d.hundred) ts))
      | _ => .ok none
    | .touch => .ok (some (vssLeaf ((mget m b!"value").getD .null) ts))
    | .keep => .ok (some (.obj m))
  | v => if d.fate = .keep then .ok (some v) else .panic

/-- The loop over the leaf nodes (internal/vssgen/vss.go:275-342). -/
def nextAll (ts : Int) (draw : Bytes → NextDraw) (m : List (Bytes × Js)) : List (Bytes × Js) → Res (List (Bytes × Js))
  | [] => .ok m
  | (path, value) :: r =>
    (nextValue ts (draw path) value).bind fun v =>
      (placeNode v m (split bDot path)).bind fun m => nextAll ts draw m r

/-- The data set made by `GenerateNext` (internal/vssgen/vss.go:266-342) at the time `ts`; the draws of a leaf by its name.
Leaves that are kept are shared with the old data set; nothing is written to them, unless one name is above another. -/
def generateNext (ts : Int) (draw : Bytes → NextDraw) (data : Js) : Res (List (Bytes × Js)) :=
  nextAll ts draw [] (leafNodes data)

end Verif
