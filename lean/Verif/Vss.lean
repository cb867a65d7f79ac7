import Verif.Json
/-
The generator of vehicle data (internal/vssgen): reading a catalogue, its leaf nodes, and building nested maps from them.

The data of a `VssJson` is a Go value of type `any`, here a `Js`.  A map is a list of members in the order in which the
runtime visits it; the functions below visit each map once, so a theorem about all lists covers all orders.
-/
namespace Verif

/-- The value is a `map[string]any` (internal/vssgen/vss.go:66, 117). -/
def Js.isMap : Js → Bool
  | .obj _ => true
  | _ => false

/-! ### Removing keys -/

mutual
/-- The closure `remove` of `removeKeys` (internal/vssgen/vss.go:62-73) on a value that is a map; other values stay.
As soon as a member is visited that is not a map, the keys are deleted; it does not matter when, as the members
deleted before they are visited need not be looked at, and those visited before are deleted afterwards. -/
def removeT (keys : List Bytes) : Js → Js
  | .obj m =>
    if m.all fun p => p.2.isMap then .obj (removeF keys false m)
    else .obj (removeF keys true m)
  | j => j
/-- The members of a map, `del` telling whether the keys are deleted (internal/vssgen/vss.go:64-72). -/
def removeF (keys : List Bytes) (del : Bool) : List (Bytes × Js) → List (Bytes × Js)
  | [] => []
  | (k, v) :: m => if del ∧ k ∈ keys then removeF keys del m else (k, removeT keys v) :: removeF keys del m
end

/-- `removeKeys` on data that is not initialised (internal/vssgen/vss.go:55-76): a panic if it is not a map. -/
def removeKeys (keys : List Bytes) : Js → Res Js
  | .obj m => .ok (removeT keys (.obj m))
  | _ => .panic

/-- The keys removed from a catalogue (internal/vssgen/vss.go:49). -/
def catalogueKeys : List Bytes := [b!"description", b!"uuid", b!"type", b!"comment", b!"deprecated", b!"deprecation"]

/-- `NewVssJson` (internal/vssgen/vss.go:41-52), from the value `json.Unmarshal` leaves in `vss.data`: nil if the file
cannot be read or is not JSON. -/
def newVss (data : Js) : Res Js := removeKeys catalogueKeys data

/-! ### Leaf nodes -/

/-- The name of a member below a name (internal/vssgen/vss.go:110-115). -/
def fullKey (parent key : Bytes) : Bytes :=
  if parent ≠ [] ∧ key ≠ b!"children" then parent ++ bDot :: key
  else if parent ≠ [] then parent
  else key

mutual
/-- The closure `leaf` of `LeafNodes` on a member that was visited (internal/vssgen/vss.go:98-127): its name and value, or
its leaf nodes if it is a map. -/
def leafNode (name : Bytes) : Js → List (Bytes × Js)
  | .obj m => if (mget m b!"timestamp").isSome then [(name, .obj m)] else leafMembers name m
  | j => [(name, j)]
/-- The loop over the members (internal/vssgen/vss.go:109-122). -/
def leafMembers (parent : Bytes) : List (Bytes × Js) → List (Bytes × Js)
  | [] => []
  | (k, v) :: m => leafNode (fullKey parent k) v ++ leafMembers parent m
end

/-- `LeafNodes` (internal/vssgen/vss.go:96-136); the maps with one member are pairs here. -/
def leafNodes : Js → List (Bytes × Js)
  | .obj m => leafNode [] (.obj m)
  | _ => []

/-! ### Building nested maps -/

/-- The part is `[` ... `]` (internal/vssgen/extension.go:66). -/
def isBracketed (part : Bytes) : Bool := part.head? == some 91 && part.getLast? == some 93

/-- `part[1 : len(part)-1]` (internal/vssgen/extension.go:68). -/
def inBrackets (part : Bytes) : Bytes := part.tail.dropLast

/-- `current["array"]`, made long enough for the index (internal/vssgen/extension.go:77-86, 90-99); a panic if it is not an
array or the index is negative.  A length beyond the memory is not modelled. -/
def arrayFor (m : List (Bytes × Js)) (idx : Int) : Res (List Js) :=
  if idx < 0 then .panic
  else
    match mget m b!"array" with
    | none => .ok (List.replicate (idx.toNat + 1) .null)
    | some (.arr l) => .ok (l ++ List.replicate (idx.toNat + 1 - l.length) .null)
    | some _ => .panic

/-- The loop of `buildNestedStructure` over the remaining parts of the path (internal/vssgen/extension.go:64-123); the
result is the map `current` after the call.  A part in brackets that is not an index is skipped; a member on the way that
is not a map ends the call. -/
def buildNested (m : List (Bytes × Js)) (value : Js) : List Bytes → Res (List (Bytes × Js))
  | [] => .ok m
  | part :: parts =>
    if isBracketed part then
      match atoi (inBrackets part) with
      | none => buildNested m value parts
      | some idx =>
        (arrayFor m idx).bind fun arr =>
          if parts = [] then .ok (mset m b!"array" (.arr (arr.set idx.toNat value)))
          else
            match arr[idx.toNat]? with
            | some .null =>
              (buildNested [] value parts).map fun n => mset m b!"array" (.arr (arr.set idx.toNat (.obj n)))
            | some (.obj n) =>
              (buildNested n value parts).map fun n => mset m b!"array" (.arr (arr.set idx.toNat (.obj n)))
            | _ => .panic
    else if parts = [] then .ok (mset m part value)
    else
      match mget m part with
      | none => (buildNested [] value parts).map fun n => mset m part (.obj n)
      | some (.obj n) => (buildNested n value parts).map fun n => mset m part (.obj n)
      | some _ => .ok m

/-- The loop of `BuildFromLeafNodes` (internal/vssgen/extension.go:48-53) over the leaf nodes in the order given. -/
def buildAll (m : List (Bytes × Js)) : List (Bytes × Js) → Res (List (Bytes × Js))
  | [] => .ok m
  | (path, value) :: r => (buildNested m value (split bDot path)).bind fun m => buildAll m r

/-- `BuildFromLeafNodes` (internal/vssgen/extension.go:44-56). -/
def buildFromLeafNodes (data : Js) : Res (List (Bytes × Js)) := buildAll [] (leafNodes data)

end Verif
