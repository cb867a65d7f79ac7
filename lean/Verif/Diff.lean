import Verif.Patch
/-
Generation of patches from two documents (internal/tsonpatch/tsonpatch.go:124-139, 440-884).

`handleValues` and `handleValuesWithTimestamp`, `compareArray` and `compareArrayWithTimestamp`, and the two
calls in `diff` differ only in the treatment of timestamps; the model has one function each with the flag `wt`
("with timestamp").  The code threads the patch built so far through all calls and only ever appends to it; the
model's functions return the appended operations.  The documents are read only, so they are trees here.
-/
namespace Verif

/-- The dynamic type of a value, `reflect.TypeOf` (internal/tsonpatch/tsonpatch.go:471, 683, 735). -/
inductive Kind where
  | null | str | num | bool | obj | arr
deriving DecidableEq, Repr

/-- The dynamic type of a leaf (internal/tson/tson.go:41-47). -/
def Prim.kind : Prim → Kind
  | .str _ => .str
  | .num _ => .num
  | .bool _ => .bool

/-- `reflect.TypeOf` of a document (internal/tsonpatch/tsonpatch.go:471). -/
def Tson.kind : Tson → Kind
  | .null => .null
  | .leaf p _ => p.kind
  | .obj _ => .obj
  | .arr _ => .arr

/-- `leaf.Value` as an `any` (internal/tsonpatch/tsonpatch.go:459-464). -/
def Prim.toGo : Prim → GVal
  | .str s => .str s
  | .num f => .num f
  | .bool b => .bool b

/-- `makePath` (internal/tsonpatch/tsonpatch.go:440-449) with the new part already printed. -/
def makePath (path part : Bytes) : Bytes :=
  let key := encode part
  if path = [] then bSlash :: key
  else if path.getLast? = some bSlash then path ++ key
  else path ++ bSlash :: key

/-- `NewOperation(kind, path, leaf.Value, leaf.Timestamp)` for a leaf; `none` for other values
(the type switches at internal/tsonpatch/tsonpatch.go:458-467, 472-481, 548-557, 575-584). -/
def leafOp (kind : OpKind) (path : Bytes) : Tson → Option Op
  | .leaf p ts => some ⟨kind, path, p.toGo, ts⟩
  | _ => none

mutual
/-- The common recursion of `matchesValue` (internal/tsonpatch/tsonpatch.go:682-731) and `matchTimestamp`
(internal/tsonpatch/tsonpatch.go:734-780), with the comparison of leaves as a parameter.
The second loop over an object repeats the calls of the first loop for common keys, and compares nil with the
value for others, which is never a match; so only the presence of the keys is tested. -/
def matchWith (f : Prim → Int → Prim → Int → Bool) : Tson → Tson → Bool
  | .leaf p t, .leaf q u => f p t q u
  | .obj m, .obj n => matchWithF f m n && n.all fun kv => (mget m kv.1).isSome
  | .arr l, .arr k => matchWithL f l k
  | _, _ => false
/-- The first loop over the members (internal/tsonpatch/tsonpatch.go:702-706, 752-756). -/
def matchWithF (f : Prim → Int → Prim → Int → Bool) : List (Bytes × Tson) → List (Bytes × Tson) → Bool
  | [], _ => true
  | (k, v) :: m, n => (match mget n k with | some w => matchWith f v w | none => false) && matchWithF f m n
/-- The loop over the elements, and the comparison of lengths
(internal/tsonpatch/tsonpatch.go:713-728, 762-777). -/
def matchWithL (f : Prim → Int → Prim → Int → Bool) : List Tson → List Tson → Bool
  | [], [] => true
  | v :: l, w :: k => matchWith f v w && matchWithL f l k
  | _, _ => false
end

/-- `matchesValue` (internal/tsonpatch/tsonpatch.go:682-731). -/
def matchesValue : Tson → Tson → Bool := matchWith fun p _ q _ => Prim.goEq p q

/-- `matchTimestamp` (internal/tsonpatch/tsonpatch.go:734-780). -/
def matchTimestamp : Tson → Tson → Bool := matchWith fun p t q u => decide (p.kind = q.kind) && decide (t = u)

mutual
/-- `reflect.DeepEqual` of two documents (internal/tsonpatch/tsonpatch.go:873).
Simplifications: `reflect.DeepEqual` calls one map or slice equal to itself without looking inside (visible only
for NaN inside shared containers), and a nil map or slice different from an empty one. -/
def deepEq : Tson → Tson → Bool
  | .null, .null => true
  | .leaf p t, .leaf q u => Prim.goEq p q && decide (t = u)
  | .obj m, .obj n => decide (m.length = n.length) && deepEqF m n
  | .arr l, .arr k => deepEqL l k
  | _, _ => false
/-- `reflect.DeepEqual`, entries of a map (internal/tsonpatch/tsonpatch.go:873). -/
def deepEqF : List (Bytes × Tson) → List (Bytes × Tson) → Bool
  | [], _ => true
  | (k, v) :: m, n => (match mget n k with | some w => deepEq v w | none => false) && deepEqF m n
/-- `reflect.DeepEqual`, elements of a slice (internal/tsonpatch/tsonpatch.go:873). -/
def deepEqL : List Tson → List Tson → Bool
  | [], [] => true
  | v :: l, w :: k => deepEq v w && deepEqL l k
  | _, _ => false
end

/-- The inner loop of `processArray` (internal/tsonpatch/tsonpatch.go:868-879): the first index of `mod`, from `j` on,
that is not used yet and holds an equal value. -/
def findUnused (v : Tson) (used : List Nat) (j : Nat) : List Tson → Option Nat
  | [] => none
  | w :: mod =>
    if j ∈ used then findUnused v used (j + 1) mod
    else if deepEq v w then some j
    else findUnused v used (j + 1) mod

/-- The outer loop of `processArray` (internal/tsonpatch/tsonpatch.go:867-883): the elements for which `applyOp` is
called, with their indices; `used` is `reverseFoundIndexes`. -/
def processLoop (mod : List Tson) (used : List Nat) (i : Nat) : List Tson → List (Nat × Tson)
  | [] => []
  | v :: l =>
    match findUnused v used 0 mod with
    | some j => processLoop mod (j :: used) (i + 1) l
    | none => (i, v) :: processLoop mod used (i + 1) l

/-- `processArray` (internal/tsonpatch/tsonpatch.go:862-884). -/
def processArray (orig mod : List Tson) : List (Nat × Tson) := processLoop mod [] 0 orig

/-- The index part of a path: `fmt.Sprintf("%v", i)` (internal/tsonpatch/tsonpatch.go:441). -/
def makePathIdx (path : Bytes) (i : Nat) : Bytes := makePath path (natDigits i)

/-- The callback adding the missing elements (internal/tsonpatch/tsonpatch.go:797-808). -/
def addElems (path : Bytes) : List (Nat × Tson) → Res (List Op)
  | [] => .ok []
  | (i, v) :: r =>
    match leafOp .add (makePathIdx path i) v with
    | some o => (addElems path r).map (o :: ·)
    | none => .panic

/-- The second loop of `compareArrayWithTimestamp` (internal/tsonpatch/tsonpatch.go:827-856). -/
def replaceElems (path : Bytes) (i : Nat) : List Tson → List Tson → Res (List Op)
  | _, [] => .ok []
  | v :: l, w :: k =>
    if matchesValue v w && matchTimestamp v w then replaceElems path (i + 1) l k
    else
      match leafOp .replace (makePathIdx path i) w with
      | some o => (replaceElems path (i + 1) l k).map (o :: ·)
      | none => replaceElems path (i + 1) l k
  | [], w :: k =>
    match leafOp .add (makePathIdx path i) w with
    | some o => (replaceElems path (i + 1) [] k).map (o :: ·)
    | none => .panic

/-- `compareArray` (internal/tsonpatch/tsonpatch.go:783-810) and `compareArrayWithTimestamp`
(internal/tsonpatch/tsonpatch.go:813-859). -/
def compareArray (wt : Bool) (orig mod : List Tson) (path : Bytes) : Res (List Op) :=
  let removed := ((processArray orig mod).map fun iv => (⟨.remove, makePathIdx path iv.1, .nil, 0⟩ : Op)).reverse
  (if wt then replaceElems path 0 orig mod else addElems path (processArray mod orig)).map (removed ++ ·)

/-- The loop of `diff` over the members only in the original (internal/tsonpatch/tsonpatch.go:496-517);
nil members are a panic. -/
def removeOps (path : Bytes) (n : List (Bytes × Tson)) : List (Bytes × Tson) → Res (List Op)
  | [] => .ok []
  | (k, v) :: m =>
    match mget n k with
    | some _ => removeOps path n m
    | none =>
      match v with
      | .leaf _ ts => (removeOps path n m).map (⟨.remove, makePath path k, .nil, ts⟩ :: ·)
      | .obj _ => (removeOps path n m).map (⟨.remove, makePath path k, .nil, 0⟩ :: ·)
      | .arr _ => (removeOps path n m).map (⟨.remove, makePath path k, .nil, 0⟩ :: ·)
      | .null => .panic

/-- Append the operations of two steps, the first outcome first.
[`patch = append(patch, ...)` of internal/tsonpatch/tsonpatch.go:452-679] -/
def Res.append (r : Res (List Op)) (s : Res (List Op)) : Res (List Op) := r.bind fun a => s.map (a ++ ·)

/-- Result of a type switch with only leaf cases and an error return
(internal/tsonpatch/tsonpatch.go:458-467, 472-481, 548-557, 575-584). -/
def orErr (o : Option Op) : Res (List Op) :=
  match o with
  | some o => .ok [o]
  | none => .err

mutual
/-- `handleValues` (internal/tsonpatch/tsonpatch.go:521-590) and `handleValuesWithTimestamp`
(internal/tsonpatch/tsonpatch.go:593-679); a failing type assertion is a panic. -/
def handleValues (wt : Bool) (orig : Tson) (mod : Tson) (path : Bytes) : Res (List Op) :=
  match mod with
  | .leaf q u =>
    match orig with
    | .leaf p t =>
      if p.kind ≠ q.kind then .panic
      else if Prim.goEq p q && (!wt || decide (t = u)) then .ok []
      else .ok [⟨.replace, path, q.toGo, u⟩]
    | .obj _ => .panic
    | .arr _ => .ok [⟨.replace, path, q.toGo, u⟩]
    | .null => .ok [⟨.add, path, q.toGo, u⟩]
  | .obj n =>
    match orig with
    | .leaf _ _ => .panic
    | .obj m => (diffMembers wt m n path).append (removeOps path n m)
    | .arr _ => .err
    | .null => .err
  | .arr k =>
    match orig with
    | .leaf _ _ => .panic
    | .obj _ => .panic
    | .arr l => if l.length ≠ k.length then compareArray wt l k path else handleElems wt l k path 0
    | .null => .err
  | .null =>
    match orig with
    | .leaf _ _ => .panic
    | .obj _ => .panic
    | .arr _ => .err
    | .null => .ok []
/-- The loop of `diff` over the members of the modified object (internal/tsonpatch/tsonpatch.go:453-494). -/
def diffMembers (wt : Bool) (m : List (Bytes × Tson)) (n : List (Bytes × Tson)) (path : Bytes) : Res (List Op) :=
  match n with
  | [] => .ok []
  | (k, w) :: n =>
    (match mget m k with
     | none => orErr (leafOp .add (makePath path k) w)
     | some v =>
       if v.kind ≠ w.kind then orErr (leafOp .replace (makePath path k) w)
       else handleValues wt v w (makePath path k)).append (diffMembers wt m n path)
/-- The loop over arrays of the same length (internal/tsonpatch/tsonpatch.go:561-566, 648-653). -/
def handleElems (wt : Bool) (l : List Tson) (k : List Tson) (path : Bytes) (i : Nat) : Res (List Op) :=
  match k with
  | [] => .ok []
  | w :: k =>
    match l with
    | [] => .ok []
    | v :: l => (handleValues wt v w (makePathIdx path i)).append (handleElems wt l k path (i + 1))
end

/-- `GeneratePatch` (internal/tsonpatch/tsonpatch.go:124-130).  The shortcut for equal documents is never taken:
it needs `err != nil && eq`, and `tson.Equal` returns `false` with every error
(internal/tson/tson.go:111-126). -/
def generatePatch (orig mod : Tson) : Res (List Op) := handleValues false orig mod []

/-- `GeneratePatchWithTimestamp` (internal/tsonpatch/tsonpatch.go:133-139). -/
def generatePatchWithTimestamp (orig mod : Tson) : Res (List Op) := handleValues true orig mod []

end Verif
