import Verif.Tson
/-
Patch operations and the in-place application of operations to a document on the heap
(internal/tsonpatch/tsonpatch.go).
-/
namespace Verif

/-! ### Operations -/

/-- `OpType` (internal/tsonpatch/tsonpatch.go:35-45); any other string is `other`. -/
inductive OpKind where
  | add | remove | replace | move | copy | test
  | other (name : Bytes)
deriving DecidableEq, Repr

/-- The four ways the code treats an operation kind. [internal/tsonpatch/tsonpatch.go:38-45, 179-206] -/
inductive OpClass where
  /-- `OpAdd`, `OpReplace` -/
  | set
  /-- `OpRemove` -/
  | remove
  /-- `OpMove`, `OpCopy`, `OpTest` -/
  | unimplemented
  /-- any other string -/
  | unknown
deriving DecidableEq, Repr

/-- The case labels of the `switch op.Op` statements
(internal/tsonpatch/tsonpatch.go:179-206, 223-259, 262, 297, 309-328). -/
def OpKind.cls : OpKind → OpClass
  | .add => .set
  | .replace => .set
  | .remove => .remove
  | .move => .unimplemented
  | .copy => .unimplemented
  | .test => .unimplemented
  | .other _ => .unknown

/-- The dynamic values of `Operation.Value any` (internal/tsonpatch/tsonpatch.go:84).
`container kind id` is a value of an uncomparable dynamic type (`map[string]any`, `[]any`,
`tson.Object`, `tson.Array`, ...), `scalar kind id` a value of any other comparable type
(`int64`, ...); their contents are never inspected by the modelled code.
`leaf` is a `tson.Leaf[T]` (stored by `History`, internal/logument/logument.go:661-666). -/
inductive GVal where
  | nil
  | str (s : Bytes)
  | num (f : F64)
  | int (n : Int)
  | bool (b : Bool)
  | leaf (p : Prim) (ts : Int)
  | scalar (kind id : Nat)
  | container (kind id : Nat)
deriving DecidableEq, Repr

/-- `Operation` (internal/tsonpatch/tsonpatch.go:81-86). -/
structure Op where
  kind : OpKind
  path : Bytes
  value : GVal
  ts : Int
deriving DecidableEq, Repr

/-- Equality of leaf payloads (`==` on the type parameter's value). [internal/tsonpatch/tsonpatch.go:689-699] -/
def Prim.goEq : Prim → Prim → Bool
  | .str a, .str b => a == b
  | .num a, .num b => F64.feq a b
  | .bool a, .bool b => a == b
  | _, _ => false

/-- Go `==` on two `any` values (used as `prev != patch.Value`,
internal/logument/logument.go:461, 501, 615): different dynamic types are unequal, equal
uncomparable dynamic types are a run-time panic (`none`). -/
def GVal.goEq : GVal → GVal → Option Bool
  | .nil, .nil => some true
  | .str a, .str b => some (a == b)
  | .num a, .num b => some (F64.feq a b)
  | .int a, .int b => some (a == b)
  | .bool a, .bool b => some (a == b)
  | .leaf p t, .leaf q u => some (Prim.goEq p q && t == u)
  | .scalar k i, .scalar l j => some (k == l && i == j)
  | .container k _, .container l _ => if k = l then none else some false
  | _, _ => some false

/-- How `applyTraverse` sees `op.Value` (the type switches at
internal/tsonpatch/tsonpatch.go:182-199, 234-254, 312-323). -/
inductive OpVal where
  | prim (p : Prim)
  | nil
  | other
deriving DecidableEq, Repr

/-- The type switch on `op.Value`: `string`, `float64`, `int` (converted to `float64`), `bool`,
`nil`, anything else. [internal/tsonpatch/tsonpatch.go:182-199, 234-254, 312-323] -/
def opVal : GVal → OpVal
  | .str s => .prim (.str s)
  | .num f => .prim (.num f)
  | .int n => .prim (.num (F64.ofInt n))
  | .bool b => .prim (.bool b)
  | .nil => .nil
  | .leaf _ _ => .other
  | .scalar _ _ => .other
  | .container _ _ => .other

/-! ### The heap -/

/-- A `tson.Value` as Go stores it: leaves by value, objects and arrays by reference.
`arr a n` is a slice header: backing array at `a`, length `n`
(the modelled code never creates a slice with non-zero offset that survives a statement).
[internal/tson/tson.go:31-49] -/
inductive HVal where
  | null
  | leaf (p : Prim) (ts : Int)
  | obj (a : Nat)
  | arr (a : Nat) (n : Nat)
deriving DecidableEq, Repr

/-- A heap cell: the contents of a Go map or a backing array. [internal/tson/tson.go:31, 36] -/
inductive Cell where
  | map (m : List (Bytes × HVal))
  | back (l : List HVal)
deriving DecidableEq, Repr

/-- The heap: cell number `a` is at position `a`; allocation appends. [storage behind internal/tson/tson.go:31, 36] -/
abbrev Heap := List Cell

/-- The contents of the map at address `a`. [internal/tsonpatch/tsonpatch.go:166-340] -/
def Heap.getMap (h : Heap) (a : Nat) : List (Bytes × HVal) :=
  match h[a]? with
  | some (.map m) => m
  | _ => []

/-- The contents of the backing array at address `a`. [internal/tsonpatch/tsonpatch.go:166-340] -/
def Heap.getBack (h : Heap) (a : Nat) : List HVal :=
  match h[a]? with
  | some (.back l) => l
  | _ => []

/-- Allocation of a new cell; its address is the old heap size.
[Go allocation in internal/tsonpatch/tsonpatch.go:166-340] -/
def Heap.alloc (h : Heap) (c : Cell) : Heap := h ++ [c]

/-- `j[part] = v` for the map at address `a`. [internal/tsonpatch/tsonpatch.go:166-340] -/
def Heap.mapSet (h : Heap) (a : Nat) (k : Bytes) (v : HVal) : Heap :=
  h.set a (.map (mset (h.getMap a) k v))

/-- `delete(j, part)` for the map at address `a`. [internal/tsonpatch/tsonpatch.go:201] -/
def Heap.mapDel (h : Heap) (a : Nat) (k : Bytes) : Heap :=
  h.set a (.map (mdel (h.getMap a) k))

/-- `value[idx] = v` for the backing array at address `a` (index already checked).
[internal/tsonpatch/tsonpatch.go:166-340] -/
def Heap.backSet (h : Heap) (a : Nat) (i : Nat) (v : HVal) : Heap :=
  h.set a (.back ((h.getBack a).set i v))

/-- The elements visible through a slice header. [internal/tson/tson.go:36] -/
def Heap.elems (h : Heap) (a n : Nat) : List HVal := (h.getBack a).take n

/-- `make(tson.Array, idx+1); copy(newArray, value)`
(internal/tsonpatch/tsonpatch.go:227-228, 299-300). -/
def extendTo (l : List HVal) (n : Nat) : List HVal := l ++ List.replicate (n - l.length) .null

/-- Effect of `append(value[:i], value[i+1:]...)` on the backing array `l` of a slice of length
`n`: elements `i+1..n-1` move down by one, everything from position `n-1` on stays
(internal/tsonpatch/tsonpatch.go:256, 325). -/
def shiftDown (l : List HVal) (n i : Nat) : List HVal :=
  l.take i ++ ((l.take n).drop (i + 1) ++ l.drop (n - 1))

/-! ### applyTraverse -/

/-- `if j[part], err = <call>; err != nil { return nil, err }; return j, nil`
for the map at address `a` (internal/tsonpatch/tsonpatch.go:214-216, 248-250, 269-271, 276-278):
the map entry is assigned *before* the error is examined, so on error it becomes nil. -/
def assignField (a : Nat) (part : Bytes) (doc : HVal) : Heap × Res HVal → Heap × Res HVal
  | (h, .ok v) => (h.mapSet a part v, .ok doc)
  | (h, .err) => (h.mapSet a part .null, .err)
  | (h, .panic) => (h, .panic)

/-- `if j[idx], err = <call>; err != nil { return nil, err }; return j, nil`
for the slice with backing array `b` (internal/tsonpatch/tsonpatch.go:331-333). -/
def assignElem (b i : Nat) (doc : HVal) : Heap × Res HVal → Heap × Res HVal
  | (h, .ok v) => (h.backSet b i v, .ok doc)
  | (h, .err) => (h.backSet b i .null, .err)
  | (h, .panic) => (h, .panic)

/-- `value[idx]` for an index known to be in range. [internal/tsonpatch/tsonpatch.go:166-340] -/
def Heap.elemAt (h : Heap) (b i : Nat) : HVal := ((h.getBack b)[i]?).getD .null

/-- `applyTraverse` (internal/tsonpatch/tsonpatch.go:166-340).  Returns the heap after the call
(also on error and panic) and the outcome.  Simplification: `make` never runs out of memory. -/
def applyTraverse (h : Heap) (doc : HVal) (parts : List Bytes) (op : Op) : Heap × Res HVal :=
  match parts with
  | [] => (h, .ok doc)                                             -- lines 167-169
  | part :: rest =>
    match doc with
    | .leaf _ _ => (h, .ok doc)                                    -- lines 171-174
    | .null => (h, .err)                                           -- lines 337-338
    | .obj a =>
      match rest with
      | [] =>                                                      -- lines 178-208
        match op.kind.cls with
        | .set =>
          match opVal op.value with
          | .prim p => (h.mapSet a part (.leaf p op.ts), .ok doc)
          | .nil => (h, .err)
          | .other => (h, .err)
        | .remove => (h.mapDel a part, .ok doc)
        | .unimplemented => (h, .panic)
        | .unknown => (h, .err)
      | p1 :: _ =>
        match mget (h.getMap a) part with
        | some (.leaf _ _) => (h, .panic)                          -- lines 211-212
        | some (.obj b) =>                                         -- lines 213-216
          assignField a part doc (applyTraverse h (.obj b) rest op)
        | some (.arr b n) =>                                       -- lines 217-259
          match atoi p1 with
          | none => (h, .err)
          | some idx =>
            match op.kind.cls with
            | .set =>
              if (n : Int) ≤ idx then
                -- lines 225-231: grow into a fresh array and store it in the object
                let h₁ := (h.alloc (.back (extendTo (h.elems b n) (idx.toNat + 1)))).mapSet
                  a part (.arr h.length (idx.toNat + 1))
                match opVal op.value with
                | .prim p => (h₁.backSet h.length idx.toNat (.leaf p op.ts), .ok doc)
                | .nil => (h₁, .err)
                | .other => assignField a part doc
                    (applyTraverse h₁ (h₁.elemAt h.length idx.toNat) rest op)
              else
                match opVal op.value with
                | .prim p =>                                       -- lines 235-242
                  if idx < 0 then (h, .panic)
                  else (h.backSet b idx.toNat (.leaf p op.ts), .ok doc)
                | .nil => (h, .err)                                -- lines 243-244
                | .other =>                                        -- lines 245-254
                  if idx < 0 then (h, .panic)
                  else assignField a part doc (applyTraverse h (h.elemAt b idx.toNat) rest op)
            | .remove =>                                           -- lines 255-256
              if idx < 0 ∨ (n : Int) ≤ idx then (h, .panic)
              else
                let h₁ : Heap := h.set b (.back (shiftDown (h.getBack b) n idx.toNat))
                (h₁.mapSet a part (.arr b (n - 1)), .ok doc)
            | .unimplemented => (h, .err)                          -- lines 257-258
            | .unknown => (h, .err)
        | some .null | none =>                                     -- lines 260-282
          match op.kind.cls with
          | .set =>
            match atoi p1 with
            | some _ =>                                            -- lines 266-271
              let h₁ := (h.alloc (.back [])).mapSet a part (.arr h.length 0)
              assignField a part doc (applyTraverse h₁ (.arr h.length 0) rest op)
            | none =>                                              -- lines 273-278
              let h₁ := (h.alloc (.map [])).mapSet a part (.obj h.length)
              assignField a part doc (applyTraverse h₁ (.obj h.length) rest op)
          | _ => (h, .err)
    | .arr b n =>                                                  -- lines 288-336
      match atoi part with
      | none => (h, .err)
      | some idx =>
        if (n : Int) ≤ idx then
          match op.kind.cls with
          | .set =>                                                -- lines 296-301
            let h₁ := h.alloc (.back (extendTo (h.elems b n) (idx.toNat + 1)))
            match rest with
            | [] =>
              match opVal op.value with
              | .prim p =>
                (h₁.backSet h.length idx.toNat (.leaf p op.ts), .ok (.arr h.length (idx.toNat + 1)))
              | .nil => (h₁, .err)
              | .other => (h₁, .err)
            | _ :: _ => assignElem h.length idx.toNat (.arr h.length (idx.toNat + 1))
                (applyTraverse h₁ (h₁.elemAt h.length idx.toNat) rest op)
          | _ => (h, .err)                                         -- lines 302-304
        else
          match rest with
          | [] =>                                                  -- lines 307-328
            match op.kind.cls with
            | .set =>
              match opVal op.value with
              | .prim p =>
                if idx < 0 then (h, .panic)
                else (h.backSet b idx.toNat (.leaf p op.ts), .ok doc)
              | .nil => (h, .err)
              | .other => (h, .err)
            | .remove =>
              if idx < 0 then (h, .panic)
              else (h.set b (.back (shiftDown (h.getBack b) n idx.toNat)), .ok (.arr b (n - 1)))
            | .unimplemented => (h, .err)
            | .unknown => (h, .err)
          | _ :: _ =>                                              -- lines 329-334
            if idx < 0 then (h, .panic)
            else assignElem b idx.toNat doc (applyTraverse h (h.elemAt b idx.toNat) rest op)

/-- `strings.Split(strings.ReplaceAll(rfc6901Decoder.Replace(op.Path), ".", "/"), "/")`
(internal/tsonpatch/tsonpatch.go:152-156).  The comment in the code says "ignoring the first
empty string", but the first part is kept. -/
def writeParts (path : Bytes) : List Bytes := split bSlash (dotsToSlashes (decode path))

/-- `ApplyOperation` (internal/tsonpatch/tsonpatch.go:151-163). -/
def applyOperation (h : Heap) (doc : HVal) (op : Op) : Heap × Res HVal :=
  applyTraverse h doc (writeParts op.path) op

/-- The loop of `ApplyPatch` (internal/tsonpatch/tsonpatch.go:142-149); `t` is the named result,
initially nil.  Every operation is applied to the *original* `doc`. -/
def applyPatchLoop (h : Heap) (doc : HVal) (t : HVal) : List Op → Heap × Res HVal
  | [] => (h, .ok t)
  | op :: ops =>
    match applyOperation h doc op with
    | (h', .ok t') => applyPatchLoop h' doc t' ops
    | (h', .err) => (h', .err)
    | (h', .panic) => (h', .panic)

/-- `ApplyPatch` (internal/tsonpatch/tsonpatch.go:142-149). -/
def applyPatch (h : Heap) (doc : HVal) (patch : List Op) : Heap × Res HVal :=
  applyPatchLoop h doc .null patch

/-! ### Reading a heap value as a tree -/

/-- Apply a partial function to all list elements. [helper for reading documents of internal/tson/tson.go:25-49] -/
def optAll (f : α → Option β) : List α → Option (List β)
  | [] => some []
  | a :: l =>
    match f a, optAll f l with
    | some b, some bs => some (b :: bs)
    | _, _ => none

/-- The tree denoted by a heap value, following pointers at most `fuel` levels deep;
`none` if this is not enough (or a pointer dangles). [documents of internal/tson/tson.go:25-49] -/
def Heap.read (h : Heap) : Nat → HVal → Option Tson
  | _, .null => some .null
  | _, .leaf p ts => some (.leaf p ts)
  | 0, .obj _ => none
  | 0, .arr _ _ => none
  | fuel + 1, .obj a =>
    match h[a]? with
    | some (.map m) =>
      (optAll (fun kv => (Heap.read h fuel kv.2).map fun t => (kv.1, t)) m).map .obj
    | _ => none
  | fuel + 1, .arr a n =>
    match h[a]? with
    | some (.back l) =>
      if n ≤ l.length then (optAll (fun v => Heap.read h fuel v) (l.take n)).map .arr else none
    | _ => none

end Verif
