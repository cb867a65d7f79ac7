import Verif.Patch
/-
The effect of `applyTraverse` described on trees.  `Verif.Refine` proves that the heap code
of `Verif.Patch` does exactly this on documents without internal sharing.
-/
namespace Verif

/-- `extendTo` on trees. [internal/tsonpatch/tsonpatch.go:227-228, 299-300] -/
def extendT (l : List Tson) (n : Nat) : List Tson := l ++ List.replicate (n - l.length) .null

/-- What the old slice header of length `l.length` shows after element `i` was removed in place:
the last element appears twice. [internal/tsonpatch/tsonpatch.go:256, 325] -/
def shiftT (l : List Tson) (i : Nat) : List Tson :=
  l.take i ++ (l.drop (i + 1) ++ l.drop (l.length - 1))

/-- `assignField` on trees: first component is the mutated object, second the outcome.
[internal/tsonpatch/tsonpatch.go:214-216, 248-250, 269-271, 276-278] -/
def assignFieldT (m : List (Bytes × Tson)) (part : Bytes) : Tson × Res Tson → Tson × Res Tson
  | (_, .ok v) => (.obj (mset m part v), .ok (.obj (mset m part v)))
  | (_, .err) => (.obj (mset m part .null), .err)
  | (o, .panic) => (.obj (mset m part o), .panic)

/-- `assignElem` on trees. [internal/tsonpatch/tsonpatch.go:331-333] -/
def assignElemT (l : List Tson) (i : Nat) : Tson × Res Tson → Tson × Res Tson
  | (_, .ok v) => (.arr (l.set i v), .ok (.arr (l.set i v)))
  | (_, .err) => (.arr (l.set i .null), .err)
  | (o, .panic) => (.arr (l.set i o), .panic)

/-- The array branch for unsupported values (internal/tsonpatch/tsonpatch.go:245-254): the member
`part` holding the array `l` is replaced by the result for its element `i`. -/
def assignFromElemT (m : List (Bytes × Tson)) (part : Bytes) (l : List Tson) (i : Nat) :
    Tson × Res Tson → Tson × Res Tson
  | (_, .ok v) => (.obj (mset m part v), .ok (.obj (mset m part v)))
  | (_, .err) => (.obj (mset m part .null), .err)
  | (o, .panic) => (.obj (mset m part (.arr (l.set i o))), .panic)

/-- `applyTraverse` (internal/tsonpatch/tsonpatch.go:166-340) on trees.  The first component is
what the *old* reference to the document denotes afterwards, the second is the outcome. -/
def applyT (t : Tson) (parts : List Bytes) (op : Op) : Tson × Res Tson :=
  match parts with
  | [] => (t, .ok t)
  | part :: rest =>
    match t with
    | .leaf _ _ => (t, .ok t)
    | .null => (t, .err)
    | .obj m =>
      match rest with
      | [] =>
        match op.kind.cls with
        | .set =>
          match opVal op.value with
          | .prim p =>
            (.obj (mset m part (.leaf p op.ts)), .ok (.obj (mset m part (.leaf p op.ts))))
          | .nil => (t, .err)
          | .other => (t, .err)
        | .remove => (.obj (mdel m part), .ok (.obj (mdel m part)))
        | .unimplemented => (t, .panic)
        | .unknown => (t, .err)
      | p1 :: _ =>
        match mget m part with
        | some (.leaf _ _) => (t, .panic)
        | some (.obj mb) => assignFieldT m part (applyT (.obj mb) rest op)
        | some (.arr l) =>
          match atoi p1 with
          | none => (t, .err)
          | some idx =>
            match op.kind.cls with
            | .set =>
              if (l.length : Int) ≤ idx then
                let l₁ := extendT l (idx.toNat + 1)
                match opVal op.value with
                | .prim p =>
                  let d := Tson.obj (mset m part (.arr (l₁.set idx.toNat (.leaf p op.ts))))
                  (d, .ok d)
                | .nil => (.obj (mset m part (.arr l₁)), .err)
                | .other => assignFromElemT m part l₁ idx.toNat (applyT .null rest op)
              else
                match opVal op.value with
                | .prim p =>
                  if idx < 0 then (t, .panic)
                  else
                    let d := Tson.obj (mset m part (.arr (l.set idx.toNat (.leaf p op.ts))))
                    (d, .ok d)
                | .nil => (t, .err)
                | .other =>
                  if idx < 0 then (t, .panic)
                  else assignFromElemT m part l idx.toNat
                    (applyT ((l[idx.toNat]?).getD .null) rest op)
            | .remove =>
              if idx < 0 ∨ (l.length : Int) ≤ idx then (t, .panic)
              else
                let d := Tson.obj (mset m part (.arr (l.eraseIdx idx.toNat)))
                (d, .ok d)
            | .unimplemented => (t, .err)
            | .unknown => (t, .err)
        | some .null | none =>
          match op.kind.cls with
          | .set =>
            match atoi p1 with
            | some _ => assignFieldT m part (applyT (.arr []) rest op)
            | none => assignFieldT m part (applyT (.obj []) rest op)
          | _ => (t, .err)
    | .arr l =>
      match atoi part with
      | none => (t, .err)
      | some idx =>
        if (l.length : Int) ≤ idx then
          match op.kind.cls with
          | .set =>
            let l₁ := extendT l (idx.toNat + 1)
            match rest with
            | [] =>
              match opVal op.value with
              | .prim p => (t, .ok (.arr (l₁.set idx.toNat (.leaf p op.ts))))
              | .nil => (t, .err)
              | .other => (t, .err)
            | _ :: _ => (t, .err)
          | _ => (t, .err)
        else
          match rest with
          | [] =>
            match op.kind.cls with
            | .set =>
              match opVal op.value with
              | .prim p =>
                if idx < 0 then (t, .panic)
                else
                  let d := Tson.arr (l.set idx.toNat (.leaf p op.ts))
                  (d, .ok d)
              | .nil => (t, .err)
              | .other => (t, .err)
            | .remove =>
              if idx < 0 then (t, .panic)
              else (.arr (shiftT l idx.toNat), .ok (.arr (l.eraseIdx idx.toNat)))
            | .unimplemented => (t, .err)
            | .unknown => (t, .err)
          | _ :: _ =>
            if idx < 0 then (t, .panic)
            else assignElemT l idx.toNat (applyT ((l[idx.toNat]?).getD .null) rest op)

/-- `ApplyOperation` (internal/tsonpatch/tsonpatch.go:151-163) on trees. -/
def applyOpT (t : Tson) (op : Op) : Tson × Res Tson := applyT t (writeParts op.path) op

/-- `ApplyPatch` (internal/tsonpatch/tsonpatch.go:142-149) on an object tree: the document is
mutated in place by one operation after the other; stops at the first failure. -/
def applyPatchT (t : Tson) : List Op → Tson × Res Unit
  | [] => (t, .ok ())
  | op :: ops =>
    match applyOpT t op with
    | (t', .ok _) => applyPatchT t' ops
    | (t', .err) => (t', .err)
    | (t', .panic) => (t', .panic)

end Verif
