import Verif.ExpOut
/-
One saved snapshot per patch (exp/utils_temporal.go, `CreateSnapshot`).

The document read from the file is given.  Errors of the file system and what is printed on the console are not modelled.
-/
namespace Verif

/-- The name of the n-th snapshot. [exp/utils_temporal.go:645, 665] -/
def snapshotName (n : Nat) : Bytes := jsonName b!"snapshot_" (natDigits n)

/-- The loop of `CreateSnapshot` (exp/utils_temporal.go:651-670) from the n-th patch on: each patch is applied to the document left by
the one before, and the document is saved at once.  The files are those at the end or before the panic. -/
def snapshotsLoop (h : Heap) (doc : HVal) (n : Nat) : List TPatch → Dir → Dir × Res Unit
  | [], dir => (dir, .ok ())
  | p :: ps, dir =>
    match applyPatch h doc [p.toOp] with
    | (h', .ok doc') => snapshotsLoop h' doc' (n + 1) ps (dir.save (snapshotName (n + 1)) (snapshotText (.ok (h'.view doc'))))
    | _ => (dir, .panic)

/-- `CreateSnapshot` on the document of a file (exp/utils_temporal.go:618-671). -/
def createSnapshots (h : Heap) (doc : List (Bytes × Js)) (ps : List TPatch) (dir : Dir) : Dir × Res Unit :=
  match fromJson (jsTransform (.obj doc)) with
  | .ok t =>
    let (h', v) := h.store t
    snapshotsLoop h' v 0 ps (dir.save (snapshotName 0) (snapshotText (.ok (some t))))
  | _ => (dir, .panic)

end Verif
