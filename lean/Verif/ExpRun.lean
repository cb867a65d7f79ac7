import Verif.ExpQuery
import Verif.PatchText
/-
The logument of the temporal experiments and the sequence of its queries (exp/utils_temporal.go).

The file of the initial document is a `Js` value.  Results are looked at right after the query, as the code does by
writing them to a file.  Times measured and files written are not modelled.
-/
namespace Verif

/-- The operation made from a patch (exp/utils_temporal.go:377-384). -/
def TPatch.toOp (p : TPatch) : Op := POp.toOp ⟨p.op, p.path, .any p.value, p.ts⟩

/-- `createLogumentFromPatches` (exp/utils_temporal.go:352-390). -/
def createLogument (h : Heap) (doc : List (Bytes × Js)) (ps : List TPatch) : Res St :=
  match fromJson (jsTransform (.obj doc)) with
  | .ok t => .ok (newLogument h t (some (.ops (some (ps.map TPatch.toOp))))).1
  | .err => .panic
  | .panic => .panic

/-- The queries of `RunTemporalSnapshotExperiment` on the logument (exp/utils_temporal.go:107-128): the documents returned,
as they are at that time.  Every query has its own choices of the runtime.  A panic ends the run. -/
def St.queries (s : St) : List (Oracle × Int) → St × List (Res (Option Tson))
  | [] => (s, [])
  | q :: qs =>
    match s.temporalSnapshot q.1 q.2 with
    | (s', .ok d) => let r := s'.queries qs; (r.1, .ok (s'.heap.view d) :: r.2)
    | (s', .err) => (s', [.err])
    | (s', .panic) => (s', [.panic])

end Verif
