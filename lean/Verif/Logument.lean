import Verif.Patch
/-
The versioned document log (internal/logument/logument.go), method by method.

Every method is a function from the state (heap and logument) to the new state and an outcome;
after a panic the state reached so far is kept, because a caller may recover.
Patch slices are values here; sharing of one patch slice between a logument, its slices and the caller is
modelled in `PatchMem`, where C95 says when the difference matters.
-/
namespace Verif

/-- `Logument` (internal/logument/logument.go:24-30).  `pool = none` is a nil `PatchPool`.
Whether a recorded patch is nil or empty is never observed and not distinguished. -/
structure Lgm where
  version : List Nat
  current : HVal
  snaps : List (Nat × HVal)
  patches : List (Nat × List Op)
  pool : Option (List Op)
deriving DecidableEq, Repr

/-- The heap holding the documents, and one logument. [internal/logument/logument.go:24-30] -/
structure St where
  heap : Heap
  lgm : Lgm
deriving DecidableEq, Repr

/-! ### Building a document on the heap -/

mutual
/-- Allocation of a document without sharing, as the parser does
(used for internal/logument/logument.go:36-51). -/
def Heap.store (h : Heap) : Tson → Heap × HVal
  | .null => (h, .null)
  | .leaf p ts => (h, .leaf p ts)
  | .obj m =>
    let r := Heap.storeF h m
    (r.1.alloc (.map r.2), .obj r.1.length)
  | .arr l =>
    let r := Heap.storeL h l
    (r.1.alloc (.back r.2), .arr r.1.length r.2.length)
/-- Allocation of the members of an object (used for internal/logument/logument.go:36-51). -/
def Heap.storeF (h : Heap) : List (Bytes × Tson) → Heap × List (Bytes × HVal)
  | [] => (h, [])
  | (k, t) :: m =>
    let r := Heap.store h t
    let s := Heap.storeF r.1 m
    (s.1, (k, r.2) :: s.2)
/-- Allocation of the elements of an array (used for internal/logument/logument.go:36-51). -/
def Heap.storeL (h : Heap) : List Tson → Heap × List HVal
  | [] => (h, [])
  | t :: l =>
    let r := Heap.store h t
    let s := Heap.storeL r.1 l
    (s.1, r.2 :: s.2)
end

/-- The tree a heap value denotes (`none` for a cyclic or dangling value, which never occurs in
reachable states; there the Go code would not terminate).  Used where the code reads a document:
internal/logument/logument.go:251, 380, 561, 656. -/
def Heap.view (h : Heap) (v : HVal) : Option Tson := h.read (h.length + 1) v

/-! ### Versions -/

/-- Insertion into a sorted list (helper of `sortNat`). [part of `sort.Slice`, internal/logument/logument.go:125] -/
def insertNat (x : Nat) : List Nat → List Nat
  | [] => [x]
  | y :: l => if x ≤ y then x :: y :: l else y :: insertNat x l

/-- `sort.Slice` on version numbers (internal/logument/logument.go:77-79, 125, 452): the sorted
list is unique, so the algorithm does not matter. -/
def sortNat : List Nat → List Nat
  | [] => []
  | x :: l => insertNat x (sortNat l)

/-- The loop of `isContinuous` (internal/logument/logument.go:81-88). -/
def consecutive : List Nat → Bool
  | [] => true
  | [_] => true
  | a :: b :: l => (b == a + 1) && consecutive (b :: l)

/-- `isContinuous` (internal/logument/logument.go:69-91); sorts the version list in place. -/
def Lgm.isContinuous (g : Lgm) : Lgm × Bool :=
  if g.version.length ≤ 1 then (g, true)
  else
    let g' := { g with version := sortNat g.version }
    (g', consecutive g'.version)

/-- `isGrown` (internal/logument/logument.go:93-102). -/
def Lgm.isGrown (g : Lgm) : Bool :=
  if g.version.length ≤ 1 then true
  else
    let lastIdx := g.version.length - 1
    (g.version[lastIdx]?).getD 0 == (g.version[lastIdx - 1]?).getD 0 + 1

/-- `getSortedVersions` (internal/logument/logument.go:108-128) for either map. -/
def sortedKeys (m : List (Nat × α)) : List Nat := sortNat (mkeys m)

/-- `sort.Search(len(versions), func(i) { versions[i] > target })`
(internal/logument/logument.go:181-183): the first index with a greater version, by the
documentation of `sort.Search` for a monotone predicate. -/
def searchGreater (versions : List Nat) (target : Nat) : Nat :=
  versions.findIdx (fun v => decide (v > target))

/-- `lgm.Snapshots[v]`, nil if absent. [internal/logument/logument.go:27, 188, 250] -/
def Lgm.snap (g : Lgm) (v : Nat) : HVal := (mget g.snaps v).getD .null

/-- `lgm.Patches[v]`, nil if absent. [internal/logument/logument.go:28, 228] -/
def Lgm.patchOf (g : Lgm) (v : Nat) : List Op := (mget g.patches v).getD []

/-- `findLatest` (internal/logument/logument.go:169-189). -/
def Lgm.findLatest (g : Lgm) (target : Nat) : Lgm × Res (Nat × HVal) :=
  match g.isContinuous with
  | (g, false) => (g, .panic)
  | (g, true) =>
    match g.version.getLast? with
    | none => (g, .panic)
    | some last =>
      if target > last then (g, .panic)
      else
        let versions := sortedKeys g.snaps
        let idx := searchGreater versions target
        if idx = 0 then (g, .err)
        else
          match versions[idx - 1]? with
          | none => (g, .panic)
          | some v => (g, .ok (v, g.snap v))

/-! ### Growing the log -/

/-- The dynamic argument types of `Store` (internal/logument/logument.go:133-160).
`text r`: a `string` or `[]byte` for which `tsonpatch.Unmarshal` returns `r`. -/
inductive StoreArg where
  | text (r : Res (Option (List Op)))
  | patch (p : Option (List Op))
  | patches (ps : List (List Op))
  | op (o : Op)
  | ops (l : Option (List Op))
  | other

/-- The type switch of `Store` (internal/logument/logument.go:133-160). -/
def StoreArg.resolve : StoreArg → Res (Option (List Op))
  | .text (.ok p) => .ok p
  | .text _ => .panic
  | .patch p => .ok p
  | .patches ps => .ok (if ps.flatten = [] then none else some ps.flatten)
  | .op o => .ok (some [o])
  | .ops l => .ok l
  | .other => .panic

/-- `Store` (internal/logument/logument.go:130-167). -/
def Lgm.store (g : Lgm) (a : StoreArg) : Lgm × Res Unit :=
  match a.resolve with
  | .ok p =>
    match g.pool with
    | none => ({ g with pool := p }, .ok ())
    | some q => ({ g with pool := some (q ++ p.getD []) }, .ok ())
  | .err => (g, .err)
  | .panic => (g, .panic)

/-- `Append` (internal/logument/logument.go:192-212). -/
def Lgm.append (g : Lgm) : Lgm × Res Unit :=
  if g.isGrown = false then (g, .err)
  else
    match g.pool with
    | none => (g, .ok ())
    | some p =>
      match g.version.getLast? with
      | none => (g, .panic)
      | some last =>
        match mget g.patches (last + 1) with
        | some _ => (g, .err)
        | none =>
          ({ g with patches := mset g.patches (last + 1) p,
                    version := g.version ++ [last + 1],
                    pool := none }, .ok ())

/-- `NewLogument` with a `tson.Tson` document (internal/logument/logument.go:47-67);
the document is allocated on a given heap.  `patches = none` is a nil `initialPatches`.  The document `null` stands for a
text that reads as nil (lines 36-46); a nil `tson.Tson` argument matches no case and panics (lines 49-50). -/
def newLogument (h : Heap) (doc : Tson) (patches : Option StoreArg) : St × Res Unit :=
  let r := h.store doc
  let g : Lgm := { version := [0], current := r.2, snaps := [(0, r.2)], patches := [], pool := none }
  match patches with
  | none => (⟨r.1, g⟩, .ok ())
  | some a =>
    match g.store a with
    | (g', out) => (⟨r.1, g'⟩, out)

/-! ### Current state -/

/-- `Set` (internal/logument/logument.go:521-542). -/
def St.set (s : St) (_vk : Nat) (op : Op) : St × Res Unit :=
  if op.kind ≠ .replace ∧ op.kind ≠ .add then (s, .ok ())
  else
    match applyOperation s.heap s.lgm.current op with
    | (h, .ok v) =>
      (⟨h, { s.lgm with current := v, pool := some (s.lgm.pool.getD [] ++ [op]) }⟩, .ok ())
    | (h, .err) => (⟨h, { s.lgm with current := .null }⟩, .panic)
    | (h, .panic) => (⟨h, s.lgm⟩, .panic)

/-- `leafCompareValue` (internal/logument/logument.go:578-594). -/
def leafCompareValue (leaf : Tson) (value : GVal) : Bool :=
  match leaf, value with
  | .leaf (.str a) _, .str b => a == b
  | .leaf (.num a) _, .num b => F64.feq a b
  | .leaf (.bool a) _, .bool b => a == b
  | _, _ => false

/-- `TestSet` (internal/logument/logument.go:544-576). -/
def St.testSet (s : St) (vk : Nat) (op : Op) : St × Res Unit :=
  if op.kind ≠ .replace ∧ op.kind ≠ .add then (s, .ok ())
  else if op.kind = .add then s.set vk op
  else
    match s.lgm.version.getLast? with
    | none => (s, .panic)
    | some last =>
      match s.heap.view (s.lgm.snap last) with
      | none => (s, .panic)
      | some doc =>
        match getValue doc op.path with
        | .panic => (s, .panic)
        | .err => s.set vk { op with kind := .add }
        | .ok v => if leafCompareValue v op.value then (s, .ok ()) else s.set vk op

/-! ### Snapshots -/

/-- The loop of `Snapshot` (internal/logument/logument.go:226-232): `n` rounds starting with
version `i`; `t` is `timedSnapshot`. Every round applies a patch to the base snapshot. -/
def snapshotLoop (g : Lgm) (base : HVal) (h : Heap) (t : HVal) (i : Nat) : Nat → Heap × Res HVal
  | 0 => (h, .ok t)
  | n + 1 =>
    match applyPatch h base (g.patchOf i) with
    | (h', .ok t') => snapshotLoop g base h' t' (i + 1) n
    | (h', .err) => (h', .panic)
    | (h', .panic) => (h', .panic)

/-- `Snapshot` (internal/logument/logument.go:215-242). -/
def St.snapshot (s : St) (vk : Nat) : St × Res HVal :=
  match s.lgm.findLatest vk with
  | (g, .err) => (⟨s.heap, g⟩, .panic)
  | (g, .panic) => (⟨s.heap, g⟩, .panic)
  | (g, .ok (v, base)) =>
    match (if v ≠ vk then snapshotLoop g base s.heap .null (v + 1) (vk - v) else (s.heap, .ok base)) with
    | (h, .err) => (⟨h, g⟩, .panic)
    | (h, .panic) => (⟨h, g⟩, .panic)
    | (h, .ok t) =>
      match mget g.snaps vk with
      | some _ => (⟨h, g⟩, .ok t)
      | none => (⟨h, { g with snaps := mset g.snaps vk t }⟩, .ok t)

/-- `tson.GetLatestTimestamp(lgm.Snapshots[v])` (internal/logument/logument.go:250-251, 379-380);
`none` is a panic. -/
def St.latestOf (s : St) (v : Nat) : Option Int :=
  match s.heap.view (s.lgm.snap v) with
  | none => none
  | some t => getLatestTimestamp t

/-- The loop choosing the base version (internal/logument/logument.go:249-257). -/
def chooseVersion (s : St) (tsk : Int) (cur : Nat) : List Nat → Option Nat
  | [] => some cur
  | v :: vs =>
    match s.latestOf v with
    | none => none
    | some lts => if lts ≤ tsk then chooseVersion s tsk v vs else some cur

/-- What the runtime may choose: the result of the unstable `sort.Slice` on operations by
timestamp, and the orders in which `range` visits maps.
[internal/logument/logument.go:274; map iteration at internal/logument/logument.go:113, 645] -/
structure Oracle where
  sortOps : List Op → List Op
  sortOps_perm : ∀ l, (sortOps l).Perm l
  sortOps_sorted : ∀ l, (sortOps l).Pairwise (fun a b => a.ts ≤ b.ts)
  orderOps : List (Bytes × Op) → List (Bytes × Op)
  orderOps_perm : ∀ l, (orderOps l).Perm l
  orderPatches : List (Nat × List Op) → List (Nat × List Op)
  orderPatches_perm : ∀ l, (orderPatches l).Perm l

/-- The loop filling `latestPatchMap` (internal/logument/logument.go:278-285). -/
def pickLatest (tsk : Int) (m : List (Bytes × Op)) : List Op → List (Bytes × Op)
  | [] => m
  | p :: ps =>
    if p.ts ≤ tsk then
      match mget m p.path with
      | none => pickLatest tsk (mset m p.path p) ps
      | some e => if p.ts > e.ts then pickLatest tsk (mset m p.path p) ps else pickLatest tsk m ps
    else pickLatest tsk m ps

/-- The second half of `TemporalSnapshot`, from the sort on
(internal/logument/logument.go:270-301). -/
def St.temporalApply (s : St) (o : Oracle) (tsk : Int) (v : Nat) (base : HVal) : St × Res HVal :=
  let sorted := o.sortOps (s.lgm.patchOf (v + 1))
  -- the sort works in place on the recorded patch (a nil slice stays absent)
  let g := match mget s.lgm.patches (v + 1) with
    | some _ => { s.lgm with patches := mset s.lgm.patches (v + 1) sorted }
    | none => s.lgm
  let latest := (o.orderOps (pickLatest tsk [] sorted)).map Prod.snd
  match applyPatch s.heap base latest with
  | (h, .ok t) => (⟨h, g⟩, .ok t)
  | (h, .err) => (⟨h, g⟩, .panic)
  | (h, .panic) => (⟨h, g⟩, .panic)

/-- `TemporalSnapshot` (internal/logument/logument.go:244-302).  The error result of `Append` is
ignored by the code. -/
def St.temporalSnapshot (s : St) (o : Oracle) (tsk : Int) : St × Res HVal :=
  match s.lgm.version with
  | [] => (s, .panic)
  | v0 :: _ =>
    match chooseVersion s tsk v0 (sortedKeys s.lgm.snaps) with
    | none => (s, .panic)
    | some v =>
      let base := s.lgm.snap v
      match s.lgm.version.getLast? with
      | none => (s, .panic)
      | some last =>
        if v ≥ last then
          match s.lgm.pool with
          | none => (s, .ok base)
          | some _ => St.temporalApply ⟨s.heap, s.lgm.append.1⟩ o tsk v base
        else s.temporalApply o tsk v base

/-! ### Slices -/

/-- The two range checks of `Slice` and `Track`
(internal/logument/logument.go:307-322, 421-436). -/
def Lgm.checkRange (g : Lgm) (vi vj : Nat) : Lgm × Bool :=
  match g.isContinuous with
  | (g, false) => (g, false)
  | (g, true) =>
    match g.version.getLast? with
    | none => (g, false)
    | some last => (g, decide (vi ≤ vj ∧ vi ≤ last ∧ vj ≤ last))

/-- Restriction of a version map to a range, in ascending order
(internal/logument/logument.go:326-332, 334-345, 438-444). -/
def restrict (m : List (Nat × α)) (d : α) (vi vj : Nat) : List (Nat × α) :=
  ((sortedKeys m).filter fun v => decide (vi ≤ v ∧ v ≤ vj)).map fun v => (v, (mget m v).getD d)

/-- `Slice` (internal/logument/logument.go:304-360). -/
def St.slice (s : St) (vi vj : Nat) : St × Res Lgm :=
  match s.lgm.checkRange vi vj with
  | (g, false) => (⟨s.heap, g⟩, .panic)
  | (g, true) =>
    let snaps := restrict g.snaps .null vi vj
    let patches := restrict g.patches [] vi vj
    let mk (sn : List (Nat × HVal)) : Lgm :=
      { version := mkeys patches, current := .null, snaps := sn, patches := patches, pool := none }
    if snaps = [] then
      match St.snapshot ⟨s.heap, g⟩ vi with
      | (s', .ok t) => (s', .ok (mk [(vi, t)]))
      | (s', .err) => (s', .panic)
      | (s', .panic) => (s', .panic)
    else (⟨s.heap, g⟩, .ok (mk snaps))

/-- `patch.Timestamp >= tsi && patch.Timestamp <= tsj`
(internal/logument/logument.go:391, 497). -/
def inWindow (tsi tsj : Int) (p : Op) : Bool := decide (tsi ≤ p.ts ∧ p.ts ≤ tsj)

/-- The snapshot loop of `TemporalSlice` (internal/logument/logument.go:376-384); `none` is a
panic of `GetLatestTimestamp`. -/
def windowSnaps (s : St) (tsi tsj : Int) : List Nat → Option (List (Nat × HVal))
  | [] => some []
  | v :: vs =>
    match s.latestOf v, windowSnaps s tsi tsj vs with
    | some lts, some r => some (if tsi ≤ lts ∧ lts ≤ tsj then (v, s.lgm.snap v) :: r else r)
    | _, _ => none

/-- The patch loops of `TemporalSlice` (internal/logument/logument.go:386-400): the version list
gets one entry *per operation* in the window. -/
def windowPatches (g : Lgm) (tsi tsj : Int) : List Nat → List Nat × List (Nat × List Op)
  | [] => ([], [])
  | v :: vs =>
    let sel := (g.patchOf v).filter (inWindow tsi tsj)
    let r := windowPatches g tsi tsj vs
    (sel.map (fun _ => v) ++ r.1, if sel = [] then r.2 else (v, sel) :: r.2)

/-- `TemporalSlice` (internal/logument/logument.go:362-416). -/
def St.temporalSlice (s : St) (o : Oracle) (tsi tsj : Int) : St × Res Lgm :=
  match s.lgm.isContinuous with
  | (g, false) => (⟨s.heap, g⟩, .panic)
  | (g, true) =>
    if tsi > tsj then (⟨s.heap, g⟩, .panic)
    else
      match windowSnaps ⟨s.heap, g⟩ tsi tsj (sortedKeys g.snaps) with
      | none => (⟨s.heap, g⟩, .panic)
      | some snaps =>
        let r := windowPatches g tsi tsj (sortedKeys g.patches)
        let mk (sn : List (Nat × HVal)) : Lgm :=
          { version := r.1, current := .null, snaps := sn, patches := r.2, pool := none }
        if snaps = [] then
          match r.1 with
          | [] => (⟨s.heap, g⟩, .panic)
          | start :: _ =>
            match St.temporalSnapshot ⟨s.heap, g⟩ o tsi with
            | (s', .ok t) => (s', .ok (mk [(start, t)]))
            | (s', .err) => (s', .panic)
            | (s', .panic) => (s', .panic)
        else (⟨s.heap, g⟩, .ok (mk snaps))

/-! ### Compaction -/

/-- How a loop treats an operation: compare with the latest value on its path, keep it
unconditionally, or skip it. [internal/logument/logument.go:456-471, 495-512, 608-629] -/
inductive Sel where
  | compare | keep | skip
deriving DecidableEq, Repr

/-- The inner loop of `Track` (internal/logument/logument.go:456-471), `TemporalTrack`
(internal/logument/logument.go:495-512) and `Compact` (internal/logument/logument.go:608-629).
`latest` is `latestValues`; `none` is the run-time panic of comparing uncomparable values. -/
def compactOps (sel : Op → Sel) (latest : List (Bytes × GVal)) :
    List Op → Option (List Op × List (Bytes × GVal))
  | [] => some ([], latest)
  | p :: ps =>
    match sel p with
    | .skip => compactOps sel latest ps
    | .keep => (compactOps sel latest ps).map fun r => (p :: r.1, r.2)
    | .compare =>
      match mget latest p.path with
      | none => (compactOps sel (mset latest p.path p.value) ps).map fun r => (p :: r.1, r.2)
      | some prev =>
        match GVal.goEq prev p.value with
        | none => none
        | some true => compactOps sel latest ps
        | some false => (compactOps sel (mset latest p.path p.value) ps).map fun r => (p :: r.1, r.2)

/-- The outer loop writing compacted patches back (internal/logument/logument.go:454-473,
605-631); the flag is false if a comparison panicked. -/
def compactVersions (sel : Op → Sel) (latest : List (Bytes × GVal)) (patches : List (Nat × List Op)) :
    List Nat → List (Nat × List Op) × Bool
  | [] => (patches, true)
  | v :: vs =>
    match compactOps sel latest ((mget patches v).getD []) with
    | none => (patches, false)
    | some (ps, latest') => compactVersions sel latest' (mset patches v ps) vs

/-- `Track` (internal/logument/logument.go:418-476). -/
def Lgm.track (g : Lgm) (vi vj : Nat) : Lgm × Res (List (Nat × List Op)) :=
  match g.checkRange vi vj with
  | (g, false) => (g, .panic)
  | (g, true) =>
    let packed := restrict g.patches [] vi vj
    match compactVersions (fun _ => .compare) [] g.patches (sortNat (mkeys packed)) with
    | (ps, true) => ({ g with patches := ps }, .ok packed)
    | (ps, false) => ({ g with patches := ps }, .panic)

/-- The selection of `TemporalTrack` (internal/logument/logument.go:497). -/
def selWindow (tsi tsj : Int) (p : Op) : Sel := if inWindow tsi tsj p then .compare else .skip

/-- The outer loop of `TemporalTrack` (internal/logument/logument.go:493-516). -/
def trackVersions (g : Lgm) (sel : Op → Sel) (latest : List (Bytes × GVal)) :
    List Nat → Option (List (Nat × List Op))
  | [] => some []
  | v :: vs =>
    match compactOps sel latest (g.patchOf v) with
    | none => none
    | some (ps, latest') =>
      (trackVersions g sel latest' vs).map fun r => if ps = [] then r else (v, ps) :: r

/-- `TemporalTrack` (internal/logument/logument.go:478-519). -/
def Lgm.temporalTrack (g : Lgm) (tsi tsj : Int) : Lgm × Res (List (Nat × List Op)) :=
  if tsi > tsj then (g, .panic)
  else
    match trackVersions g (selWindow tsi tsj) [] (sortedKeys g.patches) with
    | none => (g, .panic)
    | some r => (g, .ok r)

/-- The selection of `Compact` (internal/logument/logument.go:610-611). -/
def selPrefix (pre : Bytes) (p : Op) : Sel := if hasPrefix (decode p.path) pre then .compare else .keep

/-- `Compact` (internal/logument/logument.go:596-632). -/
def Lgm.compact (g : Lgm) (pre : Bytes) : Lgm × Res Unit :=
  match g.isContinuous with
  | (g, false) => (g, .panic)
  | (g, true) =>
    match compactVersions (selPrefix pre) [] g.patches (sortedKeys g.patches) with
    | (ps, true) => ({ g with patches := ps }, .ok ())
    | (ps, false) => ({ g with patches := ps }, .panic)

/-! ### History -/

/-- The collecting loop of `History` over one patch (internal/logument/logument.go:646-651). -/
def collectOps (pre : Bytes) (m : List (Bytes × List Op)) : List Op → List (Bytes × List Op)
  | [] => m
  | p :: ps =>
    if hasPrefix (decode p.path) pre then
      collectOps pre (mset m p.path ((mget m p.path).getD [] ++ [p])) ps
    else collectOps pre m ps

/-- The collecting loop of `History` (internal/logument/logument.go:645-652). -/
def collectPatches (pre : Bytes) (m : List (Bytes × List Op)) :
    List (Nat × List Op) → List (Bytes × List Op)
  | [] => m
  | (_, ps) :: rest => collectPatches pre (collectOps pre m ps) rest

/-- A document as an `Operation.Value` (internal/logument/logument.go:664). -/
def docValue : Tson → GVal
  | .null => .nil
  | .leaf p ts => .leaf p ts
  | .obj _ => .container 0 0
  | .arr _ => .container 1 0

/-- The loop adding initial values (internal/logument/logument.go:655-669); `none` is a panic. -/
def addInitial (doc : Tson) : List (Bytes × List Op) → Option (List (Bytes × List Op))
  | [] => some []
  | (key, ps) :: m =>
    match getValue doc key with
    | .ok val =>
      (addInitial doc m).map fun r =>
        if val = .null then (key, ps) :: r
        else (key, { kind := .add, path := key, value := docValue val, ts := 0 } :: ps) :: r
    | _ => none

/-- `History` (internal/logument/logument.go:634-672). -/
def St.history (s : St) (o : Oracle) (pre : Bytes) : St × Res (List (Bytes × List Op)) :=
  match s.lgm.isContinuous with
  | (g, false) => (⟨s.heap, g⟩, .panic)
  | (g, true) =>
    match g.compact pre with
    | (g, .ok ()) =>
      let collected := collectPatches pre [] (o.orderPatches g.patches)
      if collected = [] then (⟨s.heap, g⟩, .ok [])
      else
        match s.heap.view (g.snap 0) with
        | none => (⟨s.heap, g⟩, .panic)
        | some doc =>
          match addInitial doc collected with
          | some r => (⟨s.heap, g⟩, .ok r)
          | none => (⟨s.heap, g⟩, .panic)
    | (g, _) => (⟨s.heap, g⟩, .panic)

/-! ### Call histories -/

/-- One call on a logument.  `environment h`: any change of the documents on the heap made from
outside, e.g. through a slice sharing the documents or by the caller.
[exported methods of internal/logument/logument.go:130-672] -/
inductive Call where
  | store (a : StoreArg)
  | append
  | set (vk : Nat) (op : Op)
  | testSet (vk : Nat) (op : Op)
  | snapshot (v : Nat)
  | temporalSnapshot (o : Oracle) (t : Int)
  | slice (vi vj : Nat)
  | temporalSlice (o : Oracle) (tsi tsj : Int)
  | track (vi vj : Nat)
  | temporalTrack (tsi tsj : Int)
  | compact (pre : Bytes)
  | history (o : Oracle) (pre : Bytes)
  | environment (h : Heap)

/-- What a call hands back. [results of internal/logument/logument.go:130-672] -/
inductive Ret where
  | unit
  | doc (v : HVal)
  | lgm (g : Lgm)
  | patches (m : List (Nat × List Op))
  | history (m : List (Bytes × List Op))

/-- Lift a method that does not touch the heap. [methods of internal/logument/logument.go:130-672] -/
def St.onLgm (s : St) (r : Lgm × Res α) (f : α → Ret) : St × Res Ret :=
  (⟨s.heap, r.1⟩, r.2.map f)

/-- One step of a call history. [methods of internal/logument/logument.go:130-672] -/
def step (s : St) : Call → St × Res Ret
  | .store a => s.onLgm (s.lgm.store a) fun _ => .unit
  | .append => s.onLgm s.lgm.append fun _ => .unit
  | .set vk op => let r := s.set vk op; (r.1, r.2.map fun _ => .unit)
  | .testSet vk op => let r := s.testSet vk op; (r.1, r.2.map fun _ => .unit)
  | .snapshot v => let r := s.snapshot v; (r.1, r.2.map .doc)
  | .temporalSnapshot o t => let r := s.temporalSnapshot o t; (r.1, r.2.map .doc)
  | .slice vi vj => let r := s.slice vi vj; (r.1, r.2.map .lgm)
  | .temporalSlice o tsi tsj => let r := s.temporalSlice o tsi tsj; (r.1, r.2.map .lgm)
  | .track vi vj => s.onLgm (s.lgm.track vi vj) .patches
  | .temporalTrack tsi tsj => s.onLgm (s.lgm.temporalTrack tsi tsj) .patches
  | .compact pre => s.onLgm (s.lgm.compact pre) fun _ => .unit
  | .history o pre => let r := s.history o pre; (r.1, r.2.map .history)
  | .environment h => (⟨h, s.lgm⟩, .ok .unit)

/-- The state after a call history (panics are recovered by the caller).
[methods of internal/logument/logument.go:130-672] -/
def run (s : St) : List Call → St
  | [] => s
  | c :: cs => run (step s c).1 cs

end Verif
