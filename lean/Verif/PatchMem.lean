import Verif.Logument
/-
The memory of the recorded operations.

`Logument` treats a patch as a value.  In Go it is a slice: a window on an array that others may see too.  Here the
arrays are explicit.  Every method is repeated with slices; what it computes from the operations it reads is taken
from `Logument`.  `load` forgets the arrays.
-/
namespace Verif

/-! ### Slices of operations -/

/-- A slice of operations that is not nil: an array, the position of the first element, the length and the
capacity.  [`Patch`, a slice type: internal/tsonpatch/tsonpatch.go:48; internal/logument/logument.go:21] -/
structure Sl where
  addr : Nat
  off : Nat
  len : Nat
  cap : Nat
deriving DecidableEq, Repr, Inhabited

/-- The arrays of operations in memory, by address. [internal/logument/logument.go:28-29] -/
abbrev Arrs := List (List Op)

/-- The elements of an array. [internal/logument/logument.go:28-29] -/
def Arrs.arr (A : Arrs) (a : Nat) : List Op := (A[a]?).getD []

/-- The elements of a slice, as `range` sees them. [e.g. internal/logument/logument.go:278] -/
def Sl.ops (A : Arrs) (s : Sl) : List Op := ((A.arr s.addr).drop s.off).take s.len

/-- The elements of a slice that may be nil. [e.g. internal/logument/logument.go:165] -/
def opsOf (A : Arrs) : Option Sl → List Op
  | none => []
  | some s => s.ops A

/-- Writing elements into an array from a position on. [`append` and `sort.Slice`: internal/logument/logument.go:165, 274] -/
def Arrs.write (A : Arrs) (a i : Nat) (xs : List Op) : Arrs :=
  A.set a ((A.arr a).take i ++ (xs ++ (A.arr a).drop (i + xs.length)))

/-- The zero `Operation`, in the unused part of a new array. [internal/tsonpatch/tsonpatch.go:81-86] -/
def zeroOp : Op := ⟨.other [], [], .nil, 0⟩

/-- A new array with `spare` unused elements, and the slice of the others.
[e.g. internal/logument/logument.go:149-151, 155, 456] -/
def Arrs.make (A : Arrs) (xs : List Op) (spare : Nat) : Arrs × Sl :=
  (A ++ [xs ++ List.replicate spare zeroOp], ⟨A.length, 0, xs.length, xs.length + spare⟩)

/-- `append(s, xs...)` (internal/logument/logument.go:165, 540): in place if the capacity suffices, otherwise in a new
array whose unused part the runtime chooses. -/
def goAppend (A : Arrs) (s : Sl) (xs : List Op) (spare : Nat) : Arrs × Sl :=
  if s.len + xs.length ≤ s.cap then (A.write s.addr (s.off + s.len) xs, { s with len := s.len + xs.length })
  else A.make (s.ops A ++ xs) spare

/-! ### The logument -/

/-- `Logument` with slices (internal/logument/logument.go:24-30). -/
structure MLog where
  version : List Nat
  current : HVal
  snaps : List (Nat × HVal)
  patches : List (Nat × Sl)
  pool : Option Sl

/-- Documents, arrays of operations, and one logument. [internal/logument/logument.go:24-30] -/
structure MSt where
  heap : Heap
  arrs : Arrs
  log : MLog

/-- The logument with the operations its slices show. [internal/logument/logument.go:24-30] -/
def MLog.load (A : Arrs) (g : MLog) : Lgm :=
  { version := g.version, current := g.current, snaps := g.snaps,
    patches := g.patches.map fun x => (x.1, x.2.ops A), pool := g.pool.map (Sl.ops A) }

/-- The state with the operations the slices show. [internal/logument/logument.go:24-30] -/
def MSt.load (m : MSt) : St := ⟨m.heap, m.log.load m.arrs⟩

/-- The state after a method that only reads the operations: the patches and the pool stay the same slices.
[internal/logument/logument.go:215-242, 304-360, 478-519] -/
def MSt.keep (m : MSt) (s : St) : MSt :=
  { m with heap := s.heap, log := { m.log with version := s.lgm.version, current := s.lgm.current, snaps := s.lgm.snaps } }

/-- The dynamic argument types of `Store` with slices (internal/logument/logument.go:133-160). -/
inductive MArg where
  | text (r : Res (Option (List Op)))
  | patch (s : Option Sl)
  | patches (l : List (Option Sl))
  | op (o : Op)
  | ops (s : Option Sl)
  | other

/-- The argument with the operations its slices show. [internal/logument/logument.go:133-160] -/
def MArg.load (A : Arrs) : MArg → StoreArg
  | .text r => .text r
  | .patch s => .patch (s.map (Sl.ops A))
  | .patches l => .patches (l.map (opsOf A))
  | .op o => .op o
  | .ops s => .ops (s.map (Sl.ops A))
  | .other => .other

/-- The variable `patches` after the type switch (internal/logument/logument.go:133-160): the caller's own slice for a
patch, a new array otherwise. -/
def MArg.get (A : Arrs) (spare : Nat) : MArg → Arrs × Option Sl
  | .text (.ok (some l)) => ((A.make l spare).1, some (A.make l spare).2)
  | .text _ => (A, none)
  | .patch s => (A, s)
  | .patches l =>
    let xs := (l.map (opsOf A)).flatten
    if xs = [] then (A, none) else ((A.make xs spare).1, some (A.make xs spare).2)
  | .op o => ((A.make [o] 0).1, some (A.make [o] 0).2)
  | .ops s => (A, s)
  | .other => (A, none)

/-- Setting arrays and pool. [internal/logument/logument.go:162-166] -/
def MSt.withPool (m : MSt) (A : Arrs) (p : Option Sl) : MSt := { m with arrs := A, log := { m.log with pool := p } }

/-- `Store` (internal/logument/logument.go:130-167). -/
def MSt.store (m : MSt) (a : MArg) (spare : Nat) : MSt × Res Unit :=
  match (a.load m.arrs).resolve with
  | .ok _ =>
    let r := a.get m.arrs spare
    match m.log.pool with
    | none => (m.withPool r.1 r.2, .ok ())
    | some q =>
      let b := goAppend r.1 q (opsOf r.1 r.2) spare
      (m.withPool b.1 (some b.2), .ok ())
  | .err => (m, .err)
  | .panic => (m, .panic)

/-- `Append` (internal/logument/logument.go:192-212): the pool's slice becomes the patch. -/
def MSt.append (m : MSt) : MSt × Res Unit :=
  if m.load.lgm.isGrown = false then (m, .err)
  else
    match m.log.pool with
    | none => (m, .ok ())
    | some p =>
      match m.log.version.getLast? with
      | none => (m, .panic)
      | some last =>
        match mget m.log.patches (last + 1) with
        | some _ => (m, .err)
        | none =>
          ({ m with log := { m.log with patches := mset m.log.patches (last + 1) p,
                                        version := m.log.version ++ [last + 1], pool := none } }, .ok ())

/-- The end of `Set` (internal/logument/logument.go:537-541): the operation is added to the pool. -/
def MSt.addOp (m : MSt) (op : Op) (spare : Nat) : MSt :=
  match m.log.pool with
  | none => m.withPool (m.arrs.make [op] 0).1 (some (m.arrs.make [op] 0).2)
  | some q => m.withPool (goAppend m.arrs q [op] spare).1 (some (goAppend m.arrs q [op] spare).2)

/-- `Set` (internal/logument/logument.go:521-542). -/
def MSt.set (m : MSt) (op : Op) (spare : Nat) : MSt × Res Unit :=
  if op.kind ≠ .replace ∧ op.kind ≠ .add then (m, .ok ())
  else
    match applyOperation m.heap m.log.current op with
    | (h, .ok v) => (MSt.addOp { m with heap := h, log := { m.log with current := v } } op spare, .ok ())
    | (h, .err) => ({ m with heap := h, log := { m.log with current := .null } }, .panic)
    | (h, .panic) => ({ m with heap := h }, .panic)

/-- `TestSet` (internal/logument/logument.go:544-576). -/
def MSt.testSet (m : MSt) (op : Op) (spare : Nat) : MSt × Res Unit :=
  if op.kind ≠ .replace ∧ op.kind ≠ .add then (m, .ok ())
  else if op.kind = .add then m.set op spare
  else
    match m.log.version.getLast? with
    | none => (m, .panic)
    | some last =>
      match m.heap.view (m.load.lgm.snap last) with
      | none => (m, .panic)
      | some doc =>
        match getValue doc op.path with
        | .panic => (m, .panic)
        | .err => m.set { op with kind := .add } spare
        | .ok v => if leafCompareValue v op.value then (m, .ok ()) else m.set op spare

/-- The second half of `TemporalSnapshot` (internal/logument/logument.go:270-301): the sort works on the patch's own
array. -/
def MSt.temporalApply (m : MSt) (o : Oracle) (tsk : Int) (v : Nat) (base : HVal) : MSt × Res HVal :=
  let sorted := o.sortOps (m.load.lgm.patchOf (v + 1))
  let A := match mget m.log.patches (v + 1) with
    | some s => m.arrs.write s.addr s.off sorted
    | none => m.arrs
  let latest := (o.orderOps (pickLatest tsk [] sorted)).map Prod.snd
  match applyPatch m.heap base latest with
  | (h, .ok t) => (⟨h, A, m.log⟩, .ok t)
  | (h, .err) => (⟨h, A, m.log⟩, .panic)
  | (h, .panic) => (⟨h, A, m.log⟩, .panic)

/-- `TemporalSnapshot` (internal/logument/logument.go:244-302). -/
def MSt.temporalSnapshot (m : MSt) (o : Oracle) (tsk : Int) : MSt × Res HVal :=
  match m.log.version with
  | [] => (m, .panic)
  | v0 :: _ =>
    match chooseVersion m.load tsk v0 (sortedKeys m.log.snaps) with
    | none => (m, .panic)
    | some v =>
      let base := m.load.lgm.snap v
      match m.log.version.getLast? with
      | none => (m, .panic)
      | some last =>
        if v ≥ last then
          match m.log.pool with
          | none => (m, .ok base)
          | some _ => m.append.1.temporalApply o tsk v base
        else m.temporalApply o tsk v base

/-- What a call hands back.  The patches of a slice and of `Track` are the logument's own slices; all else is new.
[internal/logument/logument.go:343, 442] -/
inductive MRet where
  | val (r : Ret)
  | slice (g : MLog)
  | track (l : List (Nat × Sl))

/-- A result with the operations its slices show. [internal/logument/logument.go:130-672] -/
def MRet.load (A : Arrs) : MRet → Ret
  | .val r => r
  | .slice g => .lgm (g.load A)
  | .track l => .patches (l.map fun x => (x.1, x.2.ops A))

/-- `Slice` (internal/logument/logument.go:304-360): the patches of the slice are the logument's
(internal/logument/logument.go:343). -/
def MSt.slice (m : MSt) (vi vj : Nat) : MSt × Res MRet :=
  let r := m.load.slice vi vj
  let patches := restrict m.log.patches default vi vj
  (m.keep r.1, r.2.map fun g => .slice ⟨g.version, g.current, g.snaps, patches, none⟩)

/-- `TemporalSlice` (internal/logument/logument.go:362-416); the patches of the slice are new arrays. -/
def MSt.temporalSlice (m : MSt) (o : Oracle) (tsi tsj : Int) : MSt × Res Lgm :=
  match m.load.lgm.isContinuous with
  | (g, false) => (m.keep ⟨m.heap, g⟩, .panic)
  | (g, true) =>
    let m := m.keep ⟨m.heap, g⟩
    if tsi > tsj then (m, .panic)
    else
      match windowSnaps ⟨m.heap, g⟩ tsi tsj (sortedKeys g.snaps) with
      | none => (m, .panic)
      | some snaps =>
        let r := windowPatches g tsi tsj (sortedKeys g.patches)
        let mk (sn : List (Nat × HVal)) : Lgm :=
          { version := r.1, current := .null, snaps := sn, patches := r.2, pool := none }
        if snaps = [] then
          match r.1 with
          | [] => (m, .panic)
          | start :: _ =>
            match m.temporalSnapshot o tsi with
            | (m', .ok t) => (m', .ok (mk [(start, t)]))
            | (m', .err) => (m', .panic)
            | (m', .panic) => (m', .panic)
        else (m, .ok (mk snaps))

/-- The outer loops of `Track` and `Compact` (internal/logument/logument.go:454-473, 605-631): every version gets a new
array, of the capacity of the old length (internal/logument/logument.go:456, 608). -/
def compactMem (sel : Op → Sel) (latest : List (Bytes × GVal)) (A : Arrs) (patches : List (Nat × Sl)) :
    List Nat → (Arrs × List (Nat × Sl)) × Bool
  | [] => ((A, patches), true)
  | v :: vs =>
    let ops := opsOf A (mget patches v)
    match compactOps sel latest ops with
    | none => ((A, patches), false)
    | some (ps, latest') =>
      let b := A.make ps (ops.length - ps.length)
      compactMem sel latest' b.1 (mset patches v b.2) vs

/-- `Track` (internal/logument/logument.go:418-476): hands out the slices the logument had before
(internal/logument/logument.go:442). -/
def MSt.track (m : MSt) (vi vj : Nat) : MSt × Res MRet :=
  match m.load.lgm.checkRange vi vj with
  | (g, false) => (m.keep ⟨m.heap, g⟩, .panic)
  | (g, true) =>
    let m := m.keep ⟨m.heap, g⟩
    let packed := restrict m.log.patches default vi vj
    match compactMem (fun _ => .compare) [] m.arrs m.log.patches (sortNat (mkeys packed)) with
    | ((A, ps), true) => ({ m with arrs := A, log := { m.log with patches := ps } }, .ok (.track packed))
    | ((A, ps), false) => ({ m with arrs := A, log := { m.log with patches := ps } }, .panic)

/-- `Compact` (internal/logument/logument.go:596-632). -/
def MSt.compact (m : MSt) (pre : Bytes) : MSt × Res Unit :=
  match m.load.lgm.isContinuous with
  | (g, false) => (m.keep ⟨m.heap, g⟩, .panic)
  | (g, true) =>
    let m := m.keep ⟨m.heap, g⟩
    match compactMem (selPrefix pre) [] m.arrs m.log.patches (sortedKeys m.log.patches) with
    | ((A, ps), true) => ({ m with arrs := A, log := { m.log with patches := ps } }, .ok ())
    | ((A, ps), false) => ({ m with arrs := A, log := { m.log with patches := ps } }, .panic)

/-- `History` (internal/logument/logument.go:634-672): compacts, then reads; the lists handed out are new arrays. -/
def MSt.history (m : MSt) (o : Oracle) (pre : Bytes) : MSt × Res (List (Bytes × List Op)) :=
  match m.load.lgm.isContinuous with
  | (g, false) => (m.keep ⟨m.heap, g⟩, .panic)
  | (g, true) =>
    match MSt.compact (m.keep ⟨m.heap, g⟩) pre with
    | (m, .ok ()) =>
      let collected := collectPatches pre [] (o.orderPatches m.load.lgm.patches)
      if collected = [] then (m, .ok [])
      else
        match m.heap.view (m.load.lgm.snap 0) with
        | none => (m, .panic)
        | some doc =>
          match addInitial doc collected with
          | some r => (m, .ok r)
          | none => (m, .panic)
    | (m, _) => (m, .panic)

/-! ### Call histories -/

/-- One call, or something the caller does to arrays.  `spare` is the unused part of a new array if one is made.
[exported methods of internal/logument/logument.go:130-672] -/
inductive MCall where
  | store (a : MArg) (spare : Nat)
  | append
  | set (vk : Nat) (op : Op) (spare : Nat)
  | testSet (vk : Nat) (op : Op) (spare : Nat)
  | snapshot (v : Nat)
  | temporalSnapshot (o : Oracle) (t : Int)
  | slice (vi vj : Nat)
  | temporalSlice (o : Oracle) (tsi tsj : Int)
  | track (vi vj : Nat)
  | temporalTrack (tsi tsj : Int)
  | compact (pre : Bytes)
  | history (o : Oracle) (pre : Bytes)
  /-- the caller writes, makes or extends arrays -/
  | caller (A : Arrs)

/-- One step. [methods of internal/logument/logument.go:130-672] -/
def mstep (m : MSt) : MCall → MSt × Res MRet
  | .store a k => ((m.store a k).1, (m.store a k).2.map fun _ => .val .unit)
  | .append => (m.append.1, m.append.2.map fun _ => .val .unit)
  | .set _ op k => ((m.set op k).1, (m.set op k).2.map fun _ => .val .unit)
  | .testSet _ op k => ((m.testSet op k).1, (m.testSet op k).2.map fun _ => .val .unit)
  | .snapshot v => (m.keep (m.load.snapshot v).1, (m.load.snapshot v).2.map fun d => .val (.doc d))
  | .temporalSnapshot o t => ((m.temporalSnapshot o t).1, (m.temporalSnapshot o t).2.map fun d => .val (.doc d))
  | .slice vi vj => m.slice vi vj
  | .temporalSlice o ti tj => ((m.temporalSlice o ti tj).1, (m.temporalSlice o ti tj).2.map fun g => .val (.lgm g))
  | .track vi vj => m.track vi vj
  | .temporalTrack ti tj =>
    (m.keep ⟨m.heap, (m.load.lgm.temporalTrack ti tj).1⟩,
      (m.load.lgm.temporalTrack ti tj).2.map fun l => .val (.patches l))
  | .compact pre => ((m.compact pre).1, (m.compact pre).2.map fun _ => .val .unit)
  | .history o pre => ((m.history o pre).1, (m.history o pre).2.map fun l => .val (.history l))
  | .caller A => ({ m with arrs := A }, .ok (.val .unit))

/-- The state after a history. [methods of internal/logument/logument.go:130-672] -/
def mrun (m : MSt) : List MCall → MSt
  | [] => m
  | c :: cs => mrun (mstep m c).1 cs

/-- A new logument without patches on given documents and arrays (internal/logument/logument.go:47-67). -/
def mnew (h : Heap) (A : Arrs) (doc : Tson) : MSt :=
  let r := h.store doc
  ⟨r.1, A, ⟨[0], r.2, [(0, r.2)], [], none⟩⟩

end Verif
