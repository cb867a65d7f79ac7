import Verif.Logument
import Verif.ApplyTree
/-
A logument without a heap: one document, and flags saying which references are nil.

This machine is a specification, not a model of the code: it says what a logument made from an object document
amounts to when nobody else holds its document.  There is a single document.  `CurrentState` and every stored
snapshot is that document or nil; which of the two is a flag.  The versions are the numbers up to `last`.
-/
namespace Verif

/-- A logument with a single document. -/
structure OneDoc where
  /-- the document -/
  doc : Tson
  /-- whether the current state is the document; nil otherwise -/
  live : Bool
  /-- the versions with a stored snapshot, and whether it is the document; nil otherwise -/
  snaps : List (Nat × Bool)
  /-- the newest version -/
  last : Nat
  /-- the operations of every version from 1 to `last` -/
  patches : List (Nat × List Op)
  /-- the operations waiting for `Append` -/
  pool : Option (List Op)

/-- What a call hands back; a document by a flag, for it is the document or nil. -/
inductive OneRet where
  | unit
  | doc (b : Bool)
  | slice (version : List Nat) (snaps : List (Nat × Bool)) (patches : List (Nat × List Op))
  | patches (m : List (Nat × List Op))
  | history (m : List (Bytes × List Op))

/-- The operations of a version. -/
def OneDoc.ops (o : OneDoc) (v : Nat) : List Op := (mget o.patches v).getD []

/-- Whether the document is stored for a version. -/
def OneDoc.holds (o : OneDoc) (v : Nat) : Bool := (mget o.snaps v).getD false

/-- The greatest number of a list, 0 for none. -/
def greatest (l : List Nat) : Nat := l.foldl max 0

/-- Storing operations collects them. -/
def OneDoc.store (o : OneDoc) (a : StoreArg) : OneDoc × Res OneRet :=
  match a.resolve with
  | .ok p => ({ o with pool := match o.pool with | none => p | some q => some (q ++ p.getD []) }, .ok .unit)
  | .err => (o, .err)
  | .panic => (o, .panic)

/-- Appending makes the collected operations the next version. -/
def OneDoc.append (o : OneDoc) : OneDoc :=
  match o.pool with
  | none => o
  | some p => { o with last := o.last + 1, patches := o.patches ++ [(o.last + 1, p)], pool := none }

/-- Setting a value changes the document.  If it fails, the current state is lost. -/
def OneDoc.set (o : OneDoc) (op : Op) : OneDoc × Res OneRet :=
  if op.kind = .replace ∨ op.kind = .add then
    if o.live then
      match applyOpT o.doc op with
      | (t, .ok _) => ({ o with doc := t, pool := some (o.pool.getD [] ++ [op]) }, .ok .unit)
      | (t, .err) => ({ o with doc := t, live := false }, .panic)
      | (t, .panic) => ({ o with doc := t }, .panic)
    else (o, .panic)
  else (o, .ok .unit)

/-- Setting a value if it differs from the value in the snapshot of the newest version. -/
def OneDoc.testSet (o : OneDoc) (op : Op) : OneDoc × Res OneRet :=
  if op.kind = .replace then
    match getValue (if o.holds o.last then o.doc else .null) op.path with
    | .panic => (o, .panic)
    | .err => o.set { op with kind := .add }
    | .ok v => if leafCompareValue v op.value then (o, .ok .unit) else o.set op
  else o.set op

/-- A snapshot applies the operations since the last snapshot before it to the document.  It is nil if the
version itself has no operations, or if it starts from nil. -/
def OneDoc.snapshot (o : OneDoc) (v : Nat) : OneDoc × Res Bool :=
  if o.last < v then (o, .panic)
  else
    match mget o.snaps v with
    | some b => (o, .ok b)
    | none =>
      let w := greatest ((mkeys o.snaps).filter fun x => decide (x ≤ v))
      let ops := (List.range' (w + 1) (v - w)).flatMap o.ops
      if o.holds w then
        match applyPatchT o.doc ops with
        | (t, .ok _) =>
          ({ o with doc := t, snaps := mset o.snaps v (decide (o.ops v ≠ [])) }, .ok (decide (o.ops v ≠ [])))
        | (t, _) => ({ o with doc := t }, .panic)
      else if ops = [] then ({ o with snaps := mset o.snaps v false }, .ok false)
      else (o, .panic)

/-- The version a snapshot by time starts from: 0 if the document has a later value; the newest with a stored
snapshot otherwise.  A nil among the stored snapshots or in the document is a panic. -/
def OneDoc.base (o : OneDoc) (t : Int) : Option Nat :=
  match getLatestTimestamp o.doc with
  | none => none
  | some lts =>
    if t < lts then some 0
    else if o.snaps.all fun x => x.2 then some (greatest (mkeys o.snaps)) else none

/-- A snapshot by time applies, of the version after the base, the latest operation of every path that is not
later than the time. -/
def OneDoc.temporalSnapshot (o : OneDoc) (r : Oracle) (t : Int) : OneDoc × Res Bool :=
  match o.base t with
  | none => (o, .panic)
  | some v =>
    if o.last ≤ v ∧ o.pool = none then (o, .ok true)
    else
      let o := if o.last ≤ v then o.append else o
      let sorted := r.sortOps (o.ops (v + 1))
      let chosen := (r.orderOps (pickLatest t [] sorted)).map Prod.snd
      let o := { o with patches := mset o.patches (v + 1) sorted }
      match applyPatchT o.doc chosen with
      | (t, .ok _) => ({ o with doc := t }, .ok (decide (chosen ≠ [])))
      | (t, _) => ({ o with doc := t }, .panic)

/-- A slice has the snapshots and patches of its versions. -/
def OneDoc.slice (o : OneDoc) (vi vj : Nat) : OneDoc × Res OneRet :=
  if vi ≤ vj ∧ vj ≤ o.last then
    let patches := restrict o.patches [] vi vj
    match restrict o.snaps false vi vj with
    | [] =>
      match o.snapshot vi with
      | (o', .ok b) => (o', .ok (.slice (mkeys patches) [(vi, b)] patches))
      | (o', _) => (o', .panic)
    | sn => (o, .ok (.slice (mkeys patches) sn patches))
  else (o, .panic)

/-- A logument with nothing but patches. -/
def onlyPatches (ps : List (Nat × List Op)) : Lgm := ⟨[], .null, [], ps, none⟩

/-- A slice by time has all the stored snapshots or, if the document's latest timestamp is not in the window, a
snapshot by time for the first version with an operation in the window. -/
def OneDoc.temporalSlice (o : OneDoc) (r : Oracle) (ti tj : Int) : OneDoc × Res OneRet :=
  if tj < ti then (o, .panic)
  else
    match getLatestTimestamp o.doc with
    | none => (o, .panic)
    | some lts =>
      if o.snaps.all fun x => x.2 then
        let w := windowPatches (onlyPatches o.patches) ti tj (List.range' 1 o.last)
        if ti ≤ lts ∧ lts ≤ tj then
          (o, .ok (.slice w.1 ((sortedKeys o.snaps).map fun v => (v, true)) w.2))
        else
          match w.1 with
          | [] => (o, .panic)
          | start :: _ =>
            match o.temporalSnapshot r ti with
            | (o', .ok b) => (o', .ok (.slice w.1 [(start, b)] w.2))
            | (o', _) => (o', .panic)
      else (o, .panic)

/-- The changes between two versions; the repetitions among them are removed from the log. -/
def OneDoc.track (o : OneDoc) (vi vj : Nat) : OneDoc × Res OneRet :=
  if vi ≤ vj ∧ vj ≤ o.last then
    let packed := restrict o.patches [] vi vj
    let r := compactVersions (fun _ => .compare) [] o.patches (sortNat (mkeys packed))
    ({ o with patches := r.1 }, if r.2 then .ok (.patches packed) else .panic)
  else (o, .panic)

/-- The changes in a window of time. -/
def OneDoc.temporalTrack (o : OneDoc) (ti tj : Int) : Res OneRet :=
  if tj < ti then .panic
  else
    match trackVersions (onlyPatches o.patches) (selWindow ti tj) [] (List.range' 1 o.last) with
    | none => .panic
    | some r => .ok (.patches r)

/-- Removing the repetitions below a path from the log. -/
def OneDoc.compact (o : OneDoc) (pre : Bytes) : OneDoc × Res Unit :=
  let r := compactVersions (selPrefix pre) [] o.patches (List.range' 1 o.last)
  ({ o with patches := r.1 }, if r.2 then .ok () else .panic)

/-- The operations below a path, by path, each list headed by the value in the document. -/
def OneDoc.history (o : OneDoc) (r : Oracle) (pre : Bytes) : OneDoc × Res OneRet :=
  match o.compact pre with
  | (o, .ok ()) =>
    (o, match addInitial o.doc (collectPatches pre [] (r.orderPatches o.patches)) with
        | some l => .ok (.history l)
        | none => .panic)
  | (o, _) => (o, .panic)

/-- One call. -/
def OneDoc.step (o : OneDoc) : Call → OneDoc × Res OneRet
  | .store a => o.store a
  | .append => (o.append, .ok .unit)
  | .set _ op => o.set op
  | .testSet _ op => o.testSet op
  | .snapshot v => ((o.snapshot v).1, (o.snapshot v).2.map .doc)
  | .temporalSnapshot r t => ((o.temporalSnapshot r t).1, (o.temporalSnapshot r t).2.map .doc)
  | .slice vi vj => o.slice vi vj
  | .temporalSlice r ti tj => o.temporalSlice r ti tj
  | .track vi vj => o.track vi vj
  | .temporalTrack ti tj => (o, o.temporalTrack ti tj)
  | .compact pre => ((o.compact pre).1, (o.compact pre).2.map fun _ => .unit)
  | .history r pre => o.history r pre
  | .environment _ => (o, .ok .unit)

/-- The machine after a list of calls. -/
def OneDoc.run (o : OneDoc) : List Call → OneDoc
  | [] => o
  | c :: cs => OneDoc.run (o.step c).1 cs

/-- A new logument: version 0 is the document. -/
def OneDoc.new (doc : Tson) (ia : Option StoreArg) : OneDoc :=
  let o : OneDoc := ⟨doc, true, [(0, true)], 0, [], none⟩
  match ia with
  | none => o
  | some a => (o.store a).1

/-- The Go value a flag stands for, with the document at address `a`. -/
def refTo (a : Nat) (b : Bool) : HVal := if b then .obj a else .null

/-- The logument a one-document machine stands for, with the document at address `a`. -/
def OneDoc.lgm (o : OneDoc) (a : Nat) : Lgm :=
  { version := List.range (o.last + 1), current := refTo a o.live,
    snaps := o.snaps.map fun x => (x.1, refTo a x.2), patches := o.patches, pool := o.pool }

/-- The Go result a result stands for, with the document at address `a`. -/
def OneRet.ret (a : Nat) : OneRet → Ret
  | .unit => .unit
  | .doc b => .doc (refTo a b)
  | .slice vs sn ps => .lgm ⟨vs, .null, sn.map fun x => (x.1, refTo a x.2), ps, none⟩
  | .patches m => .patches m
  | .history m => .history m

end Verif
