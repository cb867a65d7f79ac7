import Verif.Json
/-
The TJSON store that the experiments compare with loguments (exp/tjson.go): items with versions, each valid in a period
of time written as a text `start-end`.

Values (`interface{}`) are `Js`.  Items are trees: every `*TJSONItem` is referenced from one map only, so that updating
an item in place is rebuilding the tree.  The path of an item is split at dots.  Error texts and the warnings printed are
not modelled.
-/
namespace Verif

/-- `TJSONVersion` (exp/tjson.go:27-30): a period, as text, and the value in it. -/
structure TVersion where
  period : Bytes
  data : Js
deriving Repr, Inhabited

/-- `TJSONItem` (exp/tjson.go:20-24). -/
inductive TItem where
  | mk (period : Bytes) (versions : List TVersion) (children : List (Bytes × TItem))
deriving Repr

instance : Inhabited TItem := ⟨.mk [] [] []⟩

/-- `item.Versions` (exp/tjson.go:22). -/
def TItem.versions : TItem → List TVersion
  | .mk _ vs _ => vs

/-- `item.Children` (exp/tjson.go:23). -/
def TItem.children : TItem → List (Bytes × TItem)
  | .mk _ _ cs => cs

/-- `TJSONDocument` (exp/tjson.go:15-17): the map `Items`. -/
abbrev TDoc := List (Bytes × TItem)

/-- `fmt.Sprintf("%d-%d", startTime, endTime)` (exp/tjson.go:48). -/
def fmtPeriod (s e : Int) : Bytes := itoa s ++ 45 :: itoa e

/-- `strconv.ParseInt(s, 10, 64)` with the error ignored (exp/tjson.go:271-272): 0 for a syntax error, the nearest bound
when out of range. -/
def parseIntLossy (s : Bytes) : Int :=
  match signedDigits s with
  | none => 0
  | some v => if v < minInt64 then minInt64 else if maxInt64 < v then maxInt64 else v

/-- `parseTimeRange` (exp/tjson.go:265-274). -/
def parsePeriod (s : Bytes) : Int × Int :=
  match split 45 s with
  | [a, b] => (parseIntLossy a, parseIntLossy b)
  | _ => (0, 0)

/-- `isTimeInRange` (exp/tjson.go:259-262). -/
def inPeriod (t : Int) (s : Bytes) : Bool :=
  decide ((parsePeriod s).1 ≤ t ∧ t ≤ (parsePeriod s).2)

/-! ### AddItem -/

/-- The loop of `AddItem` below an item (exp/tjson.go:64-87). -/
def TItem.addAt (period : Bytes) (v : Js) (it : TItem) : List Bytes → TItem
  | [] => it
  | k :: ks =>
    match it with
    | .mk p vs cs =>
      match (mget cs k).getD (.mk period [] []) with
      | .mk p' vs' cs' =>
        match ks with
        | [] => .mk p vs (mset cs k (.mk p' (vs' ++ [⟨period, v⟩]) cs'))
        | k' :: ks' => .mk p vs (mset cs k (TItem.addAt period v (.mk p' vs' cs') (k' :: ks')))

/-- `AddItem` (exp/tjson.go:40-90).  It never returns an error: `strings.Split` returns at least one part. -/
def tAddItem (d : TDoc) (path : Bytes) (s e : Int) (v : Js) : TDoc :=
  match split bDot path with
  | [] => d
  | k :: ks =>
    mset d k (TItem.addAt (fmtPeriod s e) v ((mget d k).getD (.mk (fmtPeriod s e) [] [])) ks)

/-! ### TemporalSnapshot -/

/-- The loop choosing a version (exp/tjson.go:121-131): the first one valid at the time, otherwise the last one. -/
def pickVersion (t : Int) (last : Option Js) : List TVersion → Option Js
  | [] => last
  | v :: vs => if inPeriod t v.period then some v.data else pickVersion t (some v.data) vs

mutual
/-- `getSnapshotForItem` (exp/tjson.go:107-181); `Js.null` is nil. -/
def TItem.snap (t : Int) : TItem → Js
  | .mk _ vs cs =>
    if cs.isEmpty && vs.isEmpty then .null
    else
      match pickVersion t none vs with
      | some (.obj m) => .obj ((tSnapF t cs).foldl (fun m e => mset m e.1 e.2) m)
      | some d => d
      | none => if (tSnapF t cs).isEmpty then .null else .obj (tSnapF t cs)
/-- The children that are not nil (exp/tjson.go:152-158), in the order visited. -/
def tSnapF (t : Int) : List (Bytes × TItem) → List (Bytes × Js)
  | [] => []
  | (k, it) :: cs =>
    match it.snap t with
    | .null => tSnapF t cs
    | j => (k, j) :: tSnapF t cs
end

/-- `TJSONDocument.TemporalSnapshot` (exp/tjson.go:93-104). -/
def tSnapshot (d : TDoc) (t : Int) : Js := .obj (tSnapF t d)

/-! ### TemporalTrack, FindEvents -/

/-- The item below an item (exp/tjson.go:203-209). -/
def TItem.at? : TItem → List Bytes → Option TItem
  | it, [] => some it
  | it, k :: ks => (mget it.children k).bind fun c => c.at? ks

/-- The item of a split path (exp/tjson.go:194-209). -/
def tItemAt (d : TDoc) : List Bytes → Option TItem
  | [] => none
  | k :: ks => (mget d k).bind fun it => it.at? ks

/-- `TsonPatch` (exp/exp_scenario.go:52-57). -/
structure TPatch where
  op : Bytes
  path : Bytes
  value : Js
  ts : Int
deriving Repr, Inhabited

/-- What the runtime may choose: the results of the unstable `sort.Slice` (exp/tjson.go:226, 281) and the order in which
the map of pending values is visited (exp/tjson.go:335). -/
structure TOracle where
  sortVersions : List TVersion → List TVersion
  sortVersions_perm : ∀ l, (sortVersions l).Perm l
  sortVersions_sorted : ∀ l, (sortVersions l).Pairwise fun a b => (parsePeriod a.period).1 ≤ (parsePeriod b.period).1
  sortPatches : List TPatch → List TPatch
  sortPatches_perm : ∀ l, (sortPatches l).Perm l
  sortPatches_sorted : ∀ l, (sortPatches l).Pairwise fun a b => a.ts ≤ b.ts
  order : List (Bytes × (Js × Int)) → List (Bytes × (Js × Int))
  order_perm : ∀ l, (order l).Perm l

/-- `TJSONDocument.TemporalTrack` (exp/tjson.go:185-233). -/
def tTrack (o : TOracle) (d : TDoc) (path : Bytes) (s e : Int) : Res (List TVersion) :=
  match tItemAt d (split bDot path) with
  | none => .err
  | some it =>
    .ok (o.sortVersions (it.versions.filter fun v =>
      decide ((parsePeriod v.period).1 ≤ e ∧ s ≤ (parsePeriod v.period).2)))

/-- `FindEvents` (exp/tjson.go:236-256). -/
def tFindEvents (o : TOracle) (d : TDoc) (path : Bytes) (s e : Int) (pred : Js → Bool) : Res (List Int) :=
  (tTrack o d path s e).map fun l =>
    (l.filter fun v => pred v.data).map fun v => (parsePeriod v.period).1

/-! ### FromTSONPatches -/

/-- The path of a patch as a TJSON path (exp/tjson.go:291-297). -/
def tPath (p : Bytes) : Bytes :=
  (match p with
  | c :: r => if c = bSlash then r else c :: r
  | [] => []).map fun c => if c = bSlash then bDot else c

/-- `patch.Timestamp-1` on `int64` (exp/tjson.go:308, 322): wraps around at the smallest number. -/
def pred64 (n : Int) : Int := if n = minInt64 then maxInt64 else n - 1

/-- One step of the loop (exp/tjson.go:290-332).  The maps `lastValues` and `lastTimes` always have the same keys and
are modelled as one. -/
def tStep (st : TDoc × List (Bytes × (Js × Int))) (p : TPatch) : TDoc × List (Bytes × (Js × Int)) :=
  if p.op = b!"add" ∨ p.op = b!"replace" then
    match mget st.2 (tPath p.path) with
    | none => (st.1, mset st.2 (tPath p.path) (p.value, p.ts))
    | some (v, s) =>
      if jsEq v p.value then st
      else (tAddItem st.1 (tPath p.path) s (pred64 p.ts) v, mset st.2 (tPath p.path) (p.value, p.ts))
  else if p.op = b!"remove" then
    match mget st.2 (tPath p.path) with
    | none => st
    | some (v, s) => (tAddItem st.1 (tPath p.path) s (pred64 p.ts) v, mdel st.2 (tPath p.path))
  else st

/-- The last loop: values still valid are closed with the time of the conversion (exp/tjson.go:334-340). -/
def tClose (now : Int) (d : TDoc) (e : Bytes × (Js × Int)) : TDoc := tAddItem d e.1 e.2.2 now e.2.1

/-- `FromTSONPatches` (exp/tjson.go:277-342); `now` is `time.Now().Unix()`.  The function also sorts the slice of the
caller, which is not modelled. -/
def fromPatches (o : TOracle) (now : Int) (ps : List TPatch) : TDoc :=
  let st := (o.sortPatches ps).foldl tStep ([], [])
  (o.order st.2).foldl (tClose now) st.1

end Verif
