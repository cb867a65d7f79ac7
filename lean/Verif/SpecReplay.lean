import Verif.SpecLog
import Verif.SpecDoc
import Verif.SpecApply
import Verif.SpecCompact
/-
Small specifications used in the statements about snapshots.
-/
namespace Verif

/-- A call made by the program on the logument itself, as opposed to outside changes of documents. -/
def Call.own : Call → Bool
  | .environment _ => false
  | _ => true

/-- Reached from a new logument of the given document, possibly with outside changes of documents. -/
def ReachableFrom (doc : Tson) (s : St) : Prop :=
  ∃ h ia cs, s = run (newLogument h doc ia).1 cs

/-- Reached from a new logument of the given document by calls on the logument only. -/
def OwnReachable (doc : Tson) (s : St) : Prop :=
  ∃ h ia cs, (∀ c ∈ cs, c.own = true) ∧ s = run (newLogument h doc ia).1 cs

/-- The operations recorded for versions `1..v`, in order. -/
def opsUpTo (g : Lgm) (v : Nat) : List Op :=
  (List.range' 1 v).flatMap fun i => match mget g.patches i with | some p => p | none => []

/-- A logument grown from `doc` by `Store`, `Append` and read-only queries, with snapshots
requested only in ascending order of versions and never for a version with an empty patch; `w` is the
newest snapshot taken. -/
inductive Grown (doc : Tson) : St → Nat → Prop
  | new (h ia) : Grown doc (newLogument h doc ia).1 0
  | store (s w a) : Grown doc s w → Grown doc (step s (.store a)).1 w
  | append (s w) : Grown doc s w → Grown doc (step s .append).1 w
  | temporalTrack (s w ti tj) : Grown doc s w → Grown doc (step s (.temporalTrack ti tj)).1 w
  | snapshot (s w v) : Grown doc s w → w ≤ v → v = w ∨ mget s.lgm.patches v ≠ some [] →
      (step s (.snapshot v)).2.isOk = true → Grown doc (step s (.snapshot v)).1 v

/-- The calls that never apply an operation to a document. -/
def Call.passive : Call → Bool
  | .store _ | .append | .track _ _ | .temporalTrack _ _ | .compact _ | .history _ _ => true
  | _ => false

/-- A plain operation: an add or replace of a string, number or boolean, or a remove without value, on a path
without array indices. -/
def SimpleOp (o : Op) : Prop :=
  (((o.kind = .add ∨ o.kind = .replace) ∧ ∃ p, Writes o.value p) ∨ (o.kind = .remove ∧ o.value = .nil)) ∧
  ∀ seg ∈ writeParts o.path, atoi seg = none

/-- Neither key sequence is a prefix of the other. -/
def Independent (ps qs : List Bytes) : Prop := ¬ ps <+: qs ∧ ¬ qs <+: ps

/-- A log of plain operations whose paths are pairwise equal or independent. -/
def SimpleLog (l : List Op) : Prop :=
  (∀ o ∈ l, SimpleOp o) ∧
  ∀ o ∈ l, ∀ o' ∈ l, o.path = o'.path ∨ Independent (writeParts o.path) (writeParts o'.path)

/-- Two outcomes agree: both succeed with the same values, or both fail. -/
def SameOut (r r' : Res Tson) : Prop :=
  r.isOk = r'.isOk ∧ ∀ t u, r = .ok t → r' = .ok u → SameVals t u

/-- One operation per path: among the operations up to time `t`, one with the latest timestamp on its path. -/
structure LatestPerPath (t : Int) (ops sel : List Op) : Prop where
  latest : ∀ o ∈ sel, o ∈ ops ∧ o.ts ≤ t ∧ ∀ o' ∈ ops, o'.path = o.path → o'.ts ≤ t → o'.ts ≤ o.ts
  cover : ∀ o ∈ ops, o.ts ≤ t → ∃ o' ∈ sel, o'.path = o.path
  once : (sel.map Op.path).Nodup

/-- `r` is the newest timestamp in the snapshot of version `v`. -/
def StoredTime (s : St) (v : Nat) (r : Int) : Prop :=
  ∃ t, s.heap.view (s.lgm.snap v) = some t ∧ NewestTime t r

/-- `v` has a stored snapshot. -/
def Stored (g : Lgm) (v : Nat) : Prop := ∃ d, mget g.snaps v = some d

/-- The version `TemporalSnapshot(t)` starts from: the last stored version before the first stored version whose
snapshot has something newer than `t`; the first version if there is no such version. -/
def BaseVersion (s : St) (t : Int) (v : Nat) : Prop :=
  (Stored s.lgm v ∧ (∀ x, Stored s.lgm x → x ≤ v → ∃ r, StoredTime s x r ∧ r ≤ t) ∧
    ∀ x, Stored s.lgm x → v < x → ∃ y r, Stored s.lgm y ∧ v < y ∧ y ≤ x ∧ StoredTime s y r ∧ t < r) ∨
  (s.lgm.version.head? = some v ∧
    ∀ x, Stored s.lgm x → ∃ y r, Stored s.lgm y ∧ y ≤ x ∧ StoredTime s y r ∧ t < r)

end Verif
