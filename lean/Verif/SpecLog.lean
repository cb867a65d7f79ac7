import Verif.Logument
/-
Small specifications used in the statements about version logs.
They are written in terms of what a user sees and do not use the helpers of the model.
-/
namespace Verif

/-- A state a program can reach: a new logument followed by any calls, including calls that
panicked and were recovered, and including outside changes of the documents. -/
def Reachable (s : St) : Prop :=
  ∃ h doc ia cs, s = run (newLogument h doc ia).1 cs

/-- Versions are numbered `0, 1, ..., n` without gaps, and exactly `1..n` have a recorded patch. -/
def GapFree (g : Lgm) (n : Nat) : Prop :=
  g.version = List.range (n + 1) ∧ ∀ v, (∃ p, mget g.patches v = some p) ↔ 1 ≤ v ∧ v ≤ n

/-- Everything recorded: the patches in version order, then the pool. -/
def recorded (g : Lgm) : List Op :=
  (g.version.flatMap fun v => match mget g.patches v with | some p => p | none => []) ++
    (match g.pool with | some p => p | none => [])

/-- The operations handed to `Store`, however they are packaged. -/
def StoreArg.operations : StoreArg → List Op
  | .text (.ok (some l)) => l
  | .text _ => []
  | .patch (some l) => l
  | .patch none => []
  | .patches ps => ps.flatten
  | .op o => [o]
  | .ops (some l) => l
  | .ops none => []
  | .other => []

/-- A document has, at `path`, a leaf with the same value of the same type. -/
def SameValueAt (doc : Tson) (path : Bytes) (value : GVal) : Prop :=
  (∃ a b ts, getValue doc path = .ok (.leaf (.str a) ts) ∧ value = .str b ∧ a = b) ∨
  (∃ a b ts, getValue doc path = .ok (.leaf (.num a) ts) ∧ value = .num b ∧ F64.feq a b = true) ∨
  (∃ a b ts, getValue doc path = .ok (.leaf (.bool a) ts) ∧ value = .bool b ∧ a = b)

/-- The document stored for the latest version. -/
def latestDoc (s : St) : Option Tson :=
  match s.lgm.version.getLast? with
  | none => none
  | some v =>
    match mget s.lgm.snaps v with
    | some d => s.heap.view d
    | none => some .null

/-- The operation `TestSet` should pass on: nothing if the latest document already has this value,
an `add` if the path is missing, the operation itself otherwise. -/
inductive TestSetPasses (s : St) (op : Op) : Option Op → Prop
  | ignored : op.kind ≠ .add → op.kind ≠ .replace → TestSetPasses s op none
  | add : op.kind = .add → TestSetPasses s op (some op)
  | same (doc) : op.kind = .replace → latestDoc s = some doc → SameValueAt doc op.path op.value →
      TestSetPasses s op none
  | missing (doc) : op.kind = .replace → latestDoc s = some doc → getValue doc op.path = .err →
      TestSetPasses s op (some { op with kind := .add })
  | changed (doc v) : op.kind = .replace → latestDoc s = some doc → getValue doc op.path = .ok v →
      ¬ SameValueAt doc op.path op.value → TestSetPasses s op (some op)

/-- The operations accepted by one successful call. -/
inductive Accepts (s : St) : Call → List Op → Prop
  | store (a) : Accepts s (.store a) a.operations
  | set (vk op) : op.kind = .add ∨ op.kind = .replace → Accepts s (.set vk op) [op]
  | setIgnored (vk op) : op.kind ≠ .add → op.kind ≠ .replace → Accepts s (.set vk op) []
  | testSet (vk op r) : TestSetPasses s op r → Accepts s (.testSet vk op) r.toList
  | append : Accepts s .append []
  | snapshot (v) : Accepts s (.snapshot v) []
  | slice (vi vj) : Accepts s (.slice vi vj) []
  | temporalTrack (ti tj) : Accepts s (.temporalTrack ti tj) []
  | environment (h) : Accepts s (.environment h) []

/-- The operations accepted over a call history: failing calls accept nothing. -/
inductive AcceptsAll : St → List Call → List Op → Prop
  | nil (s) : AcceptsAll s [] []
  | ok (s c cs r l l') : (step s c).2 = .ok r → Accepts s c l → AcceptsAll (step s c).1 cs l' →
      AcceptsAll s (c :: cs) (l ++ l')
  | fail (s c cs l') : (step s c).2.isOk = false → AcceptsAll (step s c).1 cs l' →
      AcceptsAll s (c :: cs) l'

/-- The calls that neither compact nor re-sort the log. -/
def Call.plain : Call → Bool
  | .store _ | .append | .set _ _ | .testSet _ _ | .snapshot _ | .slice _ _ | .temporalTrack _ _
  | .environment _ => true
  | _ => false

/-- `b` is the newest stored snapshot version not newer than `v`. -/
def IsBase (g : Lgm) (v b : Nat) : Prop :=
  (∃ d, mget g.snaps b = some d) ∧ b ≤ v ∧
    ∀ b' d, mget g.snaps b' = some d → b' ≤ v → b' ≤ b

end Verif
