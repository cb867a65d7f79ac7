import Verif.PatchMem
/-
C95: which arrays of operations belong to a logument, and what a caller has to keep off.
-/
namespace Verif

/-- A slice lies within an array. -/
structure Sl.Ok (A : Arrs) (s : Sl) : Prop where
  lt : s.addr < A.length
  len : s.len ≤ s.cap
  room : s.off + s.cap ≤ (A.arr s.addr).length

/-- Every slice of the logument lies within an array of its own. -/
structure Own (A : Arrs) (ps : List (Nat × Sl)) (pool : Option Sl) : Prop where
  keys : (mkeys ps).Nodup
  ok : ∀ v s, mget ps v = some s → s.Ok A
  poolOk : ∀ p, pool = some p → p.Ok A
  apart : ∀ v w s t, mget ps v = some s → mget ps w = some t → s.addr = t.addr → v = w
  poolApart : ∀ v s p, mget ps v = some s → pool = some p → s.addr ≠ p.addr

/-- The caller's slice is not one of the logument's arrays. -/
def Sl.Apart (m : MSt) (s : Sl) : Prop :=
  s.Ok m.arrs ∧ (∀ v t, mget m.log.patches v = some t → s.addr ≠ t.addr) ∧
    ∀ t, m.log.pool = some t → s.addr ≠ t.addr

/-- The caller gives the logument no array the logument already has, and does not write to the arrays of the
logument. -/
def Careful (m : MSt) : MCall → Prop
  | .store (.patch (some s)) _ => s.Apart m
  | .store (.ops (some s)) _ => s.Apart m
  | .caller B => m.arrs.length ≤ B.length ∧
      (∀ v s, mget m.log.patches v = some s → B.arr s.addr = m.arrs.arr s.addr) ∧
      ∀ s, m.log.pool = some s → B.arr s.addr = m.arrs.arr s.addr
  | _ => True

/-- The invariant: every slice in an array of its own. -/
def MSt.Own (m : MSt) : Prop := Verif.Own m.arrs m.log.patches m.log.pool

/-- The call with the operations its slices show; what the caller does to its own arrays is no call. -/
def MCall.load (A : Arrs) : MCall → Option Call
  | .store a _ => some (.store (a.load A))
  | .append => some .append
  | .set vk op _ => some (.set vk op)
  | .testSet vk op _ => some (.testSet vk op)
  | .snapshot v => some (.snapshot v)
  | .temporalSnapshot o t => some (.temporalSnapshot o t)
  | .slice vi vj => some (.slice vi vj)
  | .temporalSlice o ti tj => some (.temporalSlice o ti tj)
  | .track vi vj => some (.track vi vj)
  | .temporalTrack ti tj => some (.temporalTrack ti tj)
  | .compact pre => some (.compact pre)
  | .history o pre => some (.history o pre)
  | .caller _ => none

/-- The history is careful at every call. -/
def CarefulRun (m : MSt) : List MCall → Prop
  | [] => True
  | c :: cs => Careful m c ∧ CarefulRun (mstep m c).1 cs

/-- The calls of a history, with the operations their slices show when the call is made. -/
def mcalls (m : MSt) : List MCall → List Call
  | [] => []
  | c :: cs => (c.load m.arrs).toList ++ mcalls (mstep m c).1 cs

/-- What the calls of a history hand back, with the operations the slices show at that moment. -/
def mouts (m : MSt) : List MCall → List (Res Ret)
  | [] => []
  | c :: cs =>
    ((c.load m.arrs).toList.map fun _ => (mstep m c).2.map (MRet.load (mstep m c).1.arrs)) ++ mouts (mstep m c).1 cs

/-- What the calls of a history hand back, with patches as values. -/
def vouts (s : St) : List Call → List (Res Ret)
  | [] => []
  | c :: cs => (step s c).2 :: vouts (step s c).1 cs

/-- The array is the logument's: a version or the pool lies in it. -/
def MSt.Holds (m : MSt) (a : Nat) : Prop :=
  (∃ v s, mget m.log.patches v = some s ∧ s.addr = a) ∨ ∃ s, m.log.pool = some s ∧ s.addr = a

/-- The call hands the array to the logument, or the caller changes it. -/
def MCall.Touches (A : Arrs) (a : Nat) : MCall → Prop
  | .store (.patch (some s)) _ => s.addr = a
  | .store (.ops (some s)) _ => s.addr = a
  | .caller B => B.length ≤ a ∨ B.arr a ≠ A.arr a
  | _ => False

/-- The history hands the array to the logument, or the caller changes it. -/
def TouchedIn (a : Nat) (m : MSt) : List MCall → Prop
  | [] => False
  | c :: cs => c.Touches m.arrs a ∨ TouchedIn a (mstep m c).1 cs

end Verif
