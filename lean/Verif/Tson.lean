import Verif.F64
/-
TSON documents as trees, and the read-only operations on them
(internal/tson/tson.go).
-/
namespace Verif

/-- Payload of a leaf: the type parameter of `Leaf[T]` is `string`, `float64` or `bool`
(internal/tson/tson.go:41-47). -/
inductive Prim where
  | str (s : Bytes)
  | num (f : F64)
  | bool (b : Bool)
deriving DecidableEq, Repr

/-- A TSON document (internal/tson/tson.go:25-49): nil interface, `Leaf[T]` with its timestamp,
`Object` (a Go map, in iteration order) or `Array`.
Simplification: nil maps and nil slices are not distinguished from empty ones. -/
inductive Tson where
  | null
  | leaf (p : Prim) (ts : Int)
  | obj (m : List (Bytes × Tson))
  | arr (l : List Tson)
deriving Repr

instance : Inhabited Tson := ⟨.null⟩

mutual
/-- Decidable equality of documents (structural: includes the iteration order of objects).
[not in the code; documents of internal/tson/tson.go:25-49] -/
def Tson.decEq : (a b : Tson) → Decidable (a = b)
  | .null, .null => isTrue rfl
  | .leaf p t, .leaf q u =>
    if h : p = q ∧ t = u then isTrue (by rw [h.1, h.2]) else isFalse (by simpa using h)
  | .obj m, .obj n =>
    match Tson.decEqF m n with
    | isTrue h => isTrue (by rw [h])
    | isFalse h => isFalse (by simpa using h)
  | .arr m, .arr n =>
    match Tson.decEqL m n with
    | isTrue h => isTrue (by rw [h])
    | isFalse h => isFalse (by simpa using h)
  | .null, .leaf _ _ | .null, .obj _ | .null, .arr _
  | .leaf _ _, .null | .leaf _ _, .obj _ | .leaf _ _, .arr _
  | .obj _, .null | .obj _, .leaf _ _ | .obj _, .arr _
  | .arr _, .null | .arr _, .leaf _ _ | .arr _, .obj _ => isFalse (by simp)
/-- Decidable equality of member lists. [not in the code; members of internal/tson/tson.go:31] -/
def Tson.decEqF : (a b : List (Bytes × Tson)) → Decidable (a = b)
  | [], [] => isTrue rfl
  | [], _ :: _ => isFalse (by simp)
  | _ :: _, [] => isFalse (by simp)
  | (k, v) :: m, (k', v') :: n =>
    if hk : k = k' then
      match Tson.decEq v v' with
      | isFalse h => isFalse (by simp [h])
      | isTrue hv =>
        match Tson.decEqF m n with
        | isTrue h => isTrue (by rw [hk, hv, h])
        | isFalse h => isFalse (by simp [h])
    else isFalse (by simp [hk])
/-- Decidable equality of element lists. [not in the code; elements of internal/tson/tson.go:36] -/
def Tson.decEqL : (a b : List Tson) → Decidable (a = b)
  | [], [] => isTrue rfl
  | [], _ :: _ => isFalse (by simp)
  | _ :: _, [] => isFalse (by simp)
  | v :: m, v' :: n =>
    match Tson.decEq v v' with
    | isFalse h => isFalse (by simp [h])
    | isTrue hv =>
      match Tson.decEqL m n with
      | isTrue h => isTrue (by rw [hv, h])
      | isFalse h => isFalse (by simp [h])
end

instance : DecidableEq Tson := Tson.decEq

/-- `DefaultTimestamp` (internal/tson/tson.go:52). -/
def defaultTimestamp : Int := -1

/-- Element access `arr[index]` of a Go slice after the range check
`index < 0 || index >= len(arr)` (internal/tson/tson.go:74, 94). -/
def indexGo (l : List α) (i : Int) : Option α :=
  if i < 0 then none else l[i.toNat]?

/-- One step of `getValue` (internal/tson/tson.go:63-80 and 83-100): member of an object or
element of an array; `err` if the key is missing, the index is malformed or out of range,
or the document is neither an object nor an array. -/
def childOf (t : Tson) (part : Bytes) : Res Tson :=
  match t with
  | .obj m =>
    match mget m part with
    | some v => .ok v
    | none => .err
  | .arr l =>
    match atoi part with
    | none => .err
    | some i =>
      match indexGo l i with
      | some v => .ok v
      | none => .err
  | .leaf _ _ => .err
  | .null => .err

/-- The recursive closure `getValue` (internal/tson/tson.go:61-101).  With no part left the code
indexes `parts[0]`, a run-time panic, when the document is an object or an array. -/
def getParts (t : Tson) : List Bytes → Res Tson
  | [] =>
    match t with
    | .obj _ => .panic
    | .arr _ => .panic
    | _ => .err
  | part :: rest =>
    match childOf t part with
    | .ok v => if rest = [] then .ok v else getParts v rest
    | .err => .err
    | .panic => .panic

/-- `strings.Split(rfc6901Decoder.Replace(path), "/")[1:]` (internal/tson/tson.go:103-105). -/
def readParts (path : Bytes) : List Bytes := (split bSlash (decode path)).tail

/-- `tson.GetValue` (internal/tson/tson.go:59-108). -/
def getValue (t : Tson) (path : Bytes) : Res Tson := getParts t (readParts path)

/-- `updateMax` (internal/tson/tson.go:149-153). -/
def updateMax (mx ts : Int) : Int := if ts > mx then ts else mx

mutual
/-- `tson.GetLatestTimestamp` (internal/tson/tson.go:148-177); `none` is the panic on nil. -/
def getLatestTimestamp : Tson → Option Int
  | .leaf _ ts => some ts
  | .obj m => latestF 0 m
  | .arr l => latestL 0 l
  | .null => none
/-- The loop over an `Object` (internal/tson/tson.go:165-167) with running maximum `mx`. -/
def latestF (mx : Int) : List (Bytes × Tson) → Option Int
  | [] => some mx
  | (_, v) :: m =>
    match getLatestTimestamp v with
    | none => none
    | some ts => latestF (updateMax mx ts) m
/-- The loop over an `Array` (internal/tson/tson.go:169-171). -/
def latestL (mx : Int) : List Tson → Option Int
  | [] => some mx
  | v :: l =>
    match getLatestTimestamp v with
    | none => none
    | some ts => latestL (updateMax mx ts) l
end

/-! ### Well-formed documents -/

mutual
/-- Every object in the document has pairwise distinct keys (a Go map always has).
[maps of internal/tson/tson.go:31] -/
def Tson.Wf : Tson → Prop
  | .null => True
  | .leaf _ _ => True
  | .obj m => (mkeys m).Nodup ∧ Tson.WfF m
  | .arr l => Tson.WfL l
/-- All members are well-formed. [maps of internal/tson/tson.go:31] -/
def Tson.WfF : List (Bytes × Tson) → Prop
  | [] => True
  | (_, v) :: m => Tson.Wf v ∧ Tson.WfF m
/-- All elements are well-formed. [slices of internal/tson/tson.go:36] -/
def Tson.WfL : List Tson → Prop
  | [] => True
  | v :: l => Tson.Wf v ∧ Tson.WfL l
end

theorem Tson.wfF_iff (m : List (Bytes × Tson)) : Tson.WfF m ↔ ∀ p ∈ m, Tson.Wf p.2 := by
  induction m with
  | nil => simp [Tson.WfF]
  | cons p m ih => obtain ⟨k, v⟩ := p; simp only [Tson.WfF, ih, List.forall_mem_cons]

theorem Tson.wfL_iff (l : List Tson) : Tson.WfL l ↔ ∀ v ∈ l, Tson.Wf v := by
  induction l with
  | nil => simp [Tson.WfL]
  | cons v l ih => simp only [Tson.WfL, ih, List.forall_mem_cons]

/-- Induction principle for documents. -/
theorem Tson.induction {motive : Tson → Prop}
    (null : motive .null) (leaf : ∀ p ts, motive (.leaf p ts))
    (obj : ∀ m, (∀ p ∈ m, motive p.2) → motive (.obj m))
    (arr : ∀ l, (∀ v ∈ l, motive v) → motive (.arr l)) (t : Tson) : motive t :=
  Tson.rec (motive_1 := motive) (motive_2 := fun m => ∀ p ∈ m, motive p.2)
    (motive_3 := fun l => ∀ v ∈ l, motive v) (motive_4 := fun p => motive p.2)
    null leaf (fun m h => obj m h) (fun l h => arr l h)
    (by simp) (fun p m hp hm => List.forall_mem_cons.2 ⟨hp, hm⟩)
    (by simp) (fun v l hv hl => List.forall_mem_cons.2 ⟨hv, hl⟩) (fun _ _ h => h) t

theorem getParts_cons_ne {t : Tson} {p : Bytes} {rest : List Bytes} (h : rest ≠ []) :
    getParts t (p :: rest) = (childOf t p).bind fun v => getParts v rest := by
  simp only [getParts]
  cases childOf t p <;> simp [h]

theorem getParts_single {t : Tson} {p : Bytes} : getParts t [p] = childOf t p := by
  simp only [getParts]
  cases childOf t p <;> simp

end Verif
