import Verif.Text
import Verif.Basic
/-
The page of the demo (index.html:236-363): colouring of texts, and what the user can do on it.

Texts are lists of UTF-16 code units, as in JavaScript.  `JSON.parse` followed by `JSON.stringify(…, null, 2)` is a parameter: the
pretty text of a JSON text, none if the text is not JSON.  The server is a parameter, too.
-/
namespace Verif

/-- A text of JavaScript: its code units (index.html:239-261). -/
abbrev Units := List Nat

/-- An ASCII text as code units (literals of index.html:236-363). -/
def units (b : Bytes) : Units := b.map UInt8.toNat

/-! ### Colouring -/

/-- `s.replace(/c/g, r)` for a single unit (index.html:244-246). -/
def replUnit (c : Nat) (r : Units) (s : Units) : Units := s.flatMap fun x => if x = c then r else [x]

/-- The first part of `syntaxHighlight` (index.html:243-246). -/
def escapeHtml (s : Units) : Units :=
  replUnit 62 (units b!"&gt;") (replUnit 60 (units b!"&lt;") (replUnit 38 (units b!"&amp;") s))

/-- `[a-zA-Z0-9]` (index.html:248). -/
def alnumUnit (c : Nat) : Bool := (48 ≤ c && c ≤ 57) || (65 ≤ c && c ≤ 90) || (97 ≤ c && c ≤ 122)

/-- `\d` (index.html:248). -/
def digitUnit (c : Nat) : Bool := 48 ≤ c && c ≤ 57

/-- `\s`: white space and line ends (index.html:248). -/
def spaceUnit (c : Nat) : Bool :=
  (9 ≤ c && c ≤ 13) || c == 32 || c == 160 || c == 5760 || (8192 ≤ c && c ≤ 8202) || c == 8232 || c == 8233 || c == 8239 || c == 8287 ||
    c == 12288 || c == 65279

/-- `(\\u[a-zA-Z0-9]{2}|\\[^u]|[^"\\])*"`: the rest of a string after its opening quotation mark, with what follows it
(index.html:248).  The alternatives exclude each other, so nothing is tried twice. -/
def strRest : Units → Option (Units × Units)
  | [] => none
  | c :: r =>
    if c = 34 then some ([34], r)
    else if c = 92 then
      match r with
      | [] => none
      | d :: r =>
        if d = 117 then
          match r with
          | a :: b :: r => if alnumUnit a && alnumUnit b then (strRest r).map fun p => (92 :: 117 :: a :: b :: p.1, p.2) else none
          | _ => none
        else (strRest r).map fun p => (92 :: d :: p.1, p.2)
    else (strRest r).map fun p => (c :: p.1, p.2)

/-- `(\s*:)?` (index.html:248). -/
def colonRest (s : Units) : Units × Units :=
  match s.dropWhile spaceUnit with
  | [] => ([], s)
  | c :: r => if c = 58 then (s.takeWhile spaceUnit ++ [58], r) else ([], s)

/-- A fixed word (index.html:248). -/
def wordAt (w s : Units) : Option (Units × Units) := if w.isPrefixOf s then some (w, s.drop w.length) else none

/-- `\d+` (index.html:248). -/
def digitsAt (s : Units) : Option (Units × Units) :=
  if s.takeWhile digitUnit = [] then none else some (s.takeWhile digitUnit, s.dropWhile digitUnit)

/-- `(?:\.\d+)?` (index.html:248). -/
def fracAt (s : Units) : Units × Units :=
  match s with
  | [] => ([], s)
  | c :: r => if c = 46 then match digitsAt r with
    | some (d, r) => (46 :: d, r)
    | none => ([], s)
    else ([], s)

/-- `(?:[eE][+\-]?\d+)?` (index.html:248). -/
def expAt (s : Units) : Units × Units :=
  match s with
  | [] => ([], s)
  | c :: r =>
    if c = 101 ∨ c = 69 then
      match r with
      | [] => ([], s)
      | d :: r' =>
        if d = 43 ∨ d = 45 then match digitsAt r' with
          | some (n, r) => (c :: d :: n, r)
          | none => ([], s)
        else match digitsAt r with
          | some (n, r) => (c :: n, r)
          | none => ([], s)
    else ([], s)

/-- `-?\d+(?:\.\d+)?(?:[eE][+\-]?\d+)?` (index.html:248). -/
def numberAt (s : Units) : Option (Units × Units) :=
  let sg := if s.head? = some 45 then [45] else []
  match digitsAt (s.drop sg.length) with
  | none => none
  | some (d, r) => some (sg ++ d ++ (fracAt r).1 ++ (expAt (fracAt r).2).1, (expAt (fracAt r).2).2)

/-- The regular expression at one place: what it matches and what follows (index.html:248). -/
def tokenAt (s : Units) : Option (Units × Units) :=
  match s with
  | [] => none
  | c :: r =>
    if c = 34 then (strRest r).map fun p => (34 :: (p.1 ++ (colonRest p.2).1), (colonRest p.2).2)
    else ((wordAt (units b!"true") s).or (wordAt (units b!"false") s)).or ((wordAt (units b!"null") s).or (numberAt s))

/-- `/true|false/.test(match)` and the like (index.html:253-255). -/
def hasWord (w : Units) : Units → Bool
  | [] => w.isEmpty
  | c :: s => w.isPrefixOf (c :: s) || hasWord w s

/-- The class of a match (index.html:250-257). -/
def tokenClass (m : Units) : Units :=
  if m.head? = some 34 then (if m.getLast? = some 58 then units b!"key" else units b!"string")
  else if hasWord (units b!"true") m || hasWord (units b!"false") m then units b!"boolean"
  else if hasWord (units b!"null") m then units b!"null"
  else units b!"number"

/-- The replacement of a match (index.html:258). -/
def spanOf (m : Units) : Units := units b!"<span class=\"" ++ tokenClass m ++ units b!"\">" ++ m ++ units b!"</span>"

/-- `replace` with the regular expression and the flag `g` (index.html:247-260), for texts of at most `n` units. -/
def colour : Nat → Units → Units
  | 0, _ => []
  | _ + 1, [] => []
  | n + 1, c :: r =>
    match tokenAt (c :: r) with
    | some (m, s) => spanOf m ++ colour n s
    | none => c :: colour n r

/-- `syntaxHighlight` of a text (index.html:239-261); it is only called with strings. -/
def syntaxHighlight (s : Units) : Units := colour (escapeHtml s).length (escapeHtml s)

/-- `setCodeBlockContent` (index.html:264-274): the new `innerHTML`. -/
def blockHtml (pretty : Units → Option Units) (s : Units) : Units :=
  match pretty s with
  | some p => syntaxHighlight p
  | none => syntaxHighlight s

/-! ### What the browser shows -/

/-- What follows a given beginning. [part of the browser's reading of HTML, index.html:272, 320] -/
def after? (p s : Units) : Option Units := if p.isPrefixOf s then some (s.drop p.length) else none

/-- The classes that the page has colours for (index.html:250-257). -/
def classes : List Units := [units b!"key", units b!"string", units b!"boolean", units b!"null", units b!"number"]

/-- The opening tag of a coloured part (index.html:258). -/
def openTag (cls : Units) : Units := units b!"<span class=\"" ++ cls ++ units b!"\">"

/-- The text that a browser shows for a piece of HTML that consists of characters, the three character references and coloured parts that are not nested; none for any
other markup.  Simplifications: NUL and carriage returns, which browsers drop or change, stay as they are.
[`innerHTML` set at index.html:269, 272, `textContent` read at index.html:320] -/
def shown : Nat → Bool → Units → Option Units
  | 0, _, _ => none
  | _ + 1, inside, [] => if inside then none else some []
  | n + 1, inside, c :: r =>
    if c = 60 then
      if inside then (after? (units b!"</span>") (c :: r)).bind (shown n false)
      else (classes.findSome? fun k => after? (openTag k) (c :: r)).bind (shown n true)
    else if c = 38 then
      match after? (units b!"&amp;") (c :: r), after? (units b!"&lt;") (c :: r), after? (units b!"&gt;") (c :: r) with
      | some r, _, _ => (shown n inside r).map (38 :: ·)
      | _, some r, _ => (shown n inside r).map (60 :: ·)
      | _, _, some r => (shown n inside r).map (62 :: ·)
      | _, _, _ => none
    else (shown n inside r).map (c :: ·)

/-- `textContent` of an element with the given `innerHTML` (index.html:320). -/
def htmlText (h : Units) : Option Units := shown (h.length + 1) false h

/-! ### The page -/

/-- What the server answers (web_demo.go:74-111); it does not change while the page is open. -/
structure PageServer where
  /-- `/update?car=…` (index.html:279) -/
  vehicle : Nat → Units
  /-- `/update?car=…&patch=…` (index.html:288) -/
  patch : Nat → Nat → Units
  /-- `/patch?car=…&patch=…` (index.html:310) -/
  patched : Nat → Nat → Units

/-- The blocks that show answers of the server (index.html:179, 201, 217). -/
inductive Block where
  | view
  | patch
  | result
deriving DecidableEq, Repr

/-- The state of the page (index.html:163-233, 237, 315): the selected car and patch, whether the button says "Snapshot", the contents of
the blocks, the snapshots and the entries of their list, the one selected, and the requests not answered yet, with their answers. -/
structure Page where
  car : Nat
  patch : Nat
  isAppended : Bool
  view : Units
  patchView : Units
  result : Units
  snapshots : List (Bytes × Units)
  options : List Bytes
  selected : Option Bytes
  snapshotView : Units
  pending : List (Block × Units)

/-- What happens on the page: choosing a car (index.html:169), a patch (index.html:188), a snapshot (index.html:227), pressing the button
(index.html:211), and the arrival of an answer, in any order (index.html:279, 288, 310). -/
inductive PageEvent where
  | car (n : Nat)
  | patch (n : Nat)
  | snapshot (name : Bytes)
  | click
  | arrive (i : Nat)

/-- The name of a snapshot (index.html:321). -/
def savedName (car patch : Nat) : Bytes := b!"car_" ++ natDigits car ++ b!"_patch_" ++ natDigits (patch - 1) ++ b!" Snapshot"

/-- `updateSnapshotView` (index.html:337-343); an empty text counts as none. -/
def Page.updateSnapshotView (pretty : Units → Option Units) (p : Page) : Page :=
  match p.selected.bind (mget p.snapshots) with
  | some t => if t = [] then p else { p with snapshotView := blockHtml pretty t }
  | none => p

/-- `saveSnapshot` (index.html:317-335). -/
def Page.saveSnapshot (pretty : Units → Option Units) (p : Page) : Page :=
  let name := savedName p.car p.patch
  let t := (htmlText p.result).getD []
  { p with
    snapshots := mset p.snapshots name t
    options := if name ∈ p.options then p.options else p.options ++ [name]
    selected := some name }.updateSnapshotView pretty

/-- One event (index.html:277-302, 305-313, 345-356).  The functions with `Reset` in their names are called from nowhere. -/
def Page.step (srv : PageServer) (pretty : Units → Option Units) (p : Page) : PageEvent → Page
  | .car n => { p with car := n, pending := p.pending ++ [(.view, srv.vehicle n)] }
  | .patch n => { p with patch := n, pending := p.pending ++ [(.patch, srv.patch p.car n)] }
  | .snapshot name => { p with selected := some name }.updateSnapshotView pretty
  | .click =>
    if p.isAppended then { p.saveSnapshot pretty with isAppended := false }
    else { p with pending := p.pending ++ [(.result, srv.patched p.car p.patch)], isAppended := true }
  | .arrive i =>
    match p.pending[i]? with
    | none => p
    | some (.view, t) =>
      { p with view := blockHtml pretty t, pending := p.pending.eraseIdx i ++ [(.patch, srv.patch p.car p.patch)] }
    | some (.patch, t) => { p with patchView := blockHtml pretty t, pending := p.pending.eraseIdx i }
    | some (.result, t) => { p with result := blockHtml pretty t, pending := p.pending.eraseIdx i }

/-- The page after it is loaded (index.html:237, 315, 358-362). -/
def Page.start (srv : PageServer) : Page :=
  ⟨1, 2, false, [], [], [], [], [], none, [], [(.view, srv.vehicle 1), (.patch, srv.patch 1 2)]⟩

/-- A run of the page (index.html:236-363). -/
def Page.run (srv : PageServer) (pretty : Units → Option Units) (p : Page) (es : List PageEvent) : Page := es.foldl (Page.step srv pretty) p

end Verif
