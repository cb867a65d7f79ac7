import Verif.WebFs
import Verif.PropsWebFs
import Verif.PropsWebDemo
import Verif.PropsWebState
import Verif.PropsTsonJson
/-
C103: the page of the demo with its server and the generated files.
-/
namespace Verif

/-- The server as the page sees it (web_demo.go:74-112; index.html:279, 288, 310); `utf8` is the reading of an answer as text
(`res.text()`, index.html:280, 289, 311).  Simplification: a request whose handler panics gets no answer at all; here it is empty. -/
def demoServer (utf8 : Bytes → Units) (P : Nat → Bool) (root : FsNode) (cwd : List Bytes) : PageServer where
  vehicle c := utf8 (updateHandler root cwd (natDigits c) [])
  patch c p := utf8 (updateHandler root cwd (natDigits c) (natDigits p))
  patched c p := utf8 (match patchRequest P root cwd (natDigits c) (natDigits p) with
    | .ok b => b
    | _ => [])

/-- **C103, from the files to the page.**  With generated files of which the first data set and the patches can be read, a user who selects a
car and a patch, presses "Append", waits for the answer and presses "Snapshot" gets, under the name of this car and patch, the text of the
first data set with all operations of the patches up to the selected one applied one after another, exactly as the server writes it. -/
theorem C103_data_partial (utf8 : Bytes → Units) (pretty : Units → Option Units) (hpretty : ∀ b, ¬ IsJson b → pretty (utf8 b) = none)
    (P : Nat → Bool) {root : FsNode} {cwd : List Bytes} {info : Bytes} {cars : List (List (Bytes × Bytes))}
    (h : root.at? (cwd ++ [b!"dataset"]) = some (generatedDir info cars)) {i : Nat} {f : Bytes × Bytes} {files : List (Bytes × Bytes)}
    (hi : cars[i]? = some (f :: files)) (hi' : ((i + 1 : Nat) : Int) ≤ maxInt64) {n : Nat} (hn : n ≤ files.length)
    (hn' : ((n + 1 : Nat) : Int) ≤ maxInt64) {m : List (Bytes × Tson)} (hf : unmarshal f.1 = .ok (.obj m)) {ps : List (Option (List POp))}
    (hps : (files.take n).map (fun x => unmarshalPatch x.2) = ps.map .ok) (hne : allOps ps ≠ []) {t : Tson}
    (ht : replay (.obj m) (allOps ps) = .ok t) (hst : HasStamp t)
    (p : Page) (hcar : p.car = i + 1) (hpatch : p.patch = n + 1) (h0 : p.isAppended = false) (hp : ¬ p.awaits) (es : List PageEvent)
    (hes : ∀ e ∈ es, Waiting e)
    (hq : ¬ ((p.step (demoServer utf8 P root cwd) pretty .click).run (demoServer utf8 P root cwd) pretty es).awaits) :
    let r := p.run (demoServer utf8 P root cwd) pretty (.click :: es ++ [.click])
    (∀ name, mget r.snapshots name = if name = savedName (i + 1) (n + 1) then some (utf8 (marshalIndent P t [] b!"  ")) else mget p.snapshots name) ∧
      r.selected = some (savedName (i + 1) (n + 1)) := by
  intro r
  obtain ⟨g1, g2, -⟩ := C103_saved_partial (demoServer utf8 P root cwd) pretty p es h0 hp hes hq
  have e : (demoServer utf8 P root cwd).patched p.car p.patch = utf8 (marshalIndent P t [] b!"  ") := by
    rw [hcar, hpatch]
    simp only [demoServer]
    rw [C96_response P h hi hi' hn hn', C78_sequence P hf (ps := ps) (by rw [List.map_map]; exact hps) hne, ht]
  have e' : pretty (utf8 (marshalIndent P t [] b!"  ")) = none :=
    hpretty _ ((C104_not_json P hst).2 [] b!"  " .nil (.cons (by decide) (.cons (by decide) .nil))).1
  rw [e, e', hcar, hpatch] at g1
  rw [hcar, hpatch] at g2
  exact ⟨g1, g2⟩

/-- A car with a second data set, and the page with them selected. -/
example (P : Nat → Bool) (pretty : Units → Option Units) (hpretty : ∀ b, ¬ IsJson b → pretty (units b) = none) :
    let first := b!"{\"a\" <1>: true}"
    let patch := b!"[{\"op\": \"replace\", \"path\": \"a\", \"value\": false, \"timestamp\": 7}]"
    let srv := demoServer units P (.dir [(b!"dataset", generatedDir b!"{}" [[(first, first), (b!"{\"a\" <7>: false}", patch)]])]) []
    let r := Page.run srv pretty ⟨1, 2, false, [], [], [], [], [], none, [], []⟩ [.click, .arrive 0, .click]
    mget r.snapshots b!"car_1_patch_1 Snapshot" = some (units b!"{\n  \"a\" <7>: false\n}") := by
  intro first patch srv r
  have := (C103_data_partial units pretty hpretty P (root := .dir [(b!"dataset", generatedDir b!"{}" [[(first, first), (b!"{\"a\" <7>: false}", patch)]])])
    (cwd := []) (info := b!"{}") rfl (i := 0) rfl (by decide) (n := 1) (by decide) (by decide) (m := [(b!"a", .leaf (.bool true) 1)])
    (by decide +kernel) (ps := [some [⟨b!"replace", b!"a", .any (.bool false), 7⟩]]) (by rfl) (by decide)
    (t := .obj [(b!"a", .leaf (.bool false) 7)]) (by decide +kernel) (.member (.head _) (.leaf _ _))
    ⟨1, 2, false, [], [], [], [], [], none, [], []⟩ rfl rfl rfl (by rintro ⟨t, ht⟩; cases ht) [.arrive 0] (by intro e he; cases List.mem_singleton.1 he; trivial)
    (by rintro ⟨t, ht⟩; cases ht)).1 b!"car_1_patch_1 Snapshot"
  rw [if_pos (by decide)] at this
  exact this

end Verif
