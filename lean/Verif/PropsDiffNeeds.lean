import Verif.PropsDiffApply
/-
C31: the hypotheses of `C31_stripped_partial` are needed, also with stripped paths.
-/
namespace Verif

/-- C31 fails for containers inside arrays: an operation for a member of an element replaces the whole element. -/
theorem C31_nested_fails :
    generatePatch (.obj [(b!"a", .arr [.obj [(b!"k", .leaf (.bool true) 1), (b!"l", .leaf (.bool true) 1)]])])
        (.obj [(b!"a", .arr [.obj [(b!"k", .leaf (.bool false) 2), (b!"l", .leaf (.bool true) 1)]])]) =
      .ok [⟨.replace, b!"/a/0/k", .bool false, 2⟩] ∧
    patchDoc (.obj [(b!"a", .arr [.obj [(b!"k", .leaf (.bool true) 1), (b!"l", .leaf (.bool true) 1)]])])
        ([⟨.replace, b!"/a/0/k", .bool false, 2⟩].map stripSlash) =
      .ok (.obj [(b!"a", .arr [.leaf (.bool false) 2])]) := by decide

/-- The same for arrays inside arrays. -/
theorem C31_nested_array_fails :
    generatePatch (.obj [(b!"a", .arr [.arr [.leaf (.bool true) 1, .leaf (.bool true) 1]])])
        (.obj [(b!"a", .arr [.arr [.leaf (.bool false) 2, .leaf (.bool true) 1]])]) =
      .ok [⟨.replace, b!"/a/0/0", .bool false, 2⟩] ∧
    patchDoc (.obj [(b!"a", .arr [.arr [.leaf (.bool true) 1, .leaf (.bool true) 1]])])
        ([⟨.replace, b!"/a/0/0", .bool false, 2⟩].map stripSlash) =
      .ok (.obj [(b!"a", .arr [.leaf (.bool false) 2])]) := by decide

/-- C31 fails for names with a dot: the path is cut at the dot when it is applied. -/
theorem C31_dot_fails :
    generatePatch (.obj [(b!"a.b", .leaf (.bool true) 1)]) (.obj [(b!"a.b", .leaf (.bool false) 2)]) =
      .ok [⟨.replace, b!"/a.b", .bool false, 2⟩] ∧
    patchDoc (.obj [(b!"a.b", .leaf (.bool true) 1)]) ([⟨.replace, b!"/a.b", .bool false, 2⟩].map stripSlash) =
      .ok (.obj [(b!"a.b", .leaf (.bool true) 1), (b!"a", .obj [(b!"b", .leaf (.bool false) 2)])]) := by decide

/-- C31 fails for names with a slash: its escape is undone before the path is cut. -/
theorem C31_slash_fails :
    generatePatch (.obj [(b!"a/b", .leaf (.bool true) 1)]) (.obj [(b!"a/b", .leaf (.bool false) 2)]) =
      .ok [⟨.replace, b!"/a~1b", .bool false, 2⟩] ∧
    patchDoc (.obj [(b!"a/b", .leaf (.bool true) 1)]) ([⟨.replace, b!"/a~1b", .bool false, 2⟩].map stripSlash) =
      .ok (.obj [(b!"a/b", .leaf (.bool true) 1), (b!"a", .obj [(b!"b", .leaf (.bool false) 2)])]) := by decide

end Verif
