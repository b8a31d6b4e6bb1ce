import Verif.Plan.Model
/-!
# Removing the outputs of modules that are gone (C146)

Paths below the directory of the sources or of the outputs are lists of parts, without the extension; no part has a
dot. `__root` stubs and the three kinds of output (`.tydb`, `.c`, `.h`) are treated alike by the code.
-/
namespace Verif.Plan.Prune

/-- What is known of a project: its name, if it is one of `special_projects`, and the sources. -/
structure Proj where
  name : Nat
  special : Bool
  srcs : List (List Nat)

/-- The output of the module of a source: `moduleNameFromFile` (Compile.hs:4647-4655) and `outBase` (Compile.hs:4503-4505). -/
def output (p : Proj) (names : List Nat) : List Nat := if p.special then names else p.name :: names

/-- `dropProjDir` (Compile.hs:4727-4730) -/
def dropProj (p : Proj) : List Nat → List Nat
  | [n] => [n]
  | n :: ns => if n = p.name then ns else n :: ns
  | [] => []

/-- `pruneMissingModuleOutputs` (Compile.hs:4682-4723): the outputs that stay. -/
def prune (p : Proj) (outs : List (List Nat)) : List (List Nat) := outs.filter fun o => dropProj p o ∈ p.srcs

/-- `pruneForCtx` (Compile.hs:4746-4754) for a source that was removed: the outputs that stay. -/
def pruneChanged (removed : List Nat) (outs : List (List Nat)) : List (List Nat) := outs.filter (· ≠ removed)

/-- No two parts at least of which the first is the name of the project. -/
def Plain (p : Proj) (names : List Nat) : Prop := ∀ n ns, names = n :: ns → ns ≠ [] → n ≠ p.name

theorem dropProj_output {p : Proj} {names : List Nat} (hn : names ≠ []) (h : p.special = true → Plain p names) :
    dropProj p (output p names) = names := by
  unfold output
  by_cases hs : p.special = true
  · rw [if_pos hs]
    match names, h hs with
    | [_], _ => rfl
    | n :: m :: ns, h =>
      rw [dropProj, if_neg (h n _ rfl (by simp))]
      · simp
  · rw [if_neg hs]
    match names, hn with
    | n :: ns, _ => rw [dropProj, if_pos rfl]; simp

/-- **C146.** The output of a module stays exactly if its source is there, unless the project is one of the special
ones and the source is in a directory of the project's name. -/
theorem C146_partial (p : Proj) (outs : List (List Nat)) (names : List Nat) (hn : names ≠ []) (h : p.special = true → Plain p names)
    (ho : output p names ∈ outs) : output p names ∈ prune p outs ↔ names ∈ p.srcs := by
  rw [prune, List.mem_filter, decide_eq_true_eq, dropProj_output hn h]
  exact and_iff_right ho

/-- In the project `base` the output of `src/base/x.act` is removed though the source is there. -/
theorem C146_refuted_special :
    let p : Proj := ⟨1, true, [[1, 2]]⟩
    output p [1, 2] ∉ prune p [output p [1, 2]] := by decide

/-- A file that is no module's output stays if its name is that of a source. -/
theorem C146_refuted_stray :
    let p : Proj := ⟨1, false, [[2]]⟩
    [2] ∈ prune p [[2]] ∧ ∀ names ∈ p.srcs, output p names ≠ [2] := by decide

/-- **C146.** In a special project, the incremental variant removes the output of the module and nothing else. -/
theorem C146_changed_partial (p : Proj) (hs : p.special = true) (outs : List (List Nat)) (removed o : List Nat) :
    o ∈ pruneChanged removed outs ↔ o ∈ outs ∧ o ≠ output p removed := by
  rw [pruneChanged, List.mem_filter, decide_eq_true_eq, output, if_pos hs]

/-- In any other project it never removes the output of the module, since it looks for it outside of the directory
that has the project's name. -/
theorem C146_refuted_kept (p : Proj) (hs : p.special = false) (outs : List (List Nat)) (removed : List Nat)
    (h : output p removed ∈ outs) : output p removed ∈ pruneChanged removed outs := by
  rw [pruneChanged, List.mem_filter, decide_eq_true_eq]
  refine ⟨h, fun he => ?_⟩
  have := congrArg List.length he
  simp [output, hs] at this

/-- And it may remove that of a module whose source is there: the source in a directory of the project's name was
removed. -/
theorem C146_refuted_other (p : Proj) (hs : p.special = false) (outs : List (List Nat)) (names : List Nat) :
    output p names ∉ pruneChanged (p.name :: names) outs := by
  simp [pruneChanged, output, hs]

example : Plain ⟨1, true, []⟩ [2, 1] ∧ Plain ⟨1, true, []⟩ [1] := by
  constructor <;> intro n ns h <;> cases h <;> simp

example : prune ⟨1, false, [[2], [1, 3]]⟩ [[1, 2], [1, 4], [1, 1, 3]] = [[1, 2], [1, 1, 3]] := by decide

end Verif.Plan.Prune
