import Verif.Validate.Errors

/-!
# Validation: rejected Hugrs and findings
-/
namespace Verif.Validate

open Verif.Graph Verif.Ops Verif.Types Verif.Passes

set_option maxRecDepth 8000

/-- The type of the polymorphic function of `validHistory`. -/
def fSig : PolyFunc := ⟨[.runtimeType .linear], ⟨[.variable 0 .linear], [.variable 0 .linear]⟩⟩

/-- Changes of `validHistory` that break one rule, with the error that validation gives. -/
def rejected : List (List (Cmd Ops.Op String) × VError) :=
  [
    -- a port too many
    ([.setNumPorts 4 3 2],
      .wrongNumberOfPorts 4 .incoming 3 2),
    -- a qubit without a source, one that is not used, one that is used twice
    ([.disconnect 3 .incoming 0],
      .unconnectedPort 3 .incoming 0),
    ([.replaceOp 10 (.input [qubit]), .disconnect 10 .outgoing 0],
      .unconnectedPort 10 .outgoing 0),
    ([.connect ⟨2, 0, 7, 0⟩],
      .tooManyConnections 2 .outgoing 0),
    -- a constant with two sources
    ([.addNodeWithParent 31 0 (.const bool), .connect ⟨31, 0, 30, 0⟩],
      .tooManyConnections 30 .incoming 0),
    -- an input in a module
    ([.addNodeWithParent 31 0 (.input [])],
      .invalidParentOp 31 0),
    -- an output before the input
    ([.moveBeforeSibling 6 5],
      .invalidInitialChild 4 true),
    ([.moveAfterSibling 6 7],
      .invalidInitialChild 4 false),
    -- the wrong number of cases
    ([.addNodeWithParent 31 8 (.case ⟨[qubit], [qubit]⟩)],
      .conditionalSum 8),
    -- a case, an input and an exit of the wrong type
    ([.replaceOp 12 (.case ⟨[qubit], [bool]⟩)],
      .caseSignature 8 12),
    ([.replaceOp 5 (.input [bool])],
      .ioSignature 4 5),
    ([.replaceOp 17 (.exitBlock [bool])],
      .ioSignature 15 17),
    -- a second exit, a second input
    ([.addNodeWithParent 31 15 (.exitBlock [qubit])],
      .internalExit 15 31),
    ([.addNodeWithParent 31 4 (.input [])],
      .internalIO 4 31),
    -- two public functions of the same name
    ([.replaceOp 27 (.funcDecl "main" fSig)],
      .duplicateExport 1 27),
    -- a block that passes something else
    ([.replaceOp 18 (.dataflowBlock [bool] [qubit] [[]])],
      .cfgEdge 15 ⟨16, 0, 18, 0⟩),
    -- children where there may be none, and none where there must be some
    ([.addNodeWithParent 31 3 (.input [])],
      .nonContainerWithChildren 3),
    ([.addNodeWithParent 31 1 (.dfg ⟨[], []⟩)],
      .containerWithoutChildren 31),
    -- a cycle
    ([.connect ⟨8, 1, 4, 1⟩],
      .notADag 1),
    -- a qubit taken from outside, a value taken from a place that does not come before
    ([.disconnect 7 .incoming 0, .disconnect 2 .outgoing 0, .connect ⟨2, 0, 7, 0⟩],
      .nonCopyableData ⟨2, 0, 7, 0⟩),
    ([.disconnect 4 .incoming 1],
      .missingOrderEdge ⟨2, 1, 7, 1⟩ 4),
    ([.disconnect 8 .incoming 0, .addNodeWithParent 31 4 (.tag 1 [[], []]), .connect ⟨31, 0, 8, 0⟩],
      .noRelation ⟨31, 0, 8, 0⟩),
    ([.disconnect 26 .incoming 1, .addNodeWithParent 31 9 (.tag 1 [[], []]), .addNodeWithParent 32 12 (.extensionOp "q" "cx" [] ⟨[qubit, bool], [qubit]⟩), .disconnect 14 .incoming 0, .connect ⟨13, 0, 32, 0⟩, .connect ⟨32, 0, 14, 0⟩, .connect ⟨22, 0, 26, 1⟩, .connect ⟨31, 0, 32, 1⟩],
      .nonCfgAncestor ⟨31, 0, 32, 1⟩),
    -- a block that is not dominated
    ([.disconnect 26 .incoming 1, .addNodeWithParent 31 18 (.tag 1 [[], []]), .addNodeWithParent 32 16 (.extensionOp "q" "cx" [] ⟨[qubit, bool], [qubit]⟩), .disconnect 20 .incoming 1, .connect ⟨19, 0, 32, 0⟩, .connect ⟨32, 0, 20, 1⟩, .connect ⟨22, 0, 26, 1⟩, .connect ⟨31, 0, 32, 1⟩],
      .nonDominatedAncestor ⟨31, 0, 32, 1⟩ 16),
    -- an operation that is not defined, a constant of the wrong type
    ([.replaceOp 7 (.extensionOp "q" "cy" [] ⟨[qubit, bool], [qubit]⟩)],
      .signature 7),
    -- an entrypoint that is no container
    ([.setEntrypoint 7],
      .entrypointNotContainer 7) ]

/-- The hypotheses of `C47_error_true` can be met, with every kind of error that a tree can have. -/
example : ∀ r ∈ rejected, verdict (validHistory ++ r.1) = .error r.2 := by decide +kernel

example : validate { exContext with constOk := fun _ => false } (built validHistory) =
      .error (.constType 29) ∧
    verdict (validHistory ++ [.disconnect 28 .incoming 0, .disconnect 15 .outgoing 0,
      .connect ⟨2, 1, 28, 0⟩, .connect ⟨15, 0, 8, 0⟩]) ≠ .ok := by
  decide +kernel

/-! ## Findings -/

/-- **C47** Finding: the specification (specification/hugr.md:161) asks for exactly one edge at every
incoming port that is not a control-flow port. A call with two functions is accepted:
`incoming_is_unique` covers values and constants but not functions. -/
theorem C47_two_functions_refuted :
    ∃ h : Hugr Ops.Op String, IsTree h ∧ LinksOk h ∧ validate exContext h = .ok ∧
      ∃ n port pf, h.live n = true ∧ ((h.ops n).ports .incoming)[port]? = some (.function pf) ∧
        linksTo h n port = [⟨27, 0, n, port⟩, ⟨31, 0, n, port⟩] := by
  let cmds := validHistory ++ [.addNodeWithParent 31 0 (.funcDecl "g" fSig), .connect ⟨31, 0, 28, 1⟩]
  obtain ⟨h1, h2⟩ := built_ok cmds (by decide +kernel) (by decide +kernel)
  exact ⟨built cmds, h1, h2, by decide +kernel, 28, 1, fSig, by decide +kernel, by decide +kernel,
    by decide +kernel⟩

/-- **C47** Finding: a call may use type variables that nobody declares, if the function does not use
its parameter: `Call::validate` compares the instantiated type and does not look at the arguments. -/
theorem C47_undeclared_variable_refuted :
    ∃ h : Hugr Ops.Op String, IsTree h ∧ LinksOk h ∧ validate exContext h = .ok ∧
      ∃ n sig args inst decls, h.live n = true ∧ h.ops n = .call sig args inst ∧
        DeclsAt h n decls ∧ validateTerms exContext.types decls args = false := by
  let cmds := validHistory ++
    [.addNodeWithParent 31 0 (.funcDecl "g" ⟨[.runtimeType .linear], ⟨[], []⟩⟩),
     .addNodeWithParent 32 1 (.call ⟨[.runtimeType .linear], ⟨[], []⟩⟩
        [.runtime (.variable 7 .linear)] ⟨[], []⟩), .connect ⟨31, 0, 32, 0⟩]
  obtain ⟨h1, h2⟩ := built_ok cmds (by decide +kernel) (by decide +kernel)
  have hp : (built cmds).hier.parent 32 = some 1 := by decide +kernel
  have hd : DeclsAt (built cmds) 32 [] := .inside hp rfl
  exact ⟨built cmds, h1, h2, by decide +kernel, 32, _, _, _, [], by decide +kernel, rfl, hd,
    by decide +kernel⟩

/-- **C47** Finding: a conditional with a child that is not a case makes validation panic, if the
conditional has the lower index: the children are checked before their own parents are. -/
theorem C47_conditional_panics :
    ∃ h : Hugr Ops.Op String, IsTree h ∧ LinksOk h ∧ validate exContext h = .panic ∧
      ¬ MayContain (h.ops 8) (h.ops 9) := by
  let cmds := validHistory ++ [.replaceOp 9 (.dfg ⟨[qubit], [qubit]⟩)]
  obtain ⟨h1, h2⟩ := built_ok cmds (by decide +kernel) (by decide +kernel)
  refine ⟨built cmds, h1, h2, by decide +kernel, fun hm => ?_⟩
  have := (contains_iff _ _).2 hm
  revert this
  decide +kernel

/-- **C47** Finding: a dataflow graph or control-flow graph with only its first child makes
validation panic: both children are taken without a check that there are two. -/
theorem C47_one_child_panics :
    ∃ h : Hugr Ops.Op String, IsTree h ∧ LinksOk h ∧ validate exContext h = .panic ∧
      h.children 1 = [2] := by
  let cmds : List (Cmd Ops.Op String) := [.addNodeWithParent 1 0 (.funcDefn "main" ⟨[], ⟨[], []⟩⟩),
    .addNodeWithParent 2 1 (.input [])]
  obtain ⟨h1, h2⟩ := built_ok cmds (by decide +kernel) (by decide +kernel)
  exact ⟨built cmds, h1, h2, by decide +kernel, by decide +kernel⟩

/-- **C47** Finding: a constant in a control-flow graph, which is allowed there, that is linked to one
of the blocks makes validation panic: `validate_cfg_edge` expects blocks. -/
theorem C47_constant_in_cfg_panics :
    ∃ h : Hugr Ops.Op String, IsTree h ∧ LinksOk h ∧ validate exContext h = .panic ∧
      h.hier.parent 31 = some 15 ∧ ⟨31, 0, 18, 0⟩ ∈ h.links := by
  let cmds := validHistory ++ [.addNodeWithParent 31 15 (.const bool), .connect ⟨31, 0, 18, 0⟩]
  obtain ⟨h1, h2⟩ := built_ok cmds (by decide +kernel) (by decide +kernel)
  exact ⟨built cmds, h1, h2, by decide +kernel, by decide +kernel, by decide +kernel⟩

/-- **C47** Finding: a `Tag` operation whose tag is not one of its variants makes validation panic
instead of being reported. -/
theorem C47_invalid_tag_panics :
    ∃ h : Hugr Ops.Op String, IsTree h ∧ LinksOk h ∧ validate exContext h = .panic ∧
      (h.ops 21).tagOk = false := by
  let cmds := validHistory ++ [.replaceOp 21 (.tag 5 [[]])]
  obtain ⟨h1, h2⟩ := built_ok cmds (by decide +kernel) (by decide +kernel)
  exact ⟨built cmds, h1, h2, by decide +kernel, by decide +kernel⟩

end Verif.Validate
