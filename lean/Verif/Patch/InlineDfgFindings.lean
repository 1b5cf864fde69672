import Verif.Patch.InlineDfgProps

/-!
# C53: Hugrs that inlining a DFG node makes invalid
-/
namespace Verif.Patch

open Verif.Graph Verif.Ops Verif.Passes Verif.Validate Verif.Dataflow

/-- Inlining `d` succeeds and makes something invalid of the valid Hugr `h`. -/
def Breaks (C : Validate.Context) (h : Hugr Ops.Op String) (d : Nat) : Prop :=
  IsTree h ∧ Valid C h ∧ ∃ g, inlineDfg h d = .ok g ∧ ¬ Valid C g

/-- The result of inlining is not accepted by the validation. -/
def brokenBy (C : Validate.Context) (h : Hugr Ops.Op String) (d : Nat) : Bool :=
  match inlineDfg h d with
  | .ok g => match validate C g with
    | .ok => false
    | _ => true
  | _ => false

theorem breaks_of {C : Validate.Context} {h : Hugr Ops.Op String} {d p : Nat}
    (hok : IsTree h ∧ LinksOk h) (hv : validate C h = .ok) (hp : h.hier.parent d = some p)
    {sig : Types.Signature} (hop : h.ops d = .dfg sig) (hde : d ≠ h.entrypoint)
    (hb : brokenBy C h d = true) : Breaks C h d := by
  have hv := (C47_validate_iff_partial _ _ hok.1 hok.2).1 hv
  obtain ⟨i, o, rest, g, _, hg, ht, _⟩ := C51_inline hok.1 hv hp hop hde
  refine ⟨hok.1, hv, g, hg, fun hvg => ?_⟩
  have := (C47_validate_iff_partial _ _ ht (valid_linksOk ht hvg)).2 hvg
  unfold brokenBy at hb
  rw [hg] at hb
  simp only [this] at hb
  cases hb

/-- The DFG node 4 contains another (7), which uses the input of the function. The order that this
needs is given by a link from the input to 4. -/
def lostOrderHistory : List (Cmd Ops.Op String) :=
  [ .addNodeWithParent 1 0 (.funcDefn "f" ⟨[], ⟨[bool], [bool]⟩⟩),
    .addNodeWithParent 2 1 (.input [bool]), .addNodeWithParent 3 1 (.output [bool]),
    .addNodeWithParent 4 1 (.dfg ⟨[], [bool]⟩),
    .addNodeWithParent 5 4 (.input []), .addNodeWithParent 6 4 (.output [bool]),
    .addNodeWithParent 7 4 (.dfg ⟨[], [bool]⟩),
    .addNodeWithParent 8 7 (.input []), .addNodeWithParent 9 7 (.output [bool]),
    .connect ⟨2, 0, 9, 0⟩, .connect ⟨2, 1, 4, 0⟩, .connect ⟨7, 0, 6, 0⟩, .connect ⟨4, 0, 3, 0⟩ ]

/-- **C53, finding** Inlining a DFG node can make a valid Hugr invalid: the order link to the DFG node
goes only to the successors of its input, so that a use of an outer value deeper inside is left without
the order link that validation asks for. -/
theorem C53_lost_order_refuted : Breaks anaContext (built lostOrderHistory) 4 :=
  breaks_of (built_ok _ (by decide +kernel) (by decide +kernel)) (by decide +kernel) (p := 1)
    (by decide +kernel) (sig := ⟨[], [bool]⟩) rfl (by decide +kernel) (by decide +kernel)

/-- The DFG node 4 is ordered after the node 10. A DFG node inside (7) uses the input of 4. -/
def deepUseHistory : List (Cmd Ops.Op String) :=
  [ .addNodeWithParent 1 0 (.funcDefn "f" ⟨[], ⟨[bool], [bool]⟩⟩),
    .addNodeWithParent 2 1 (.input [bool]), .addNodeWithParent 3 1 (.output [bool]),
    .addNodeWithParent 4 1 (.dfg ⟨[bool], [bool]⟩),
    .addNodeWithParent 5 4 (.input [bool]), .addNodeWithParent 6 4 (.output [bool]),
    .addNodeWithParent 7 4 (.dfg ⟨[], [bool]⟩),
    .addNodeWithParent 8 7 (.input []), .addNodeWithParent 9 7 (.output [bool]),
    .addNodeWithParent 10 1 (.tag 0 [[], []]),
    .connect ⟨2, 0, 4, 0⟩, .connect ⟨5, 0, 9, 0⟩, .connect ⟨5, 1, 7, 0⟩, .connect ⟨7, 0, 6, 0⟩,
    .connect ⟨4, 0, 3, 0⟩, .connect ⟨10, 1, 4, 1⟩ ]

/-- **C53, finding** Inlining a DFG node can make a valid Hugr invalid: what is ordered before the DFG
node is linked to every use of an input, even to one inside a nested graph, and an order link may not
lead into a nested graph. -/
theorem C53_deep_use_refuted : Breaks anaContext (built deepUseHistory) 4 :=
  breaks_of (built_ok _ (by decide +kernel) (by decide +kernel)) (by decide +kernel) (p := 1)
    (by decide +kernel) (sig := ⟨[bool], [bool]⟩) rfl (by decide +kernel) (by decide +kernel)

/-- The DFG node 7 inside another (4) gets the input of the function. The node 10 in it is ordered after
its input. -/
def outerInputHistory : List (Cmd Ops.Op String) :=
  [ .addNodeWithParent 1 0 (.funcDefn "f" ⟨[], ⟨[bool], [bool]⟩⟩),
    .addNodeWithParent 2 1 (.input [bool]), .addNodeWithParent 3 1 (.output [bool]),
    .addNodeWithParent 4 1 (.dfg ⟨[], [bool]⟩),
    .addNodeWithParent 5 4 (.input []), .addNodeWithParent 6 4 (.output [bool]),
    .addNodeWithParent 7 4 (.dfg ⟨[bool], [bool]⟩),
    .addNodeWithParent 8 7 (.input [bool]), .addNodeWithParent 9 7 (.output [bool]),
    .addNodeWithParent 10 7 (.tag 0 [[], []]),
    .connect ⟨2, 0, 7, 0⟩, .connect ⟨2, 1, 4, 0⟩, .connect ⟨8, 0, 9, 0⟩, .connect ⟨8, 1, 10, 0⟩,
    .connect ⟨7, 0, 6, 0⟩, .connect ⟨4, 0, 3, 0⟩ ]

/-- **C53, finding** Inlining a DFG node can make a valid Hugr invalid: what is ordered after the input
of the DFG node is linked from the source of every input, even from one in an outer graph, and an order
link may not come from an outer graph. -/
theorem C53_outer_input_refuted : Breaks anaContext (built outerInputHistory) 7 :=
  breaks_of (built_ok _ (by decide +kernel) (by decide +kernel)) (by decide +kernel) (p := 4)
    (by decide +kernel) (sig := ⟨[bool], [bool]⟩) rfl (by decide +kernel) (by decide +kernel)

/-- The error of the validation. -/
def brokenHow (C : Validate.Context) (h : Hugr Ops.Op String) (d : Nat) : Option VError :=
  match inlineDfg h d with
  | .ok g => match validate C g with
    | .error e => some e
    | _ => none
  | _ => none

/-- This is what validation says of the three results. -/
example : brokenHow anaContext (built lostOrderHistory) 4 = some (.missingOrderEdge ⟨2, 0, 9, 0⟩ 7) ∧
    brokenHow anaContext (built deepUseHistory) 4 = some (.nonCopyableData ⟨10, 1, 9, 1⟩) ∧
    brokenHow anaContext (built outerInputHistory) 7 = some (.nonCopyableData ⟨2, 1, 10, 0⟩) := by decide +kernel

end Verif.Patch
