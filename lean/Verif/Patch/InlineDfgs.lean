import Verif.Patch.InlineDfg

/-!
# Model of the pass that inlines DFG nodes

Source: `/repo/hugr-passes/src/inline_dfgs.rs`.
-/
namespace Verif.Patch

open Verif.Graph Verif.Ops

variable {Meta : Type}

/-- `OpType::is_dfg`, ops.rs:83-86. -/
def isDfg : Ops.Op → Bool
  | .dfg _ => true
  | _ => false

/-- One round of the loop, inline_dfgs.rs:33-43. An error of the rewrite is a panic. -/
def inlineOne (h : Hugr Ops.Op Meta) (d : Nat) : Option (Hugr Ops.Op Meta) :=
  match inlineDfg h d with
  | .ok g => some g
  | _ => none

/-- `InlineDFGsPass::run`, inline_dfgs.rs:26-45. `none` is a panic. -/
def inlineDfgs (h : Hugr Ops.Op Meta) : Option (Hugr Ops.Op Meta) :=
  each inlineOne h (((h.descendants h.entrypoint).drop 1).filter fun n => isDfg (h.ops n))

end Verif.Patch
