import Verif.Patch.CopySpec
import Verif.Patch.InlineCall

/-!
# Specification: inlining a call

The call becomes a DFG node, which has a copy of the body of the function.
-/
namespace Verif.Patch

open Verif.Graph Verif.Ops Verif.Validate

variable {Meta : Type}

/-- `g` is `h` where the call `n`, which has `k` inputs, is a DFG node: it keeps its outputs, the links of
its inputs and of order, and no longer has a port for the function. Order comes right after the inputs. -/
structure Emptied (h : Hugr Ops.Op Meta) (n k : Nat) (sig : Types.Signature) (g : Hugr Ops.Op Meta) : Prop where
  op : g.ops n = .dfg sig
  ops : ∀ m, m ≠ n → g.ops m = h.ops m
  ports : g.ins n = k + 1
  ins : ∀ m, m ≠ n → g.ins m = h.ins m
  outs : g.outs = h.outs
  live : g.live = h.live
  cap : g.cap = h.cap
  hier : g.hier = h.hier
  metadata : g.metadata = h.metadata
  moduleRoot : g.moduleRoot = h.moduleRoot
  entrypoint : g.entrypoint = h.entrypoint
  links : g.links = (h.links.filter fun l => decide (l.dst ≠ n) || decide (l.dstPort < k)) ++
    (h.links.filter fun l => decide (l.dst = n) && decide (l.dstPort = k + 1)).map
      fun l => ⟨l.src, l.srcPort, n, k⟩

/-- `g` is `h` where the call `n` of `f` is replaced by a copy of the body of `f`. `nodes` are the nodes
inside `f`, and `μ a` is the copy of `a`. -/
def CallInlined (sub : Ops.Op → Option Ops.Op) (h : Hugr Ops.Op Meta) (n f k : Nat) (sig : Types.Signature)
    (nodes : List Nat) (μ : Nat → Nat) (g : Hugr Ops.Op Meta) : Prop :=
  ∃ h0, Emptied h n k sig h0 ∧ Copied sub h0 f n nodes μ g

end Verif.Patch
