import Verif.Patch.ValidLemmas
import Verif.Patch.Peel
import Verif.Dataflow.AnalysisSpec

/-!
# Specification: peeling a loop

The loop becomes a graph: the body of the loop, followed by a conditional that stops, or runs a copy of
the loop.
-/
namespace Verif.Patch

open Verif.Graph Verif.Ops Verif.Validate Verif.Dataflow

variable {Meta : Type}

/-- The nodes of a peeled loop: the loop with its input and output, and the new nodes. -/
structure PeelNodes extends PeelNew where
  n : Nat
  i : Nat
  o : Nat

/-- `g` is `h` where the loop `n`, with the types `ji` to go on, `jo` to stop and `rest`, is peeled.
`nodes` are the nodes inside the loop and `μ a` is the copy of `a`, or `a` if there is none. -/
structure LoopPeeled (h : Hugr Ops.Op Meta) (P : PeelNodes) (ji jo rest : List Types.Ty) (nodes : List Nat) (μ : Nat → Nat)
    (g : Hugr Ops.Op Meta) : Prop where
  mem : ∀ a, a ∈ nodes ↔ Inside h P.n a
  /-- The copies and the new nodes were not there before. -/
  keep : ∀ a, a ∉ nodes → μ a = a
  inj : ∀ a ∈ nodes, ∀ b ∈ nodes, μ a = μ b → a = b
  fresh : ∀ a ∈ nodes, h.live (μ a) = false ∧ μ a ∉ P.news
  newFresh : ∀ x ∈ P.news, h.live x = false
  distinct : P.news.Nodup
  live : ∀ x, g.live x = true ↔ h.live x = true ∨ x ∈ P.news ∨ ∃ a ∈ nodes, x = μ a
  /-- The loop is a graph, and its output is the conditional. -/
  opN : g.ops P.n = .dfg ⟨ji ++ rest, jo ++ rest⟩
  opO : g.ops P.o = .conditional [ji, jo] rest (jo ++ rest)
  opOut : g.ops P.out = .output (jo ++ rest)
  opAgain : g.ops P.again = .case ⟨ji ++ rest, jo ++ rest⟩ ∧ g.ops P.againIn = .input (ji ++ rest) ∧
    g.ops P.againOut = .output (jo ++ rest) ∧ g.ops P.copy = .tailLoop ji jo rest
  opStop : g.ops P.stop = .case ⟨jo ++ rest, jo ++ rest⟩ ∧ g.ops P.stopIn = .input (jo ++ rest) ∧
    g.ops P.stopOut = .output (jo ++ rest)
  kidsN : ∃ cs, h.children P.n = P.i :: P.o :: cs ∧ g.children P.n = P.i :: P.out :: P.o :: cs
  kidsO : g.children P.o = [P.again, P.stop]
  kidsAgain : g.children P.again = [P.againIn, P.againOut, P.copy]
  kidsStop : g.children P.stop = [P.stopIn, P.stopOut]
  kidsIO : g.children P.out = [] ∧ g.children P.againIn = [] ∧ g.children P.againOut = [] ∧
    g.children P.stopIn = [] ∧ g.children P.stopOut = []
  kidsCopy : g.children P.copy = (h.children P.n).map μ
  /-- The new nodes have the ports of their operations. -/
  newPorts : ∀ x ∈ P.news, g.ins x = ((g.ops x).ports .incoming).length ∧ g.outs x = ((g.ops x).ports .outgoing).length
  outsO : g.outs P.o = h.outs P.o + ((jo ++ rest).length + 1)
  /-- Nothing else is changed. -/
  old : ∀ x, (∀ a ∈ nodes, x ≠ μ a) → x ∉ P.news → g.ins x = h.ins x ∧ g.metadata x = h.metadata x ∧
    (x ≠ P.o → g.outs x = h.outs x) ∧ (x ≠ P.n → x ≠ P.o → g.ops x = h.ops x ∧ g.children x = h.children x)
  new : ∀ a ∈ nodes, g.ops (μ a) = h.ops a ∧ g.ins (μ a) = h.ins a ∧ g.outs (μ a) = h.outs a ∧
    g.metadata (μ a) = h.metadata a ∧ g.children (μ a) = (h.children a).map μ
  /-- The links stay and are copied; the new nodes are connected. -/
  links : g.links.Perm (h.links ++ (h.links.filter fun l => decide (l.src ∈ nodes) || decide (l.dst ∈ nodes)).map (renameLink μ) ++
    straight P.o P.out (jo ++ rest).length ++ straight P.stopIn P.stopOut (jo ++ rest).length ++
    straight P.copy P.againOut (jo ++ rest).length ++ straight P.againIn P.copy (ji ++ rest).length)
  moduleRoot : g.moduleRoot = h.moduleRoot
  entrypoint : g.entrypoint = h.entrypoint

/-- The indices for the new nodes and the copies: as many as there are nodes inside the loop, and not in
use. -/
structure PeelVacant (h : Hugr Ops.Op Meta) (n : Nat) (N : PeelNew) (copies : List Nat) : Prop where
  nodup : (N.news ++ copies).Nodup
  free : ∀ x ∈ N.news ++ copies, h.live x = false
  enough : ((h.descendants n).drop 1).length = copies.length
  /-- No function is stored where there is no node. -/
  blank : ∀ x ∈ N.news ++ copies, ¬ IsDefn h x

end Verif.Patch
