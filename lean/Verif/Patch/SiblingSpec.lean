import Verif.Patch.Sibling
import Verif.Patch.SimpleReplaceSpec

/-!
# Specification: subgraphs of a region
-/
namespace Verif.Patch

open Verif.Graph Verif.Ops Verif.Validate

variable {Meta : Type}

/-- The boundary of a subgraph is right: its nodes are siblings; its inputs are ports of its nodes with values
from outside, no port twice, and the ports of one input have one source; its outputs are ports of its
nodes with values that are used outside; and no other links enter it or leave it, but for those to static
ports that are named as calls, and grouped by what is called. -/
structure Bounded (h : Hugr Ops.Op Meta) (s : Subgraph) : Prop where
  nonempty : s.nodes ≠ []
  siblings : ∀ a ∈ s.nodes, ∀ b ∈ s.nodes, h.hier.parent a = h.hier.parent b
  input : ∀ np ∈ s.inputs.flatten, np.1 ∈ s.nodes ∧ ∃ l ∈ h.links, l.dst = np.1 ∧ l.dstPort = np.2 ∧
    l.src ∉ s.nodes ∧ ∃ t, srcKind h l = some (.value t)
  output : ∀ np ∈ s.outputs, np.1 ∈ s.nodes ∧ ∃ l ∈ h.links, l.src = np.1 ∧ l.srcPort = np.2 ∧
    l.dst ∉ s.nodes ∧ ∃ t, srcKind h l = some (.value t)
  enters : ∀ l ∈ h.links, l.src ∉ s.nodes → l.dst ∈ s.nodes →
    (l.dst, l.dstPort) ∈ s.inputs.flatten ∨ (l.dst, l.dstPort) ∈ s.functionCalls.flatten
  leaves : ∀ l ∈ h.links, l.src ∈ s.nodes → l.dst ∉ s.nodes → (l.src, l.srcPort) ∈ s.outputs
  distinct : s.inputs.flatten.Nodup
  filled : [] ∉ s.inputs
  shared : ∀ part ∈ s.inputs, ∀ l ∈ h.links, ∀ l' ∈ h.links, (l.dst, l.dstPort) ∈ part →
    (l'.dst, l'.dstPort) ∈ part → l.src = l'.src ∧ l.srcPort = l'.srcPort
  static : ∀ np ∈ s.functionCalls.flatten, ∃ kind, ((h.ops np.1).ports .incoming)[np.2]? = some kind ∧
    kind.isStatic = true
  called : ∀ part ∈ s.functionCalls, ∀ l ∈ h.links, ∀ l' ∈ h.links, (l.dst, l.dstPort) ∈ part →
    (l'.dst, l'.dstPort) ∈ part → l.src = l'.src ∧ l.srcPort = l'.srcPort

/-- No way leads out of the nodes and back into them. -/
def Convex (h : Hugr Ops.Op Meta) (p : Nat) (nodes : List Nat) : Prop :=
  ∀ a b c, a ∈ nodes → b ∉ nodes → c ∈ nodes →
    Relation.TransGen (RegionEdge h p) a b → ¬ Relation.TransGen (RegionEdge h p) b c

/-- A link between a node of the set and another one. -/
def Crosses (nodes : List Nat) (l : Link) : Prop := ¬ (l.src ∈ nodes ↔ l.dst ∈ nodes)

/-- The nodes that are connected with the boundary by links of the region that do not cross it. -/
inductive Between (h : Hugr Ops.Op Meta) (p : Nat) (inputs : List (List (Nat × Nat))) (outputs : List (Nat × Nat)) :
    Nat → Prop
  | input {np : Nat × Nat} : np ∈ inputs.flatten → Between h p inputs outputs np.1
  | output {np : Nat × Nat} : np ∈ outputs → Between h p inputs outputs np.1
  | along {l : Link} : Between h p inputs outputs l.src → l ∈ h.links → l.src ∈ h.children p → l.dst ∈ h.children p →
      (l.src, l.srcPort) ∉ outputs → (l.dst, l.dstPort) ∉ inputs.flatten → Between h p inputs outputs l.dst
  | back {l : Link} : Between h p inputs outputs l.dst → l ∈ h.links → l.src ∈ h.children p → l.dst ∈ h.children p →
      (l.src, l.srcPort) ∉ outputs → (l.dst, l.dstPort) ∉ inputs.flatten → Between h p inputs outputs l.src

end Verif.Patch
