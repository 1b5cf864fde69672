import Verif.Patch.SimpleReplace
import Verif.Patch.ValidLemmas

/-!
# Specification: replacing a subgraph

What `SimpleReplacement` makes of a Hugr, said about links and the hierarchy alone.
-/
namespace Verif.Patch

open Verif.Graph Verif.Ops Verif.Validate

variable {Meta : Type}

/-- The port `ap` of `a`, outside of the subgraph, feeds its `k`-th input. -/
def Feeds (h : Hugr Ops.Op Meta) (s : Subgraph) (k a ap : Nat) : Prop :=
  ∃ n np rest, s.inputs[k]? = some ((n, np) :: rest) ∧ ⟨a, ap, n, np⟩ ∈ h.links ∧ a ∉ s.nodes

/-- The port `bp` of `b`, outside of the subgraph, uses its `j`-th output. -/
def Uses (h : Hugr Ops.Op Meta) (s : Subgraph) (j b bp : Nat) : Prop :=
  ∃ n np, s.outputs[j]? = some (n, np) ∧ ⟨n, np, b, bp⟩ ∈ h.links ∧ b ∉ s.nodes

/-- The nodes of the replacement that are kept: below its entrypoint, without input and output. -/
def Fresh (r : Hugr Ops.Op Meta) (i o x : Nat) : Prop := Inside r r.entrypoint x ∧ x ≠ i ∧ x ≠ o

/-- The links that the replacement `r` with input `i` and output `o` brings; `f` tells where its nodes
go. -/
inductive NewLink (h r : Hugr Ops.Op Meta) (s : Subgraph) (i o : Nat) (f : Nat → Nat) : Link → Prop
  /-- Between its nodes. -/
  | inner {x xp y yp : Nat} : ⟨x, xp, y, yp⟩ ∈ r.links → Fresh r i o x → Fresh r i o y →
      NewLink h r s i o f ⟨f x, xp, f y, yp⟩
  /-- What it makes of an input. -/
  | incoming {k a ap x xp : Nat} : Feeds h s k a ap → ⟨i, k, x, xp⟩ ∈ r.links → x ≠ o →
      NewLink h r s i o f ⟨a, ap, f x, xp⟩
  /-- What it gives as an output. -/
  | outgoing {x xp j b bp : Nat} : ⟨x, xp, o, j⟩ ∈ r.links → x ≠ i → Uses h s j b bp →
      NewLink h r s i o f ⟨f x, xp, b, bp⟩
  /-- An input that it gives as an output. -/
  | through {k j a ap b bp : Nat} : ⟨i, k, o, j⟩ ∈ r.links → Feeds h s k a ap → Uses h s j b bp →
      NewLink h r s i o f ⟨a, ap, b, bp⟩

/-- `g` is `h` with `r` in the place of the subgraph `s` of the region `p`. -/
structure Replaced (h r : Hugr Ops.Op Meta) (p i o : Nat) (s : Subgraph) (f : Nat → Nat)
    (g : Hugr Ops.Op Meta) : Prop where
  fresh : ∀ x, Fresh r i o x → h.live (f x) = false
  injective : ∀ x y, Fresh r i o x → Fresh r i o y → f x = f y → x = y
  live : ∀ n, g.live n = true ↔ (h.live n = true ∧ n ∉ s.nodes) ∨ ∃ x, Fresh r i o x ∧ n = f x
  moduleRoot : g.moduleRoot = h.moduleRoot
  entrypoint : g.entrypoint = h.entrypoint
  /-- The rest of the host is as before. -/
  host : ∀ n, h.live n = true → n ∉ s.nodes → g.ops n = h.ops n ∧ g.ins n = h.ins n ∧
    g.outs n = h.outs n ∧ g.metadata n = h.metadata n ∧ g.hier.parent n = h.hier.parent n
  /-- The nodes of the replacement are copied. -/
  node : ∀ x, Fresh r i o x → g.ops (f x) = r.ops x ∧ g.ins (f x) = r.ins x ∧
    g.outs (f x) = r.outs x ∧ g.metadata (f x) = r.metadata x ∧
    g.hier.parent (f x) =
      if r.hier.parent x = some r.entrypoint then some p else (r.hier.parent x).map f
  /-- The nodes of the replacement come last in the region. -/
  region : g.children p = (h.children p).filter (· ∉ s.nodes) ++ ((r.children r.entrypoint).drop 2).map f
  host_children : ∀ n, h.live n = true → n ∉ s.nodes → n ≠ p → g.children n = h.children n
  node_children : ∀ x, Fresh r i o x → g.children (f x) = (r.children x).map f
  links : ∀ l, l ∈ g.links ↔
    (l ∈ h.links ∧ l.src ∉ s.nodes ∧ l.dst ∉ s.nodes) ∨ NewLink h r s i o f l

/-! ## What can be replaced, by what -/

/-- The nodes of a subgraph that `SimpleReplacement` can remove: at least one child of the dataflow
region `p`, each named once and without children; they have the ports of the boundary. -/
structure Removable (h : Hugr Ops.Op Meta) (p : Nat) (s : Subgraph) : Prop where
  region : (body (h.ops p)).isSome = true
  nonempty : s.nodes ≠ []
  nodup : s.nodes.Nodup
  parent : ∀ n ∈ s.nodes, h.hier.parent n = some p
  leaf : ∀ n ∈ s.nodes, h.children n = []
  inputs : ∀ part ∈ s.inputs, ∀ np ∈ part, np.1 ∈ s.nodes
  outputs : ∀ np ∈ s.outputs, np.1 ∈ s.nodes

/-- The entrypoint of the replacement is a dataflow region with input `i` and output `o`, and no link
goes into the region or out of it. -/
structure HasBody (r : Hugr Ops.Op Meta) (i o : Nat) : Prop where
  region : (body (r.ops r.entrypoint)).isSome = true
  io : (r.children r.entrypoint).take 2 = [i, o]
  closed : ∀ l ∈ r.links, Inside r r.entrypoint l.src ↔ Inside r r.entrypoint l.dst

/-! ## What keeps a Hugr valid -/

/-- The subgraph can be seen as one node of the region `p`: it has neither the input nor the output of
the region; no way leads out of it and back into it; its inputs are all the ports with values from outside,
those of one input with one source; its outputs are all the ports with links to outside that are no order
links, and these links stay in the region; values that may not be copied are not used inside too. -/
structure Separable (h : Hugr Ops.Op Meta) (p : Nat) (s : Subgraph) : Prop where
  noIO : ∀ n ∈ s.nodes, ¬ IsIO (h.ops n)
  convex : ∀ a b c, a ∈ s.nodes → b ∉ s.nodes → c ∈ s.nodes →
    Relation.TransGen (RegionEdge h p) a b → ¬ Relation.TransGen (RegionEdge h p) b c
  inputs_nodup : s.inputs.flatten.Nodup
  outputs_nodup : s.outputs.Nodup
  enters : ∀ l ∈ h.links, l.src ∉ s.nodes → l.dst ∈ s.nodes → ∀ t, srcKind h l = some (.value t) →
    ∃ part ∈ s.inputs, (l.dst, l.dstPort) ∈ part
  outside : ∀ part ∈ s.inputs, ∀ l ∈ h.links, (l.dst, l.dstPort) ∈ part → l.src ∉ s.nodes
  shared : ∀ part ∈ s.inputs, ∀ l ∈ h.links, ∀ l' ∈ h.links, (l.dst, l.dstPort) ∈ part →
    (l'.dst, l'.dstPort) ∈ part → l.src = l'.src ∧ l.srcPort = l'.srcPort
  leaves : ∀ l ∈ h.links, l.src ∈ s.nodes → l.dst ∉ s.nodes → srcKind h l ≠ some .stateOrder →
    (l.src, l.srcPort) ∈ s.outputs ∧ h.hier.parent l.dst = some p
  linear : ∀ l ∈ h.links, (l.src, l.srcPort) ∈ s.outputs → ∀ t, srcKind h l = some (.value t) →
    t.copyable = false → l.dst ∉ s.nodes

/-- There are no order links at the input and the output of the replacement. -/
def Unordered (r : Hugr Ops.Op Meta) (i o : Nat) : Prop :=
  ∀ l ∈ r.links, srcKind r l = some .stateOrder → l.src ≠ i ∧ l.dst ≠ o

end Verif.Patch
