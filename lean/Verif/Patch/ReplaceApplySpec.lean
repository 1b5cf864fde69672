import Verif.Patch.ReplaceApply
import Verif.Graph.InsertProps

/-!
# What else a replacement has to be like for applying it
-/
namespace Verif.Patch

open Verif.Graph Verif.Ops Verif.Passes Verif.Validate

variable {Meta : Type}

/-- A value or static edge into this port. -/
def NewEdge.into (e : NewEdge) (n port : Nat) : Prop :=
  e.tgt = n ∧ ((∃ s, e.kind = .value s port) ∨ ∃ s, e.kind = .static s port)

/-- A control-flow edge starts at a port of the node. -/
def PortThere (h : Hugr Ops.Op Meta) (e : NewEdge) : Prop := ∀ s, e.kind = .controlFlow s → s < h.outs e.src

/-- The source ports of control-flow edges exist. -/
def PortsThere (h : Hugr Ops.Op Meta) (r : Replacement Meta) : Prop :=
  (∀ e ∈ r.muInp, PortThere h e) ∧ (∀ e ∈ r.muOut, PortThere r.replacement e) ∧ ∀ e ∈ r.muNew, PortThere h e

/-- No two value or static edges go into the same port of a node that stays. -/
def TargetsDiffer (r : Replacement Meta) : Prop :=
  (r.muOut ++ r.muNew).Pairwise fun a b => ∀ n port, a.into n port → ¬ b.into n port

/-- The edges and adoptions name nodes below the root of the replacement. -/
def NodesInside (r : Replacement Meta) : Prop :=
  (∀ e ∈ r.muInp, Above r.replacement.hier.parent e.tgt r.replacement.entrypoint) ∧
  (∀ e ∈ r.muOut, Above r.replacement.hier.parent e.src r.replacement.entrypoint) ∧
  ∀ a ∈ r.adoptions, Above r.replacement.hier.parent a.1 r.replacement.entrypoint ∧ a.1 ≠ r.replacement.entrypoint

/-- The entrypoint is not removed. -/
def EntryStays (h : Hugr Ops.Op Meta) (r : Replacement Meta) : Prop := ¬ Removes h r h.entrypoint

/-- Something is in each adopted node. -/
def AdoptsSome (h : Hugr Ops.Op Meta) (r : Replacement Meta) : Prop := ∀ v ∈ r.adopted, h.children v ≠ []

/-- Every node has the ports of its operation. -/
def PortsFit (h : Hugr Ops.Op Meta) : Prop := ∀ n, h.live n = true → (h.ops n).tagOk = true ∧
  h.ins n = ((h.ops n).ports .incoming).length ∧ h.outs n = ((h.ops n).ports .outgoing).length

/-- The link that an edge makes. -/
def NewEdge.Makes (h : Hugr Ops.Op Meta) (e : NewEdge) (l : Link) : Prop :=
  l.src = e.src ∧ l.dst = e.tgt ∧
  match e.kind with
  | .order => ((h.ops e.src).ports .outgoing)[l.srcPort]? = some .stateOrder ∧
      ((h.ops e.tgt).ports .incoming)[l.dstPort]? = some .stateOrder
  | .value s t => l.srcPort = s ∧ l.dstPort = t
  | .static s t => l.srcPort = s ∧ l.dstPort = t
  | .controlFlow s => l.srcPort = s ∧ l.dstPort = 0

/-- Below the root of the replacement. -/
def Brought (r : Replacement Meta) (x : Nat) : Prop :=
  Above r.replacement.hier.parent x r.replacement.entrypoint ∧ x ≠ r.replacement.entrypoint

/-- The edges between the nodes of the result, where node `x` of the replacement is `f x`. -/
def Replacement.edges (r : Replacement Meta) (f : Nat → Nat) : List NewEdge :=
  r.muInp.map (fun e => ⟨e.src, f e.tgt, e.kind⟩) ++ r.muOut.map (fun e => ⟨f e.src, e.tgt, e.kind⟩) ++ r.muNew

/-- A link of the host that stays: no end is removed, and no new edge takes its place. -/
def StaysLink (h : Hugr Ops.Op Meta) (r : Replacement Meta) (l : Link) : Prop :=
  l ∈ h.links ∧ ¬ Removes h r l.src ∧ ¬ Removes h r l.dst ∧ ∀ e ∈ r.muOut ++ r.muNew, ¬ e.into l.dst l.dstPort

/-- A link inside the replacement. -/
def CopiedLink (r : Replacement Meta) (f : Nat → Nat) (l : Link) : Prop :=
  ∃ k ∈ r.replacement.links, Brought r k.src ∧ Brought r k.dst ∧ l = ⟨f k.src, k.srcPort, f k.dst, k.dstPort⟩

/-- What takes the place of a child of the node that has the nodes to be removed, if something does: the new nodes below
the root of the replacement take the places of those to be removed, one by one. -/
def Replacement.instead (r : Replacement Meta) (f : Nat → Nat) (c : Nat) : Option Nat :=
  if c ∈ r.removal then ((r.removal.zip (r.replacement.children r.replacement.entrypoint)).lookup c).map f else some c

/-- What applying the replacement gives: `p` is the node that has the nodes to be removed, and node `x` of the
replacement is now `f x`. -/
structure Applied (h : Hugr Ops.Op Meta) (r : Replacement Meta) (p : Nat) (f : Nat → Nat) (g : Hugr Ops.Op Meta) :
    Prop where
  tree : IsTree g
  root_entry : g.moduleRoot = h.moduleRoot ∧ g.entrypoint = h.entrypoint
  /-- The nodes: those that are not removed and those of the replacement. -/
  fresh : ∀ x, Brought r x → h.live (f x) = false
  injective : ∀ x y, Brought r x → Brought r y → f x = f y → x = y
  live : ∀ n, g.live n = true ↔ (h.live n = true ∧ ¬ Removes h r n) ∨ ∃ x, Brought r x ∧ f x = n
  /-- Nodes that stay. -/
  host : ∀ n, h.live n = true → ¬ Removes h r n → g.ops n = h.ops n ∧ g.ins n = h.ins n ∧ g.outs n = h.outs n ∧
    g.metadata n = h.metadata n
  host_parent : ∀ n, h.live n = true → ¬ Removes h r n → (∀ v ∈ r.adopted, h.hier.parent n ≠ some v) →
    g.hier.parent n = h.hier.parent n
  adopted : ∀ a ∈ r.adoptions, ∀ n, h.hier.parent n = some a.2 → g.hier.parent n = some (f a.1)
  /-- Nodes of the replacement. -/
  inner : ∀ x, Brought r x → g.ops (f x) = r.replacement.ops x ∧ g.ins (f x) = r.replacement.ins x ∧
    g.outs (f x) = r.replacement.outs x ∧ g.metadata (f x) = r.replacement.metadata x
  inner_top : ∀ x, r.replacement.hier.parent x = some r.replacement.entrypoint → g.hier.parent (f x) = some p
  inner_parent : ∀ x q, Brought r q → r.replacement.hier.parent x = some q → g.hier.parent (f x) = some (f q)
  /-- The order of children. New nodes for which there is no place come last. -/
  order : g.children p = (h.children p).filterMap (r.instead f) ++
    ((r.replacement.children r.replacement.entrypoint).drop r.removal.length).map f
  host_order : ∀ n, h.live n = true → ¬ Removes h r n → n ≠ p → g.children n = h.children n
  adopted_order : (r.adoptions.map Prod.fst).Nodup → ∀ a ∈ r.adoptions, g.children (f a.1) = h.children a.2
  inner_order : ∀ x, Brought r x → (∀ a ∈ r.adoptions, x ≠ a.1) → g.children (f x) = (r.replacement.children x).map f
  /-- Links. -/
  links : ∀ l ∈ g.links, StaysLink h r l ∨ CopiedLink r f l ∨ ∃ e ∈ r.edges f, e.Makes g l
  stays : ∀ l, StaysLink h r l → l ∈ g.links
  copied : ∀ l, CopiedLink r f l → l ∈ g.links
  made : ∀ e ∈ r.edges f, ∃ l ∈ g.links, e.Makes g l

end Verif.Patch
