import Verif.Passes.DeadCode

/-!
# Specification of dead code elimination

Which nodes are needed, said without the queue and the cache of the code.
-/
namespace Verif.Passes

open Verif.Graph

variable {Meta : Type}

/-- The answers of the callback force `n` to be kept: `n` must be kept itself, or `n` defers to its
children and one of them is forced. -/
inductive Forced (children : Nat → List Nat) (callback : Nat → PreserveNode) : Nat → Prop
  | keep {n : Nat} : callback n = .mustKeep → Forced children callback n
  | child {n c : Nat} : callback n = .deferToChildren → c ∈ children n →
      Forced children callback c → Forced children callback n

/-- The operations without which their parent is not well formed, and aliases. -/
def Structural (op : Ops.Op) : Prop :=
  (∃ s, op = .case s) ∨ (∃ i o r, op = .dataflowBlock i o r) ∨ (∃ o, op = .exitBlock o) ∨
  (∃ n b, op = .aliasDecl n b) ∨ (∃ n t, op = .aliasDefn n t) ∨ (∃ t, op = .input t) ∨
  (∃ t, op = .output t)

/-- `port` is an outgoing port of the operation that carries a value that may not be discarded. -/
def LinearOut (op : Ops.Op) (port : Nat) : Prop :=
  ∃ sig t, op.dataflowSignature = .ok (some sig) ∧ sig.output[port]? = some t ∧
    t.bound = .linear

/-- The needed nodes: the entrypoint and the given nodes; with a node, its children that are forced
or structural, everything it has an edge from, and the consumers of its linear results. -/
inductive Needed (h : Hugr Ops.Op Meta) (callback : Nat → PreserveNode) (entries : List Nat) :
    Nat → Prop
  | entrypoint : Needed h callback entries h.entrypoint
  | entry {n : Nat} : n ∈ entries → Needed h callback entries n
  | forced {n c : Nat} : Needed h callback entries n → c ∈ h.children n →
      Forced h.children callback c → Needed h callback entries c
  | structural {n c : Nat} : Needed h callback entries n → c ∈ h.children n →
      Structural (h.ops c) → Needed h callback entries c
  | source {l : Link} : l ∈ h.links → Needed h callback entries l.dst →
      Needed h callback entries l.src
  | consumer {l : Link} : l ∈ h.links → Needed h callback entries l.src →
      LinearOut (h.ops l.src) l.srcPort → Needed h callback entries l.dst

/-- What is left of a Hugr when exactly the nodes of `R` are taken away, one by one: the others keep
their operation, ports and metadata, and exactly the links between them; a node keeps its parent
unless that is taken away, and the order of its remaining children. -/
structure WithoutNodes (h : Hugr Ops.Op Meta) (R : Nat → Prop) (g : Hugr Ops.Op Meta) : Prop where
  live : ∀ m, g.live m = true ↔ h.live m = true ∧ ¬ R m
  parent : ∀ m p, g.live m = true →
    (g.hier.parent m = some p ↔ h.hier.parent m = some p ∧ ¬ R p)
  children : ∀ m, g.live m = true →
    g.hier.children m = (h.hier.children m).filter fun c => g.live c
  ops : ∀ m, g.live m = true → g.ops m = h.ops m
  ports : ∀ m, g.live m = true → g.ins m = h.ins m ∧ g.outs m = h.outs m
  metadata : ∀ m, g.live m = true → g.metadata m = h.metadata m
  links : g.links = h.links.filter fun l => g.live l.src && g.live l.dst
  roots : g.moduleRoot = h.moduleRoot ∧ g.entrypoint = h.entrypoint

/-- Edges as in a valid Hugr: the source of an edge is a sibling of the target or of an ancestor of
the target, or it is in a basic block of a control-flow graph around the target; edges that carry
linear values join siblings. -/
structure EdgesLocal (h : Hugr Ops.Op Meta) : Prop where
  source : ∀ l ∈ h.links, ∀ q, h.hier.parent l.src = some q →
    Above h.hier.parent l.dst q ∨
    ∃ i o r c, h.ops q = .dataflowBlock i o r ∧ h.hier.parent q = some c ∧
      Above h.hier.parent l.dst c
  linear : ∀ l ∈ h.links, LinearOut (h.ops l.src) l.srcPort →
    h.hier.parent l.dst = h.hier.parent l.src

/-- No given node hides inside a node of the entrypoint region that is not given as well. -/
def EntriesOpen (h : Hugr Ops.Op Meta) (entries : List Nat) : Prop :=
  ∀ e ∈ entries, ∀ p, h.hier.parent e = some p → Above h.hier.parent p h.entrypoint →
    p = h.entrypoint ∨ p ∈ entries

/-- No operation of the graph panics when asked for its ports. -/
def TagsOk (h : Hugr Ops.Op Meta) : Prop :=
  ∀ n, h.live n = true → (h.ops n).dataflowSignature ≠ .panic

end Verif.Passes
