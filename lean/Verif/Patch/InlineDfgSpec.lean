import Verif.Validate.Spec

/-!
# Specification: dissolving a DFG node

What `InlineDFG` makes of a Hugr, said about links and the hierarchy alone.
-/
namespace Verif.Patch

open Verif.Graph Verif.Ops Verif.Validate

variable {Meta : Type}

/-- When the DFG node `d` with input `i` and output `o` is dissolved, what comes out of `port` of `n`
is what comes out of `sp` of `s`. -/
inductive Comes (h : Hugr Ops.Op Meta) (d i o : Nat) : Nat → Nat → Nat → Nat → Prop
  | self {n port : Nat} : n ≠ d → n ≠ i → Comes h d i o n port n port
  | input {port s sp : Nat} : ⟨s, sp, d, port⟩ ∈ h.links → Comes h d i o i port s sp
  | output {port n np s sp : Nat} : ⟨n, np, o, port⟩ ∈ h.links → Comes h d i o n np s sp →
      Comes h d i o d port s sp

/-- A link that only orders. -/
def Orders (h : Hugr Ops.Op Meta) (l : Link) : Prop := srcKind h l = some .stateOrder

/-- The nodes that are ordered by way of the input of the DFG node: one of the links to the DFG node
and from its input is there for the order. -/
def OrderedIn (h : Hugr Ops.Op Meta) (d i : Nat) (x y : Nat) : Prop :=
  ∃ l1 ∈ h.links, ∃ l2 ∈ h.links, l1.src = x ∧ l1.dst = d ∧ l2.src = i ∧ l2.dst = y ∧
    (Orders h l1 ∨ Orders h l2)

/-- The nodes that are ordered by way of the output, or of both. -/
def OrderedOut (h : Hugr Ops.Op Meta) (d i o : Nat) (x y : Nat) : Prop :=
  ∃ l2 ∈ h.links, l2.src = d ∧ l2.dst = y ∧
    (OrderedIn h d i x o ∨
     ∃ l1 ∈ h.links, l1.dst = o ∧ (∃ sp, Comes h d i o l1.src l1.srcPort x sp) ∧
       (Orders h l1 ∨ Orders h l2))

/-- The link that orders two nodes. -/
def IsOrderLink (h : Hugr Ops.Op Meta) (l : Link) : Prop :=
  srcKind h l = some .stateOrder ∧ ((h.ops l.dst).ports .incoming)[l.dstPort]? = some .stateOrder

/-- `g` is `h` without the DFG node `d` in `p`, its input `i` and its output `o`, whose other children
are in `p` instead. What was linked to the input or from the DFG node is linked to where the value
comes from; nodes that were ordered by way of the DFG node are ordered. -/
structure Inlined (h : Hugr Ops.Op Meta) (p d i o : Nat) (g : Hugr Ops.Op Meta) : Prop where
  live : ∀ n, g.live n = true ↔ h.live n = true ∧ n ≠ d ∧ n ≠ i ∧ n ≠ o
  ops : ∀ n, n ≠ d → n ≠ i → n ≠ o → g.ops n = h.ops n
  forgotten : ∀ n, n = d ∨ n = i ∨ n = o → g.ops n = .module
  ins : g.ins = h.ins
  outs : g.outs = h.outs
  metadata : g.metadata = h.metadata
  moduleRoot : g.moduleRoot = h.moduleRoot
  entrypoint : g.entrypoint = h.entrypoint
  cap : g.cap = h.cap
  /-- The children of the DFG node come after the other children of `p`. -/
  inside : g.children p = (h.children p).filter (· ≠ d) ++ (h.children d).drop 2
  gone : g.children d = []
  others : ∀ n, n ≠ p → n ≠ d → g.children n = h.children n
  parent : ∀ n, n ≠ d → n ≠ i → n ≠ o →
    g.hier.parent n = if h.hier.parent n = some d then some p else h.hier.parent n
  links : ∀ l, l ∈ g.links ↔
    (l.src ≠ d ∧ l.src ≠ i ∧ l.src ≠ o) ∧ (l.dst ≠ d ∧ l.dst ≠ i ∧ l.dst ≠ o) ∧
    ((∃ n port, ⟨n, port, l.dst, l.dstPort⟩ ∈ h.links ∧ Comes h d i o n port l.src l.srcPort) ∨
     (IsOrderLink h l ∧ (OrderedIn h d i l.src l.dst ∨ OrderedOut h d i o l.src l.dst)))
  /-- Nothing but order arrives more often. -/
  once : ∀ n port kind, n ≠ d → n ≠ i → n ≠ o → ((h.ops n).ports .incoming)[port]? = some kind →
    kind ≠ .stateOrder → (linksTo g n port).length ≤ (linksTo h n port).length

/-! ## What keeps the result valid -/

/-- The region a node is in after the DFG node `d` in `p` is dissolved. -/
def regionAfter (h : Hugr Ops.Op Meta) (p d n : Nat) : Option Nat :=
  if h.hier.parent n = some d then some p else h.hier.parent n

/-- The order by way of the DFG node is one of nodes that end up in the same region; and where a value
of the region of the DFG node is used deeper inside the DFG node, by a node below its child `c`, the DFG
node and its input order the source of the value before `c`. -/
structure OrderFits (h : Hugr Ops.Op Meta) (p d i o : Nat) : Prop where
  together : ∀ x y, x ≠ d → x ≠ i → x ≠ o → y ≠ d → y ≠ i → y ≠ o →
    OrderedIn h d i x y ∨ OrderedOut h d i o x y → regionAfter h p d x = regionAfter h p d y
  kept : ∀ l ∈ h.links, ∀ t c q, srcKind h l = some (.value t) → h.hier.parent l.src = some p →
    h.hier.parent c = some d → h.hier.parent l.dst = some q → Above h.hier.parent q c →
    OrderedIn h d i l.src c

end Verif.Patch
