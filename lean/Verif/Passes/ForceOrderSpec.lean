import Verif.Passes.ForceOrder

/-!
# Specification of forcing an order
-/
namespace Verif.Passes

open Verif.Graph

variable {Meta K : Type} [LinearOrder K]

/-- The order of `nodes` that goes on with the best node that all edges allow: the node after `xs` has
all its predecessors in `xs`, and every other node that could come next has a greater rank, or the
same rank and a smaller index. -/
structure GreedyOrder (nodes : List Nat) (edge : Nat → Nat → Prop) (rank : Nat → K)
    (order : List Nat) : Prop where
  perm : order.Perm nodes
  allowed : ∀ xs n ys, order = xs ++ n :: ys → ∀ p ∈ nodes, edge p n → p ∈ xs
  greedy : ∀ xs n ys, order = xs ++ n :: ys → ∀ m ∈ ys, (∀ p ∈ nodes, edge p m → p ∈ xs) →
    rank n < rank m ∨ (rank n = rank m ∧ m < n)

/-- No way leads from a node back to itself. -/
def NoCycle (edge : Nat → Nat → Prop) : Prop := ∀ n, ¬ Relation.TransGen edge n n

/-- There is a link between two children of `dp`. -/
def SiblingEdge (h : Hugr Ops.Op Meta) (dp a b : Nat) : Prop :=
  h.hier.parent a = some dp ∧ h.hier.parent b = some dp ∧ ∃ l ∈ h.links, l.src = a ∧ l.dst = b

/-- `dp` is `root` or inside it, and its children form a dataflow graph. -/
def IsRegion (h : Hugr Ops.Op Meta) (root dp : Nat) : Prop :=
  Above h.hier.parent dp root ∧ Ops.OpTag.isSuperset .dataflowParent (h.ops dp).opTag = true

/-- As in a valid Hugr: the children of a dataflow region are an input, an output and other nodes that
are neither. -/
def IoOk (h : Hugr Ops.Op Meta) (root : Nat) : Prop :=
  ∀ dp, IsRegion h root dp → ∃ i o cs, h.hier.children dp = i :: o :: cs ∧
    (∃ t, h.ops i = .input t) ∧ (∃ t, h.ops o = .output t) ∧
    ∀ c ∈ cs, ∀ t, h.ops c ≠ .input t ∧ h.ops c ≠ .output t

/-- Can the node be ordered? Constants, functions and aliases can not. -/
def CanOrder (h : Hugr Ops.Op Meta) (n : Nat) : Prop :=
  (h.ops n).otherInput = some .stateOrder ∧ (h.ops n).otherOutput = some .stateOrder

instance (h : Hugr Ops.Op Meta) (n : Nat) : Decidable (CanOrder h n) := by
  unfold CanOrder; infer_instance

/-- `a` is directly followed by `b` in the list. -/
def Consecutive (l : List Nat) (a b : Nat) : Prop := ∃ xs ys, l = xs ++ a :: b :: ys

/-- The link joins the order ports of two nodes. -/
def OrderLink (h : Hugr Ops.Op Meta) (l : Link) : Prop :=
  (h.ops l.src).portKind .outgoing l.srcPort = .ok (some .stateOrder) ∧
  (h.ops l.dst).portKind .incoming l.dstPort = .ok (some .stateOrder)

end Verif.Passes
