import Verif.Passes.DeadCode
import Verif.Passes.Dfs
import Mathlib.Order.Defs.LinearOrder

/-!
# Model of forcing an order

Source: `/repo/hugr-passes/src/force_order.rs`.

A node of the region graph is the node of the Hugr it stands for (`DefaultPGNodeMap`,
hugr-core/src/hugr/internal.rs:131). A panic is `none`.
-/
namespace Verif.Passes

open Verif.Graph

variable {Meta K : Type} [LinearOrder K]

/-- Comes `a` out of the heap rather than `b`? The heap yields the greatest pair
`(Reverse(rank), node)`: the least rank, and the greatest index among equal ranks.
force_order.rs:107, 158. -/
def preferred (rank : Nat → K) (a b : Nat) : Bool :=
  decide (rank a < rank b) || (decide (rank a = rank b) && decide (b ≤ a))

/-- The entry that comes out of the heap first: `BinaryHeap::pop`, whose source is in the standard
library. -/
def best (rank : Nat → K) : List Nat → Option Nat
  | [] => none
  | a :: q =>
    match best rank q with
    | none => some a
    | some b => if preferred rank a b then some a else some b

/-- `ForceOrder::next`, repeated, force_order.rs:152-183. `ordered` is what was visited, last first.
`fuel` bounds the number of rounds. -/
def orderLoop (succ pred : Nat → List Nat) (rank : Nat → K) : Nat → List Nat → List Nat → List Nat
  | 0, ordered, _ => ordered
  | fuel + 1, ordered, tovisit =>
    match best rank tovisit with
    | none => ordered
    | some n =>
      if n ∈ ordered then orderLoop succ pred rank fuel ordered (tovisit.erase n)
      else orderLoop succ pred rank fuel (n :: ordered)
        (tovisit.erase n ++ (succ n).filter fun m => (pred m).all fun b => b ∈ n :: ordered)

/-- `ForceOrder::new` and the iteration, force_order.rs:117-146, 187-199. -/
def orderNodes (nodes : List Nat) (succ pred : Nat → List Nat) (rank : Nat → K) : List Nat :=
  let initials := nodes.filter fun n => (pred n).isEmpty
  (orderLoop succ pred rank (dfsFuel succ nodes initials) [] initials).reverse

/-- `HugrView::get_io`, hugr-core/src/hugr/views.rs:342-350. -/
def getIo (h : Hugr Ops.Op Meta) (n : Nat) : Option (Nat × Nat) :=
  if Ops.OpTag.isSuperset .dataflowParent (h.ops n).opTag then
    match h.children n with
    | i :: o :: _ => some (i, o)
    | _ => none
  else none

/-- The nodes of the region graph without input and output, force_order.rs:62-66. -/
def regionNodes (h : Hugr Ops.Op Meta) (dp i o : Nat) : List Nat :=
  (h.children dp).filter fun x => x != i && x != o

/-- The neighbours of a node in a graph restricted to some nodes. -/
def regionSucc (h : Hugr Ops.Op Meta) (nodes : List Nat) (n : Nat) : List Nat :=
  ((h.links.filter fun l => l.src == n).map Link.dst).filter fun m => m ∈ nodes

/-- The neighbours of a node along incoming edges. -/
def regionPred (h : Hugr Ops.Op Meta) (nodes : List Nat) (n : Nat) : List Nat :=
  ((h.links.filter fun l => l.dst == n).map Link.src).filter fun m => m ∈ nodes

/-- The `filter_map`, force_order.rs:69-85: the nodes that can be ordered; `none` if the assertion
fails. -/
def orderable (h : Hugr Ops.Op Meta) : List Nat → Option (List Nat)
  | [] => some []
  | x :: xs =>
    if (h.ops x).otherInput = some .stateOrder ∨ (h.ops x).otherOutput = some .stateOrder then
      if (h.ops x).otherInput = (h.ops x).otherOutput then (orderable h xs).map (x :: ·) else none
    else orderable h xs

/-- Connect two nodes by an order edge, force_order.rs:94-101. -/
def orderEdge (h : Hugr Ops.Op Meta) (n1 n2 : Nat) : Option (Hugr Ops.Op Meta) :=
  if n2 ∈ (h.links.filter fun l => l.src == n1).map Link.dst then some h
  else
    match (h.ops n1).otherPort .outgoing, (h.ops n2).otherPort .incoming with
    | .ok (some p1), .ok (some p2) => h.connect ⟨n1, p1, n2, p2⟩
    | _, _ => none

/-- The loop over neighbouring pairs, force_order.rs:88-101. -/
def orderEdges (h : Hugr Ops.Op Meta) : List Nat → Option (Hugr Ops.Op Meta)
  | n1 :: n2 :: ns =>
    match orderEdge h n1 n2 with
    | none => none
    | some h' => orderEdges h' (n2 :: ns)
  | _ => some h

/-- The body of the loop over dataflow parents, force_order.rs:57-102. -/
def orderRegion (rank : Hugr Ops.Op Meta → Nat → K) (h : Hugr Ops.Op Meta) (dp : Nat) :
    Option (Hugr Ops.Op Meta) :=
  match getIo h dp with
  | none => none
  | some (i, o) =>
    let nodes := regionNodes h dp i o
    match orderable h (orderNodes nodes (regionSucc h nodes) (regionPred h nodes) (rank h)) with
    | none => none
    | some ordered => orderEdges h (i :: ordered ++ [o])

/-- The loop over the dataflow parents, force_order.rs:56. -/
def orderRegions (rank : Hugr Ops.Op Meta → Nat → K) (h : Hugr Ops.Op Meta) :
    List Nat → Option (Hugr Ops.Op Meta)
  | [] => some h
  | dp :: dps =>
    match orderRegion rank h dp with
    | none => none
    | some h' => orderRegions rank h' dps

/-- `force_order_by_key`, force_order.rs:46-106. -/
def forceOrder (h : Hugr Ops.Op Meta) (root : Nat) (rank : Hugr Ops.Op Meta → Nat → K) :
    Option (Hugr Ops.Op Meta) :=
  orderRegions rank h ((h.descendants root).filter fun n =>
    Ops.OpTag.isSuperset .dataflowParent (h.ops n).opTag)

end Verif.Passes
