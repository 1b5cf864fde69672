import Verif.Graph.Bfs
import Verif.Patch.InlineDfg

/-!
# Model of `copy_descendants`

Source: `/repo/hugr-core/src/hugr/hugrmut.rs:608-644`.
-/
namespace Verif.Patch

open Verif.Graph Verif.Ops Verif.Passes

variable {Meta : Type}

/-- The node that stands for `n`. -/
def copyOf (m : List (Nat × Nat)) (n : Nat) : Nat := (m.lookup n).getD n

/-- The link between the nodes that stand for the ends. -/
def renameLink (μ : Nat → Nat) (l : Link) : Link := ⟨μ l.src, l.srcPort, μ l.dst, l.dstPort⟩

/-- `portgraph` adds a node with as many ports. -/
def copyNode (h g : Hugr Ops.Op Meta) (e : Nat × Nat) : Option (Hugr Ops.Op Meta) :=
  match g.addNode opsInfo.toOpInfo e.2 opsInfo.toOpInfo.default with
  | none => none
  | some g1 => some { g1 with ins := upd g1.ins e.2 (h.ins e.1), outs := upd g1.outs e.2 (h.outs e.1) }

/-- `portgraph::view::Subgraph::copy_in_parent`, as documented: the nodes are copied with their ports,
and so are all links at these nodes; a link to a node that is not copied keeps that end. Each node comes
with the index of its copy. The order of the new links is a choice of the model. -/
def copyInParent (h : Hugr Ops.Op Meta) (m : List (Nat × Nat)) : Option (Hugr Ops.Op Meta) :=
  match each (copyNode h) h m with
  | none => none
  | some g => some { g with
      links := h.links ++
        (h.links.filter fun l => (m.lookup l.src).isSome || (m.lookup l.dst).isSome).map
          (renameLink (copyOf m)) }

/-- The copies of the nodes `cs` become children of `parent`, hugrmut.rs:626-628 and 632-634. -/
def attachCopies (m : List (Nat × Nat)) (parent : Nat) (h : Hugr Ops.Op Meta) (cs : List Nat) :
    Option (Hugr Ops.Op Meta) :=
  each (fun g c =>
    match m.lookup c with
    | none => none
    | some c' => g.setParent c' parent) h cs

/-- The hierarchy below the copy of `old`, hugrmut.rs:632-634. -/
def attachBelow (m : List (Nat × Nat)) (h : Hugr Ops.Op Meta) (old : Nat) : Option (Hugr Ops.Op Meta) :=
  match m.lookup old with
  | none => none
  | some new => attachCopies m new h (h.children old)

/-- The operation and the metadata of the copy of `old`, hugrmut.rs:635-641. -/
def copyWeight (sub : Ops.Op → Option Ops.Op) (m : List (Nat × Nat)) (h : Hugr Ops.Op Meta) (old : Nat) :
    Option (Hugr Ops.Op Meta) :=
  match m.lookup old, sub (h.ops old) with
  | some new, some op =>
    some { h with ops := upd h.ops new op, metadata := upd h.metadata new (h.metadata old) }
  | _, _ => none

/-- Put a number into a sorted list. -/
def insertSorted (n : Nat) : List Nat → List Nat
  | [] => [n]
  | x :: xs => if n ≤ x then n :: x :: xs else x :: insertSorted n xs

/-- The keys of a `BTreeMap`, in order. -/
def sortNodes : List Nat → List Nat
  | [] => []
  | x :: xs => insertSorted x (sortNodes xs)

/-- `copy_descendants`, hugrmut.rs:610-644. `news` are the indices of the new nodes, in the order in
which the descendants of `root` are enumerated; `sub` is the substitution, which may panic, or keeps the
operations. The loop over the nodes is split into one for the hierarchy and one for the operations and
metadata, which are read from other nodes than written to. -/
def copyDescendants (sub : Ops.Op → Option Ops.Op) (h : Hugr Ops.Op Meta) (root newParent : Nat)
    (news : List Nat) : Option (Hugr Ops.Op Meta) :=
  let m := ((h.descendants root).drop 1).zip news
  match copyInParent h m with
  | none => none
  | some h1 =>
    match attachCopies m newParent h1 (h1.children root) with
    | none => none
    | some h2 =>
      match each (attachBelow m) h2 (sortNodes (m.map Prod.fst)) with
      | none => none
      | some h3 => each (copyWeight sub m) h3 (sortNodes (m.map Prod.fst))

end Verif.Patch
