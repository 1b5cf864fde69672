import Verif.Graph.Bfs
import Verif.Graph.SerializeOps

/-!
# Model of dead code elimination

Source: `/repo/hugr-passes/src/dead_code.rs`.

The callback is given the Hugr and a node; the Hugr does not change while it is used, so the callback
is a function of the node. The hash map used as a cache is a function; a set is a list.
-/
namespace Verif.Passes

open Verif.Graph

variable {Meta : Type}

/-- `PreserveNode`, dead_code.rs:54-66. -/
inductive PreserveNode where
  | mustKeep
  | canRemoveIgnoringChildren
  | deferToChildren
deriving DecidableEq, Repr

/-- `PreserveNode::default_for`, dead_code.rs:77-82. -/
def PreserveNode.defaultFor (h : Hugr Ops.Op Meta) (n : Nat) : PreserveNode :=
  match h.ops n with
  | .cfg .. | .tailLoop .. | .call .. => .mustKeep
  | _ => .deferToChildren

/-- `Iterator::any` with a predicate that updates a cache: it stops at the first success. -/
def anyCached (f : (Nat → Option Bool) → Nat → Bool × (Nat → Option Bool)) :
    (Nat → Option Bool) → List Nat → Bool × (Nat → Option Bool)
  | cache, [] => (false, cache)
  | cache, c :: cs =>
    match f cache c with
    | (true, cache') => (true, cache')
    | (false, cache') => anyCached f cache' cs

/-- `must_preserve`, dead_code.rs:160-173. `fuel` bounds the height of the hierarchy. -/
def mustPreserve (children : Nat → List Nat) (callback : Nat → PreserveNode) :
    Nat → (Nat → Option Bool) → Nat → Bool × (Nat → Option Bool)
  | 0, cache, _ => (false, cache)
  | fuel + 1, cache, n =>
    match cache n with
    | some res => (res, cache)
    | none =>
      match callback n with
      | .mustKeep => (true, upd cache n (some true))
      | .canRemoveIgnoringChildren => (false, upd cache n (some false))
      | .deferToChildren =>
        match anyCached (mustPreserve children callback fuel) cache (children n) with
        | (res, cache') => (res, upd cache' n (some res))

/-- The `matches!` of `find_needed_nodes`, dead_code.rs:124-133: the operations that are kept with
their parent. -/
def keptWithParent : Ops.Op → Bool
  | .case .. | .dataflowBlock .. | .exitBlock .. | .aliasDecl .. | .aliasDefn .. | .input ..
  | .output .. => true
  | _ => false

/-- The loop over the children, dead_code.rs:122-137: the children pushed to the queue, and the
cache. -/
def neededChildren (h : Hugr Ops.Op Meta) (callback : Nat → PreserveNode) :
    (Nat → Option Bool) → List Nat → List Nat × (Nat → Option Bool)
  | cache, [] => ([], cache)
  | cache, c :: cs =>
    match mustPreserve h.children callback (h.cap + 1) cache c with
    | (res, cache') =>
      match neededChildren h callback cache' cs with
      | (pushed, cache'') => (if res || keptWithParent (h.ops c) then c :: pushed else pushed, cache'')

/-- `HugrView::input_neighbours`, views.rs:671-673. -/
def inputNeighbours (h : Hugr Ops.Op Meta) (n : Nat) : List Nat :=
  (h.links.filter fun l => l.dst = n).map Link.src

/-- The consumers of the ports that are not copyable, dead_code.rs:146-152. The outgoing ports of a
signature are numbered from 0; `port` is the number of the first of the given types. -/
def linearConsumers (h : Hugr Ops.Op Meta) (n : Nat) : Nat → List Types.Ty → List Nat
  | _, [] => []
  | port, t :: ts =>
    (if !t.copyable then (h.linkedInputs n port).map Prod.fst else []) ++
      linearConsumers h n (port + 1) ts

/-- The result of `find_needed_nodes` and of `run`. -/
inductive DceResult (α : Type) where
  | panic
  | notFound (n : Nat)
  | ok (a : α)

/-- The loop of `find_needed_nodes`, dead_code.rs:113-154. The signature of a `Tag` operation with an
invalid tag panics. -/
def findLoop (h : Hugr Ops.Op Meta) (callback : Nat → PreserveNode) :
    Nat → (Nat → Option Bool) → List Nat → List Nat → DceResult (List Nat)
  | _, _, needed, [] => .ok needed
  | 0, _, _, _ :: _ => .panic
  | fuel + 1, cache, needed, n :: queue =>
    if h.live n then
      if n ∈ needed then findLoop h callback fuel cache needed queue
      else
        match neededChildren h callback cache (h.children n) with
        | (pushed, cache') =>
          match (h.ops n).dataflowSignature with
          | .panic => .panic
          | .ok none =>
            findLoop h callback fuel cache' (n :: needed) (queue ++ pushed ++ inputNeighbours h n)
          | .ok (some sig) =>
            findLoop h callback fuel cache' (n :: needed)
              (queue ++ pushed ++ inputNeighbours h n ++ linearConsumers h n 0 sig.output)
    else .notFound n

/-- A bound on the number of rounds: a node is expanded once, and then pushes some of its children,
one node for each link into it, and at most one for each link out of it. -/
def findFuel (h : Hugr Ops.Op Meta) (entries : List Nat) : Nat :=
  entries.length + 2 + ((List.range h.cap).map fun n => (h.children n).length +
    (inputNeighbours h n).length + (h.links.filter fun l => l.src = n).length).sum

/-- `find_needed_nodes`, dead_code.rs:107-158. -/
def findNeeded (h : Hugr Ops.Op Meta) (callback : Nat → PreserveNode) (entries : List Nat) :
    DceResult (List Nat) :=
  findLoop h callback (findFuel h entries) (fun _ => none) [] (h.entrypoint :: entries)

/-- Removing nodes one by one, dead_code.rs:187-189. -/
def removeNodes (h : Hugr Ops.Op Meta) : List Nat → Option (Hugr Ops.Op Meta)
  | [] => some h
  | n :: ns =>
    match h.removeNode opsInfo.toOpInfo n with
    | none => none
    | some h' => removeNodes h' ns

/-- `DeadCodeElimPass::run`, dead_code.rs:181-191. -/
def deadCodeElim (h : Hugr Ops.Op Meta) (callback : Nat → PreserveNode) (entries : List Nat) :
    DceResult (Hugr Ops.Op Meta) :=
  match findNeeded h callback entries with
  | .panic => .panic
  | .notFound n => .notFound n
  | .ok needed =>
    match removeNodes h ((h.descendants h.entrypoint).filter fun n => n ∉ needed) with
    | none => .panic
    | some h' => .ok h'

end Verif.Passes
