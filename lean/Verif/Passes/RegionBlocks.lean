import Verif.Passes.Dfs

/-!
# Model of finding the blocks of a region

Source: `region_blocks` of `/repo/hugr-passes/src/nest_cfgs.rs:291-346`.

A control-flow graph is given by the successors and the predecessors of each block (`CfgNodeMap`,
nest_cfgs.rs:67-76). Blocks are numbers; a hash set is the list of its elements.
-/
namespace Verif.Passes

/-- `Result<HashSet<T>, RegionBlocksError<T>>`, nest_cfgs.rs:274-288. -/
inductive RegionResult where
  | ok (blocks : List Nat)
  | exitEdgeNotPresent (a b : Nat)
  | entryEdgeNotPresent (a b : Nat)
  | entryEdgeSourceInRegion (a : Nat)
  | unexpectedEntryEdges (l : List Nat)
  deriving DecidableEq

/-- The loop, nest_cfgs.rs:299-319; `none` is the error inside of it. `fuel` bounds the number of
rounds. -/
def blocksLoop (succ : Nat → List Nat) (exit : Nat × Nat) :
    Nat → List Nat → List Nat → Option (List Nat)
  | 0, blocks, _ => some blocks
  | _, blocks, [] => some blocks
  | fuel + 1, blocks, n :: queue =>
    if n ∈ blocks then blocksLoop succ exit fuel blocks queue
    else if n = exit.1 then
      let internal := (succ n).filter fun s => s != exit.2
      if internal.length = (succ n).length then none
      else blocksLoop succ exit fuel (n :: blocks) (queue ++ internal)
    else blocksLoop succ exit fuel (n :: blocks) (queue ++ succ n)

/-- `Itertools::unique`: the first occurrence of each. -/
def unique : List Nat → List Nat
  | [] => []
  | a :: l => a :: (unique l).filter fun b => b != a

/-- `region_blocks`, nest_cfgs.rs:291-346. `nodes` are the blocks of the graph; it is used to bound
the number of rounds. -/
def regionBlocks (nodes : List Nat) (succ pred : Nat → List Nat) (entry exit : Nat × Nat) :
    RegionResult :=
  match blocksLoop succ exit (dfsFuel succ nodes [entry.2]) [] [entry.2] with
  | none => .exitEdgeNotPresent exit.1 exit.2
  | some blocks =>
    if entry.1 ∈ blocks then .entryEdgeSourceInRegion entry.1
    else
      let extPreds := (unique (pred entry.2)).filter fun p => p ∉ blocks
      let expected := extPreds.filter fun i => i == entry.1
      let extra := extPreds.filter fun i => !(i == entry.1)
      if expected ≠ [entry.1] then .entryEdgeNotPresent entry.1 entry.2
      else if !extra.isEmpty then .unexpectedEntryEdges extra
      else .ok blocks

end Verif.Passes
