import Verif.Dataflow.AnalysisSpec

/-!
# Specification: the results of a Hugr

What the functions of a Hugr return, written from the HUGR specification: the meaning of a dataflow
graph is given by the values on its wires, such that each node relates its inputs to its outputs; the
meaning of conditionals, loops, control-flow graphs and calls by running the graphs inside. In
contrast to the executions of `Verif.Dataflow.AnalysisSpec`, every node of a graph that is run has to
have a result, and uses the values of this run.
-/
namespace Verif.Patch

open Verif.Graph Verif.Ops Verif.Dataflow

variable {Meta W E : Type}

/-- Something to run, with its result. `ρ` are the values on the wires of the graphs around. -/
inductive Task (W : Type) where
  /-- The dataflow graph inside `p`, given `vals`, outputs `outs`; afterwards the wires are `σ`. -/
  | graph (ρ : Wires W) (p : Nat) (vals outs : List (Val W)) (σ : Wires W)
  /-- The node `n`, given `ins`, outputs `outs`. -/
  | node (ρ : Wires W) (n : Nat) (ins outs : List (Val W))
  /-- The loop `n`, from an iteration that is given `ins`, outputs `outs`. -/
  | loop (ρ : Wires W) (n : Nat) (ins outs : List (Val W))
  /-- A control-flow graph, from the block `b` that is given `ins`, outputs `outs`. -/
  | blocks (ρ : Wires W) (b : Nat) (ins outs : List (Val W))

/-- The values that a node outputs. -/
def outWires (outs : List (Val W)) : Nat → Option (Val W) := fun k => outs[k]?

/-- There are no values. -/
def noWires : Wires W := fun _ _ => none

/-- An inner node of a dataflow graph. -/
def Inner (h : Hugr Ops.Op Meta) (p i o n : Nat) : Prop := n ∈ h.children p ∧ n ≠ i ∧ n ≠ o

/-- The tasks and their results. -/
inductive Runs (h : Hugr Ops.Op Meta) (S : Sem W E) : Task W → Prop
  /-- The wires of a graph: the input node gives the inputs; each node relates its inputs and outputs;
  and gives a value on each of its ports; the output node gets the results. -/
  | graph {ρ σ : Wires W} {p i o : Nat} {vals res : List (Val W)} {ins outs : Nat → List (Val W)} :
      HasIO h p i o → (∀ n, n ∉ h.children p → σ n = ρ n) → σ i = outWires vals →
      vals.length = numOuts (h.ops i) → σ o = outWires [] →
      (∀ n, Inner h p i o n → Ready h σ n (ins n)) →
      (∀ n, Inner h p i o n → σ n = outWires (outs n)) →
      (∀ n, Inner h p i o n → (outs n).length = numOuts (h.ops n)) →
      (∀ n, Inner h p i o n → Runs h S (.node σ n (ins n) (outs n))) →
      Ready h σ o res → Runs h S (.graph ρ p vals res σ)
  | leaf {ρ : Wires W} {n : Nat} {ins outs : List (Val W)} : Leaf h S n ins outs →
      Runs h S (.node ρ n ins outs)
  | const {ρ : Wires W} {n : Nat} {t : Types.Ty} : h.ops n = .const t → Runs h S (.node ρ n [] [])
  | dfg {ρ σ : Wires W} {n : Nat} {sig : Types.Signature} {ins outs : List (Val W)} :
      h.ops n = .dfg sig → Runs h S (.graph ρ n ins outs σ) → Runs h S (.node ρ n ins outs)
  | cond {ρ σ : Wires W} {n c tag : Nat} {rows : List (List Types.Ty)} {other ots row : List Types.Ty}
      {elems rest outs : List (Val W)} : h.ops n = .conditional rows other ots →
      (h.children n)[tag]? = some c → rows[tag]? = some row → elems.length = row.length →
      Runs h S (.graph ρ c (elems ++ rest) outs σ) →
      Runs h S (.node ρ n (.sum tag elems :: rest) outs)
  | tailLoop {ρ : Wires W} {n : Nat} {ji jo rest : List Types.Ty} {ins outs : List (Val W)} :
      h.ops n = .tailLoop ji jo rest → Runs h S (.loop ρ n ins outs) → Runs h S (.node ρ n ins outs)
  | again {ρ σ : Wires W} {n : Nat} {ji jo rest : List Types.Ty} {ins elems others outs : List (Val W)} :
      h.ops n = .tailLoop ji jo rest → elems.length = ji.length →
      Runs h S (.graph ρ n ins (.sum 0 elems :: others) σ) →
      Runs h S (.loop ρ n (elems ++ others) outs) → Runs h S (.loop ρ n ins outs)
  | done {ρ σ : Wires W} {n : Nat} {ji jo rest : List Types.Ty} {ins elems others : List (Val W)} :
      h.ops n = .tailLoop ji jo rest → elems.length = jo.length →
      Runs h S (.graph ρ n ins (.sum 1 elems :: others) σ) →
      Runs h S (.loop ρ n ins (elems ++ others))
  | cfg {ρ : Wires W} {n entry : Nat} {rest : List Nat} {sig : Types.Signature}
      {ins outs : List (Val W)} : h.ops n = .cfg sig → h.children n = entry :: rest →
      Runs h S (.blocks ρ entry ins outs) → Runs h S (.node ρ n ins outs)
  /-- Control goes on to another block, which can use the values of this one. -/
  | jump {ρ σ : Wires W} {b tag : Nat} {x other y z : List Types.Ty} {rows w : List (List Types.Ty)}
      {row : List Types.Ty} {ins elems others outs : List (Val W)} {l : Link} :
      h.ops b = .dataflowBlock x other rows → rows[tag]? = some row → elems.length = row.length →
      l ∈ h.links → l.src = b → l.srcPort = tag → h.ops l.dst = .dataflowBlock y z w →
      Runs h S (.graph ρ b ins (.sum tag elems :: others) σ) →
      Runs h S (.blocks σ l.dst (elems ++ others) outs) → Runs h S (.blocks ρ b ins outs)
  | exit {ρ σ : Wires W} {b tag : Nat} {x other ots : List Types.Ty} {rows : List (List Types.Ty)}
      {row : List Types.Ty} {ins elems others : List (Val W)} {l : Link} :
      h.ops b = .dataflowBlock x other rows → rows[tag]? = some row → elems.length = row.length →
      l ∈ h.links → l.src = b → l.srcPort = tag → h.ops l.dst = .exitBlock ots →
      Runs h S (.graph ρ b ins (.sum tag elems :: others) σ) →
      Runs h S (.blocks ρ b ins (elems ++ others))
  | call {ρ σ : Wires W} {n f : Nat} {ins args outs : List (Val W)} : Calls h n ins f args →
      IsDefn h f → outs.length = numOuts (h.ops n) → Runs h S (.graph noWires f args outs σ) →
      Runs h S (.node ρ n ins outs)

/-- The function `f`, given `args`, may return `outs`. -/
def Returns (h : Hugr Ops.Op Meta) (S : Sem W E) (f : Nat) (args outs : List (Val W)) : Prop :=
  IsDefn h f ∧ ∃ σ, Runs h S (.graph noWires f args outs σ)

end Verif.Patch
