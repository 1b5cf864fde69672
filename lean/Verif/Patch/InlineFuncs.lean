import Verif.Patch.InlineCall
import Verif.Passes.DeadFuncs

/-!
# Model of `inline_acyclic`

Source: `/repo/hugr-passes/src/inline_funcs.rs`.
-/
namespace Verif.Patch

open Verif.Graph Verif.Ops

variable {Meta : Type}

/-- The outcome of the pass. -/
inductive AcResult (α : Type) where
  | panic
  | ok (a : α)

/-- The functions on cycles of the module graph, inline_funcs.rs:29-45. `tarjan_scc` of `petgraph` is
taken by what it is documented to do: a node is in a component with others, or has an edge to itself,
exactly if it can be reached from one of its successors. -/
def cyclicFuncs (h : Hugr Ops.Op Meta) (nodes : List Nat) (succ : Nat → List Nat) : AcResult (List Nat) :=
  let cyclic := nodes.filter fun f =>
    decide (f ∈ Passes.dfs succ (Passes.dfsFuel succ nodes (succ f)) [] (succ f))
  if cyclic.all fun f => Passes.isFuncDefn (h.ops f) then .ok cyclic else .panic

/-- `target_funcs`, inline_funcs.rs:46-49. -/
def targetFuncs (h : Hugr Ops.Op Meta) (cyclic : List Nat) : List Nat :=
  (h.children h.moduleRoot).filter fun n => Passes.isFuncDefn (h.ops n) && decide (n ∉ cyclic)

/-- `is_call`. -/
def isCall : Ops.Op → Bool
  | .call .. => true
  | _ => false

/-- The function whose call at `n` is to be inlined, inline_funcs.rs:52-54. -/
def wantedTarget (targets : List Nat) (pred : Hugr Ops.Op Meta → Nat → Bool) (h : Hugr Ops.Op Meta) (n : Nat) :
    Option Nat :=
  if isCall (h.ops n) then
    match staticSource h n with
    | some t => if decide (t ∈ targets) && pred h n then some t else none
    | none => none
  else none

/-- One node, inline_funcs.rs:52-59. `alloc h f` are the indices that new nodes get when the body of `f` is
copied in `h`. -/
def visitNode (env : Types.Env) (targets : List Nat) (pred : Hugr Ops.Op Meta → Nat → Bool)
    (alloc : Hugr Ops.Op Meta → Nat → List Nat) (h : Hugr Ops.Op Meta) (n : Nat) : AcResult (Hugr Ops.Op Meta) :=
  match wantedTarget targets pred h n with
  | none => .ok h
  | some t =>
    match inlineCall env h n (alloc h t) with
    | .ok g => .ok g
    | _ => .panic

/-- The loop over the queue, inline_funcs.rs:50-63, for at most `fuel` rounds: `none` if it is not done
by then. -/
def inlineLoop (env : Types.Env) (targets : List Nat) (pred : Hugr Ops.Op Meta → Nat → Bool)
    (alloc : Hugr Ops.Op Meta → Nat → List Nat) :
    Nat → Hugr Ops.Op Meta → List Nat → Option (AcResult (Hugr Ops.Op Meta))
  | _, h, [] => some (.ok h)
  | 0, _, _ :: _ => none
  | fuel + 1, h, n :: q =>
    match visitNode env targets pred alloc h n with
    | .panic => some .panic
    | .ok g => inlineLoop env targets pred alloc fuel g (q ++ g.children n)

/-- `inline_acyclic`, inline_funcs.rs:24-65. -/
def inlineAcyclic (env : Types.Env) (pred : Hugr Ops.Op Meta → Nat → Bool)
    (alloc : Hugr Ops.Op Meta → Nat → List Nat) (fuel : Nat) (h : Hugr Ops.Op Meta) :
    Option (AcResult (Hugr Ops.Op Meta)) :=
  match Passes.moduleGraph h with
  | none => some .panic
  | some (nodes, succ) =>
    match cyclicFuncs h nodes succ with
    | .panic => some .panic
    | .ok cyclic => inlineLoop env (targetFuncs h cyclic) pred alloc fuel h [h.entrypoint]

end Verif.Patch
