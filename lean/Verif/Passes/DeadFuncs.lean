import Verif.Passes.DeadCode
import Verif.Passes.Dfs

/-!
# Model of the module graph and of dead function removal

Sources: `/repo/hugr-core/src/module_graph.rs`, `/repo/hugr-passes/src/dead_funcs.rs`.

The nodes of the module graph are the nodes of the Hugr they stand for: the index map of the code is
injective. Hash maps are lists; the order in which they are iterated decides the order of the edges
only, which nothing depends on. A panic is `none`.
-/
namespace Verif.Passes

open Verif.Graph

variable {Meta : Type}

/-- Is the operation one that the module graph has a node for? module_graph.rs:66-71. -/
def isStaticOp : Ops.Op → Bool
  | .funcDecl .. | .funcDefn .. | .const .. => true
  | _ => false

/-- Is the operation one that uses a static node? module_graph.rs:88-93. -/
def isStaticUse : Ops.Op → Bool
  | .call .. | .loadFunction .. | .loadConstant .. => true
  | _ => false

/-- `is_load_constant`. -/
def isLoadConstant : Ops.Op → Bool
  | .loadConstant .. => true
  | _ => false

/-- `is_const`. -/
def isConst : Ops.Op → Bool
  | .const .. => true
  | _ => false

/-- `is_func_defn`. -/
def isFuncDefn : Ops.Op → Bool
  | .funcDefn .. => true
  | _ => false

/-- `is_module`. -/
def isModule : Ops.Op → Bool
  | .module => true
  | _ => false

/-- `HugrView::static_source`, views.rs:455-459. -/
def staticSource (h : Hugr Ops.Op Meta) (n : Nat) : Option Nat :=
  match (h.ops n).staticPort .incoming with
  | .ok (some port) => (h.linkedOutputs n port).head?.map Prod.fst
  | _ => none

/-- The nodes of the module graph, module_graph.rs:61-77. -/
def moduleNodes (h : Hugr Ops.Op Meta) : List Nat :=
  let statics := (h.children h.moduleRoot).filter fun n => isStaticOp (h.ops n)
  if !isModule (h.ops h.entrypoint) && decide (h.entrypoint ∉ statics) then
    h.entrypoint :: statics
  else statics

/-- The edge of one child, module_graph.rs:88-104: the target, if there is one. -/
def childEdge (h : Hugr Ops.Op Meta) (ch : Nat) : Option (List Nat) :=
  if isStaticUse (h.ops ch) then
    match staticSource h ch with
    | none => some []
    | some target =>
      if h.getParent target = some h.moduleRoot then
        if target ∈ moduleNodes h then some [target] else none
      else if target ∉ moduleNodes h && isLoadConstant (h.ops ch) && isConst (h.ops target) then
        some []
      else none
  else some []

/-- Both lists, unless one of the computations panicked. -/
def both : Option (List Nat) → Option (List Nat) → Option (List Nat)
  | some a, some b => some (a ++ b)
  | _, _ => none

/-- Apply a function that may panic to each child, and collect the results. -/
def collect (f : Nat → Option (List Nat)) : List Nat → Option (List Nat)
  | [] => some []
  | c :: cs => both (f c) (collect f cs)

/-- `traverse`, module_graph.rs:80-106: the targets of the edges of everything below `node`.
`fuel` bounds the height of the hierarchy. -/
def traverse (h : Hugr Ops.Op Meta) : Nat → Nat → Option (List Nat)
  | 0, _ => some []
  | fuel + 1, node =>
    collect (fun ch => both (traverse h fuel ch) (childEdge h ch)) (h.children node)

/-- The edges out of a node of the module graph. -/
def usesOf (h : Hugr Ops.Op Meta) (f : Nat) : Option (List Nat) := traverse h (h.cap + 1) f

/-- `ModuleGraph::new`, module_graph.rs:59-109: the nodes and the successors of each; `none` if
collecting the edges of some node panics. -/
def moduleGraph (h : Hugr Ops.Op Meta) : Option (List Nat × (Nat → List Nat)) :=
  if (moduleNodes h).all fun f => (usesOf h f).isSome then
    some (moduleNodes h, fun f => (usesOf h f).getD [])
  else none

/-- `reachable_funcs`, dead_funcs.rs:32-49. -/
def reachableFuncs (h : Hugr Ops.Op Meta) (nodes : List Nat) (succ : Nat → List Nat)
    (entries : List Nat) : Option (List Nat) :=
  if entries.all fun n => n ∈ nodes then
    some ((dfs succ (dfsFuel succ nodes entries.reverse) [] entries.reverse).filter
      fun n => !isConst (h.ops n))
  else none

/-- The loop `while let Some(n2) = n`, dead_funcs.rs:91-97: the ancestor of the entrypoint just below
the module root. -/
def enclosing (h : Hugr Ops.Op Meta) : Nat → Nat → List Nat
  | 0, _ => []
  | fuel + 1, n2 =>
    match h.getParent n2 with
    | none => []
    | some p => (if p = h.moduleRoot then [n2] else []) ++ enclosing h fuel p

/-- Removing subtrees one by one, dead_funcs.rs:105-107. -/
def removeSubtrees (h : Hugr Ops.Op Meta) : List Nat → Option (Hugr Ops.Op Meta)
  | [] => some h
  | n :: ns =>
    match h.removeSubtree opsInfo.toOpInfo n with
    | none => none
    | some h' => removeSubtrees h' ns

/-- The result of the pass. -/
inductive DfResult (α : Type) where
  | panic
  | invalidEntryPoint (n : Nat)
  | ok (a : α)

/-- The check of the given functions, dead_funcs.rs:77-84. `get_optype` panics if the node is not in
the graph; the `debug_assert` panics in debug builds only. -/
def checkEntries (h : Hugr Ops.Op Meta) (debug : Bool) : List Nat → DfResult Unit
  | [] => .ok ()
  | n :: ns =>
    if !h.live n then .panic
    else if !isFuncDefn (h.ops n) then .invalidEntryPoint n
    else if debug && decide (h.getParent n ≠ some h.moduleRoot) then .panic
    else checkEntries h debug ns

/-- `RemoveDeadFuncsPass::run`, dead_funcs.rs:75-109. -/
def removeDeadFuncs (h : Hugr Ops.Op Meta) (debug : Bool) (entries : List Nat) :
    DfResult (Hugr Ops.Op Meta) :=
  match checkEntries h debug entries with
  | .panic => .panic
  | .invalidEntryPoint n => .invalidEntryPoint n
  | .ok () =>
    match moduleGraph h with
    | none => .panic
    | some (nodes, succ) =>
      match reachableFuncs h nodes succ
          (if h.entrypoint ≠ h.moduleRoot then entries ++ [h.entrypoint] else entries) with
      | none => .panic
      | some found =>
        let reachable := found ++ enclosing h (h.cap + 1) h.entrypoint
        match removeSubtrees h ((h.children h.moduleRoot).filter fun n =>
            Ops.OpTag.isSuperset .function (h.ops n).opTag && decide (n ∉ reachable)) with
        | none => .panic
        | some h' => .ok h'

end Verif.Passes
