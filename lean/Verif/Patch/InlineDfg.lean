import Verif.Graph.SerializeOps
import Verif.Passes.ForceOrder
import Verif.Passes.DeadCode
import Verif.Validate.Model

/-!
# Model of `InlineDFG`

Source: `/repo/hugr-core/src/hugr/patch/inline_dfg.rs`. The `debug_assert`s, which only look, are left
out.
-/
namespace Verif.Patch

open Verif.Graph Verif.Ops Verif.Passes Verif.Validate

variable {Meta α : Type}

/-- A `for` loop whose body may panic. -/
def each {G : Type} (f : G → α → Option G) : G → List α → Option G
  | g, [] => some g
  | g, x :: xs =>
    match f g x with
    | none => none
    | some g' => each f g' xs

/-- `add_other_edge`, hugrmut.rs:534-545. -/
def addOtherEdge (h : Hugr Ops.Op Meta) (src dst : Nat) : Option (Hugr Ops.Op Meta) :=
  match (h.ops src).otherPort .outgoing, (h.ops dst).otherPort .incoming with
  | .ok (some p), .ok (some q) => h.connect ⟨src, p, dst, q⟩
  | _, _ => none

/-- `HugrView::single_linked_output`, views.rs:226-243. -/
def singleLinkedOutput (h : Hugr Ops.Op Meta) (n port : Nat) : Option (Nat × Nat) :=
  match h.linkedOutputs n port with
  | [x] => some x
  | _ => none

/-- Order edges from `src` to each of the nodes. -/
def orderTo (h : Hugr Ops.Op Meta) (src : Nat) (tgts : List Nat) : Option (Hugr Ops.Op Meta) :=
  each (fun g t => addOtherEdge g src t) h tgts

/-- Order edges from each of the nodes to `tgt`. -/
def orderFrom (h : Hugr Ops.Op Meta) (srcs : List Nat) (tgt : Nat) : Option (Hugr Ops.Op Meta) :=
  each (fun g s => addOtherEdge g s tgt) h srcs

/-- The order edges into the DFG node, inline_dfg.rs:78-84. -/
def inlineOrderIns (h : Hugr Ops.Op Meta) (n input othIn : Nat) : Option (Hugr Ops.Op Meta) :=
  each (fun g s => orderTo g s.1 (outputNeighbours g input)) h (h.linkedOutputs n othIn)

/-- One input of the DFG node, inline_dfg.rs:90-109. -/
def inlineIn (n input othIn : Nat) (succs : List (Nat × Nat)) (h : Hugr Ops.Op Meta) (inp : Nat) :
    Option (Hugr Ops.Op Meta) :=
  if inp = othIn then some h
  else
    match singleLinkedOutput h n inp with
    | none => none
    | some (s, sp) =>
      match h.disconnect n .incoming inp with
      | none => none
      | some h1 =>
        match h1.disconnect input .outgoing inp with
        | none => none
        | some h2 =>
          match each (fun g t => g.connect ⟨s, sp, t.1, t.2⟩) h2 (h1.linkedInputs input inp) with
          | none => none
          | some h3 => orderTo h3 s (succs.map Prod.fst)

/-- The order edges out of the DFG node, inline_dfg.rs:112-117. -/
def inlineOrderOuts (h : Hugr Ops.Op Meta) (n output othOut : Nat) : Option (Hugr Ops.Op Meta) :=
  each (fun g t => orderFrom g (inputNeighbours g output) t.1) h (h.linkedInputs n othOut)

/-- One target of an output, inline_dfg.rs:131-136. -/
def inlineTarget (s sp : Nat) (preds : List Nat) (h : Hugr Ops.Op Meta) (t : Nat × Nat) :
    Option (Hugr Ops.Op Meta) :=
  match h.connect ⟨s, sp, t.1, t.2⟩ with
  | none => none
  | some h1 => orderFrom h1 preds t.1

/-- One output of the DFG node, inline_dfg.rs:122-139. -/
def inlineOut (n output othOut : Nat) (preds : List (Nat × Nat)) (h : Hugr Ops.Op Meta)
    (outport : Nat) : Option (Hugr Ops.Op Meta) :=
  if outport = othOut then some h
  else
    match singleLinkedOutput h output outport with
    | none => none
    | some (s, sp) =>
      match h.disconnect output .incoming outport with
      | none => none
      | some h1 =>
        match each (inlineTarget s sp (preds.map Prod.fst)) h1 (h1.linkedInputs n outport) with
        | none => none
        | some h2 => h2.disconnect n .outgoing outport

/-- The links of the DFG node and of its input and output, inline_dfg.rs:77-139. -/
def inlineLinks (h : Hugr Ops.Op Meta) (n input output othIn othOut : Nat) :
    Option (Hugr Ops.Op Meta) :=
  match inlineOrderIns h n input othIn with
  | none => none
  | some h1 =>
    match (h1.ops input).otherPort .outgoing with
    | .ok (some po) =>
      match each (inlineIn n input othIn (h1.linkedInputs input po)) h1 (List.range (h1.ins n)) with
      | none => none
      | some h2 =>
        match inlineOrderOuts h2 n output othOut with
        | none => none
        | some h3 =>
          match (h3.ops output).otherPort .incoming with
          | .ok (some pi) =>
            each (inlineOut n output othOut (h3.linkedOutputs output pi)) h3 (List.range (h3.outs n))
          | _ => none
    | _ => none

/-- The nodes that go, inline_dfg.rs:140-143. -/
def inlineRemove (h : Hugr Ops.Op Meta) (n input output : Nat) : Option (Hugr Ops.Op Meta) :=
  match h.removeNode opsInfo.toOpInfo input with
  | none => none
  | some h1 =>
    match h1.removeNode opsInfo.toOpInfo output with
    | none => none
    | some h2 => if h2.children n = [] then h2.removeNode opsInfo.toOpInfo n else none

/-- The outcome of `InlineDFG`. -/
inductive Inlining (Meta : Type) where
  | ok (h : Hugr Ops.Op Meta)
  | notDfg
  | cantInlineEntrypoint
  | panic

/-- `InlineDFG::verify`, inline_dfg.rs:36-45; `none` if it succeeds. -/
def inlineVerify (h : Hugr Ops.Op Meta) (n : Nat) : Option (Inlining Meta) :=
  match h.ops n with
  | .dfg _ => if n = h.entrypoint then some .cantInlineEntrypoint else none
  | _ => some .notDfg

/-- `InlineDFG::apply_hugr_mut` after `verify`, inline_dfg.rs:66-143. `get_io` and `get_parent` are
`unwrap`ped. -/
def inlineApply (h : Hugr Ops.Op Meta) (n : Nat) : Option (Hugr Ops.Op Meta) :=
  match (h.ops n).otherPort .incoming, (h.ops n).otherPort .outgoing with
  | .ok (some othIn), .ok (some othOut) =>
    match h.getParent n, getIo h n with
    | some parent, some (input, output) =>
      match each (fun g c => g.setParent c parent) h ((h.children n).drop 2) with
      | none => none
      | some h1 =>
        match inlineLinks h1 n input output othIn othOut with
        | none => none
        | some h2 => inlineRemove h2 n input output
    | _, _ => none
  | _, _ => none

/-- `InlineDFG::apply_hugr_mut`, inline_dfg.rs:61-144. -/
def inlineDfg (h : Hugr Ops.Op Meta) (n : Nat) : Inlining Meta :=
  match inlineVerify h n with
  | some e => e
  | none =>
    match inlineApply h n with
    | some g => .ok g
    | none => .panic

end Verif.Patch
