import Verif.Patch.PeelLemmas
import Verif.Patch.Untuple

/-!
# Model of turning a control-flow graph into a dataflow graph

Source: `/repo/hugr-passes/src/normalize_cfgs.rs`, the part of `normalize_cfg` for control-flow graphs whose
entry block goes to the exit. What merging two blocks does, and moving the entry block or the block before
the exit out of the control-flow graph, are not modelled.
-/
namespace Verif.Patch

open Verif.Graph Verif.Ops Verif.Passes Verif.Validate

variable {Meta : Type}

/-- The block that `merge_basic_blocks` merges `n` with, normalize_cfgs.rs:42-55. -/
def mergeable (h : Hugr Ops.Op Meta) (G n : Nat) : Option (Nat × Nat) :=
  match outputNeighbours h n with
  | [succ] =>
    if (inputNeighbours h succ).length ≠ 1 then none
    else if succ ∈ (h.children G).take 2 then none
    else some (n, succ)
  | _ => none

/-- A row without row variables: `TryFrom<TypeRowRV> for TypeRow`, hugr-core/src/types/type_row.rs:130-143. -/
def plainRow : List Types.RTy → Option (List Types.Ty)
  | [] => some []
  | .ty t :: r => (plainRow r).map (t :: ·)
  | .rowVar _ _ :: _ => none

/-- `tuple_elems`, normalize_cfgs.rs:472-479, given the kind of the port; with `SumType::as_tuple`,
hugr-core/src/types.rs:274-281. -/
def tupleElems : Option Kind → Option (List Types.Ty)
  | some (.value (.sumUnit 1)) => some []
  | some (.value (.sumGen [row] _)) => plainRow row
  | _ => none

/-- The loop of `take_inputs`, normalize_cfgs.rs:454-468, over the given ports. The result is the Hugr, the
sources of values and the sources of order. -/
def takePorts (n : Nat) : List Nat → Hugr Ops.Op Meta → List (Nat × Nat) → List (Nat × Nat) →
    Option (Hugr Ops.Op Meta × List (Nat × Nat) × List (Nat × Nat))
  | [], h, values, orders => some (h, values, orders)
  | p :: ps, h, values, orders =>
    match h.disconnect n .incoming p with
    | none => none
    | some h1 =>
      match (h1.ops n).portKind .incoming p with
      | .ok (some (.value _)) =>
        if (h.linkedOutputs n p).length = 1 then takePorts n ps h1 (values ++ h.linkedOutputs n p) orders else none
      | .ok (some .stateOrder) =>
        if orders = [] then takePorts n ps h1 values (orders ++ h.linkedOutputs n p) else none
      | _ => none

/-- `take_inputs`, normalize_cfgs.rs:451-470. -/
def takeInputs (h : Hugr Ops.Op Meta) (n : Nat) :
    Option (Hugr Ops.Op Meta × List (Nat × Nat) × List (Nat × Nat)) :=
  takePorts n (List.range (h.ins n)) h [] []

/-- `UnpackTuple::new` as an operation, hugr-core/src/extension/prelude.rs:740-790. -/
def unpackOp (types : List Types.Ty) : Ops.Op :=
  .extensionOp "prelude" "UnpackTuple" [.list (types.map .runtime)] ⟨[sumOf [types]], types⟩

/-- The sources after the first, linked to consecutive ports from `k`, normalize_cfgs.rs:505-508. -/
def wireRest (dst order : Nat) : Hugr Ops.Op Meta → Nat → List (Nat × Nat) → Option (Hugr Ops.Op Meta)
  | h, _, [] => some h
  | h, k, s :: ss =>
    if k < order then
      match h.connect ⟨s.1, s.2, dst, k⟩ with
      | none => none
      | some h' => wireRest dst order h' (k + 1) ss
    else none

/-- `wire_unpack_first`, normalize_cfgs.rs:483-512. `w` is the index of the new node. -/
def wireUnpackFirst (h : Hugr Ops.Op Meta) (w : Nat) (values orders : List (Nat × Nat)) (dst : Nat) :
    Option (Hugr Ops.Op Meta) :=
  match h.getParent dst, values with
  | some parent, s :: rest =>
    match (h.ops s.1).portKind .outgoing s.2 with
    | .panic => none
    | .ok kind =>
      match tupleElems kind with
      | none => none
      | some types =>
        match h.addNodeWithParent opsInfo.toOpInfo w parent (unpackOp types) with
        | none => none
        | some h1 =>
          match h1.connect ⟨s.1, s.2, w, 0⟩ with
          | none => none
          | some h2 =>
            match each (fun g i => g.connect ⟨w, i, dst, i⟩) h2 (List.range types.length) with
            | none => none
            | some h3 =>
              match (h3.ops dst).otherPortKind .incoming, (h3.ops dst).otherPort .incoming with
              | some .stateOrder, .ok (some order) =>
                match wireRest dst order h3 types.length rest with
                | none => none
                | some h4 => each (fun g (s : Nat × Nat) => g.connect ⟨s.1, s.2, dst, order⟩) h4 orders
              | _, _ => none
  | _, _ => none

/-- `unpack_before_output`, normalize_cfgs.rs:515-524. -/
def unpackBeforeOutput (h : Hugr Ops.Op Meta) (w output : Nat) (newTypes : List Types.Ty) : Option (Hugr Ops.Op Meta) :=
  match takeInputs h output with
  | none => none
  | some (h1, values, orders) =>
    match h1.ops output with
    | .output types =>
      match h1.replaceOp output (.output newTypes) with
      | none => none
      | some (h2, _) =>
        match h2.addPorts output .incoming ((newTypes.length : Int) - types.length) with
        | none => none
        | some (h3, _) => wireUnpackFirst h3 w values orders output
    | _ => none

/-- The control-flow graph `G` becomes a dataflow graph with what is in its entry block, normalize_cfgs.rs:198-219.
`w` is the index of the new node. -/
def cfgToDfg (h : Hugr Ops.Op Meta) (G E w : Nat) (sig : Types.Signature) : Option (Hugr Ops.Op Meta) :=
  match h.ops E, (h.ops E).successorInput 0 with
  | .dataflowBlock ins _ _, some outs =>
    if (⟨ins, outs⟩ : Types.Signature) ≠ sig then none
    else
      match each (fun g c => g.removeSubtree opsInfo.toOpInfo c) h ((h.children G).drop 1) with
      | none => none
      | some h1 =>
        match each (fun g c => g.setParent c G) h1 (h1.children E) with
        | none => none
        | some h2 =>
          match h2.removeNode opsInfo.toOpInfo E with
          | none => none
          | some h3 =>
            match h3.replaceOp G (.dfg sig) with
            | none => none
            | some (h4, _) =>
              match getIo h4 G with
              | none => none
              | some (_, o) => unpackBeforeOutput h4 w o sig.output
  | _, _ => none

/-- What `normalize_cfg` does. -/
inductive Normalized (Meta : Type) where
  | toDfg (h : Hugr Ops.Op Meta)
  /-- It merges the blocks; not modelled further. -/
  | merges (n succ : Nat)
  /-- It goes on with moving blocks out; not modelled further. -/
  | goesOn
  | notCfg
  | panic

/-- `normalize_cfg`, normalize_cfgs.rs:161-220, with `merge_basic_blocks`, :34-64. `w` is the index of the new
node. -/
def normalizeCfg (h : Hugr Ops.Op Meta) (w : Nat) : Normalized Meta :=
  match h.ops h.entrypoint with
  | .cfg sig =>
    match (h.children h.entrypoint).reverse.findSome? (mergeable h h.entrypoint) with
    | some (n, succ) =>
      match h.ops n, h.ops succ with
      | .dataflowBlock .., .dataflowBlock .. => .merges n succ
      | _, _ => .panic
    | none =>
      match h.children h.entrypoint, h.getParent h.entrypoint with
      | entry :: exit :: _, some _ =>
        match h.ops entry with
        | .dataflowBlock .. =>
          if outputNeighbours h entry = [exit] ∧ inputNeighbours h entry = [] then
            match cfgToDfg h h.entrypoint entry w sig with
            | some g => .toDfg g
            | none => .panic
          else .goesOn
        | _ => .panic
      | _, _ => .panic
  | _ => .notCfg

/-! ## Specification -/

/-- `x` is in the control-flow graph `G`, but not in the block `E`; or it is that block. -/
def Goes (h : Hugr Ops.Op Meta) (G E x : Nat) : Prop :=
  x = E ∨ ∃ c, h.hier.parent c = some G ∧ c ≠ E ∧ Above h.hier.parent x c

/-- Where a link to the output `o` goes now: what was the first value goes to `w`, other things go to later
ports. -/
def redirect (o w len : Nat) (l : Link) : Link :=
  if l.dst = o then
    if l.dstPort = 0 then { l with dst := w } else { l with dstPort := len + (l.dstPort - 1) }
  else l

open Classical in
/-- `g` is `h` with the control-flow graph `G` replaced by a dataflow graph with what is in its block `E`, where
the first value that the block outputs, a tuple of the types `row`, is unpacked by `w` before it is output by
`o`. -/
structure AsDfg (h : Hugr Ops.Op Meta) (G E o w : Nat) (sig : Types.Signature) (row : List Types.Ty)
    (g : Hugr Ops.Op Meta) : Prop where
  /-- All blocks go; what is in the block `E` stays. -/
  live : ∀ x, g.live x = true ↔ (h.live x = true ∧ ¬ Goes h G E x) ∨ x = w
  ops : ∀ x, g.live x = true → g.ops x =
    if x = w then unpackOp row else if x = G then .dfg sig else if x = o then .output sig.output else h.ops x
  /-- Nothing is left of what goes. -/
  gone : ∀ x, g.live x = false → g.ops x = if h.live x = true then .module else h.ops x
  parent : ∀ x, g.live x = true → g.hier.parent x =
    if x = w ∨ h.hier.parent x = some E then some G else h.hier.parent x
  children : ∀ x, g.live x = true → g.children x =
    if x = G then h.children E ++ [w] else if x = w then [] else h.children x
  ports : ∀ x, g.live x = true → g.ins x = (if x = w then 2 else if x = o then sig.output.length + 1 else h.ins x) ∧
    g.outs x = if x = w then row.length + 1 else h.outs x
  metadata : ∀ x, g.live x = true → x ≠ w → g.metadata x = h.metadata x
  roots : g.moduleRoot = h.moduleRoot ∧ g.entrypoint = h.entrypoint
  /-- The links of what stays; the elements of the tuple are output first. -/
  links : g.links.Perm (((h.links.filter fun l => decide (¬ Goes h G E l.src ∧ ¬ Goes h G E l.dst)).map
    (redirect o w row.length)) ++ (List.range row.length).map fun k => ⟨w, k, o, k⟩)

end Verif.Patch
