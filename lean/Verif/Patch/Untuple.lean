import Verif.Patch.SimpleReplace
import Verif.Patch.Sibling
import Verif.Validate.Model

/-!
# `UntuplePass`: removing tuples that are packed and unpacked again

Models hugr-passes/src/untuple.rs without `UntupleRecursive::Recursive`: in that mode the convexity checker of the first
region that needs one is used for the nodes of all regions, and what `portgraph` does then is not known here.
-/
namespace Verif.Patch

open Verif.Graph Verif.Ops Verif.Validate

variable {Meta : Type}

/-! ## Operations -/

/-- Whether `OpType::cast` gives a `MakeTuple` or `UnpackTuple`: hugr-core/src/extension/prelude.rs:703-722 and
:758-777, with `try_from_name`, extension/simple_op.rs:217-233. The only argument has to be a list of types. -/
def isTupleOp (name : String) : Ops.Op → Bool
  | .extensionOp ext nm [.list elems] _ => ext == "prelude" && nm == name &&
      elems.all fun | .runtime _ => true | _ => false
  | _ => false

/-- `op.dataflow_signature().unwrap().input_types()`, untuple.rs:169. -/
def inputTypes (op : Ops.Op) : List Types.Ty :=
  match op.dataflowSignature with
  | .ok (some sig) => sig.input
  | _ => []

/-- `MakeTuple::new` as an operation, prelude.rs:688-695, 724-726. -/
def makeTupleOp (types : List Types.Ty) : Ops.Op :=
  .extensionOp "prelude" "MakeTuple" [.list (types.map .runtime)] ⟨types, [sumOf [types]]⟩

/-! ## Building the replacement -/

/-- Connecting ports one after the other. -/
def connectAll (h : Hugr Ops.Op Meta) : List Link → Option (Hugr Ops.Op Meta)
  | [] => some h
  | l :: ls =>
    match h.connect l with
    | none => none
    | some g => connectAll g ls

/-- `wire_up`, hugr-core/src/builder/build_traits.rs:776-850, from a sibling: values that cannot be copied are linked only
once. `none` is an error or a panic. -/
def wireUp (h : Hugr Ops.Op Meta) (l : Link) : Option (Hugr Ops.Op Meta) :=
  match (h.ops l.src).portKind .outgoing l.srcPort with
  | .ok (some (.value t)) =>
    if !t.copyable && !(h.linkedInputs l.src l.srcPort).isEmpty then none else h.connect l
  | .ok (some _) => h.connect l
  | _ => none

/-- `wire_up_inputs`, build_traits.rs:746-755: the wires, to the ports from `port` on. -/
def wireUpInputs (dst : Nat) : Nat → Hugr Ops.Op Meta → List (Nat × Nat) → Option (Hugr Ops.Op Meta)
  | _, h, [] => some h
  | port, h, (n, p) :: ws =>
    match wireUp h ⟨n, p, dst, port⟩ with
    | none => none
    | some g => wireUpInputs dst (port + 1) g ws

/-- `DFGBuilder::new`, hugr-core/src/builder/dataflow.rs:249-256, with `make_module_hugr`, hugr-core/src/hugr.rs:489-522: a
function `main` (1) with input (2) and output (3) around the DFG node (4), which gets an input (5) and an output (6). -/
def dfgBuilder (sig : Types.Signature) : Option (Hugr Ops.Op Meta) :=
  match run opsInfo.toOpInfo (Hugr.new opsInfo.toOpInfo .module)
      [.addNodeWithParent 1 0 (.funcDefn "main" ⟨[], sig⟩), .addNodeWithParent 2 1 (.input sig.input),
        .addNodeWithParent 3 1 (.output sig.output), .addNodeWithParent 4 1 (.dfg sig)] with
  | none => none
  | some h1 =>
    match connectAll h1 (((List.range sig.input.length).map fun p => ⟨2, p, 4, p⟩) ++
        (List.range sig.output.length).map fun p => ⟨4, p, 3, p⟩) with
    | none => none
    | some h2 =>
      run opsInfo.toOpInfo h2
        [.setEntrypoint 4, .addNodeWithParent 5 4 (.input sig.input), .addNodeWithParent 6 4 (.output sig.output)]

/-- `input_wires`, build_traits.rs. -/
def inputWires (sig : Types.Signature) : List (Nat × Nat) := (List.range sig.input.length).map fun p => (5, p)

/-- The first wires of the cycle of the inputs: `input_wires().cycle().take(count)`, untuple.rs:243. -/
def cycledWires (sig : Types.Signature) (count : Nat) : List (Nat × Nat) :=
  if sig.input = [] then [] else (List.range count).map fun j => (5, j % sig.input.length)

/-- The replacement that `remove_pack_unpack` makes, untuple.rs:239-255, before it is validated. `none` is a panic. -/
def untupleBody (sig : Types.Signature) (types : List Types.Ty) (unpacked others : Nat) : Option (Hugr Ops.Op Meta) :=
  match dfgBuilder sig with
  | none => none
  | some h =>
    if others = 0 then wireUpInputs 6 0 h (cycledWires sig unpacked)
    else
      match h.addNodeWithParent opsInfo.toOpInfo 7 4 (makeTupleOp types) with
      | none => none
      | some h1 =>
        match wireUpInputs 7 0 h1 (inputWires sig) with
        | none => none
        | some h2 => wireUpInputs 6 0 h2 (cycledWires sig unpacked ++ List.replicate others (7, 0))

/-! ## Rewrites -/

/-- The types that `debug_assert!` asks for, untuple.rs:224-237: those of the tuple again and again, then the tuple. -/
def expectedOutputs (types : List Types.Ty) (unpacked others : Nat) : List Types.Ty :=
  ((List.range unpacked).filterMap fun j => types[j % types.length]?) ++ List.replicate others (sumOf [types])

/-- `remove_pack_unpack`, untuple.rs:204-266. `debug` says whether debug assertions are checked. `none` is a panic. -/
def removePackUnpack (C : Context) (debug : Bool) (h : Hugr Ops.Op Meta) (types : List Types.Ty) (pack : Nat)
    (unpacks : List Nat) (others : Nat) : Option (Subgraph × Hugr Ops.Op Meta) :=
  match tryFromNodes h (unpacks ++ [pack]) with
  | .ok s =>
    match s.signature h with
    | none => none
    | some sig =>
      if debug && decide (sig.output ≠ expectedOutputs types (types.length * unpacks.length) others) then none
      else
        match untupleBody sig types (types.length * unpacks.length) others with
        | none => none
        | some r =>
          if validate C r = .ok then
            if tryNew s h r = .ok then some (s, r) else none
          else none
  | _ => none

/-- The nodes that `linked_inputs(node, 0)` gives, untuple.rs:173-176. -/
def tupleUses (h : Hugr Ops.Op Meta) (n : Nat) : List Nat := (h.linkedInputs n 0).map Prod.fst

/-- The nodes among them that unpack the tuple, untuple.rs:178-183. -/
def unpackNodes (h : Hugr Ops.Op Meta) (n : Nat) : List Nat :=
  (tupleUses h n).filter fun m => decide (h.getParent m = h.getParent n) && isTupleOp "UnpackTuple" (h.ops m)

/-- What `make_rewrite` gives. -/
inductive Rewrite (Meta : Type) where
  | skip
  | rewrite (s : Subgraph) (r : Hugr Ops.Op Meta)
  | panic

/-- `make_rewrite`, untuple.rs:159-200. -/
def makeRewrite (C : Context) (debug : Bool) (h : Hugr Ops.Op Meta) (n : Nat) : Rewrite Meta :=
  if isTupleOp "MakeTuple" (h.ops n) then
    if (unpackNodes h n).isEmpty && !(tupleUses h n).isEmpty then .skip
    else
      match removePackUnpack C debug h (inputTypes (h.ops n)) n (unpackNodes h n)
          ((tupleUses h n).length - (unpackNodes h n).length) with
      | some (s, r) => .rewrite s r
      | none => .panic
  else .skip

/-- The rewrites for some nodes; `none` is a panic. -/
def rewritesOf (C : Context) (debug : Bool) (h : Hugr Ops.Op Meta) : List Nat → Option (List (Subgraph × Hugr Ops.Op Meta))
  | [] => some []
  | n :: ns =>
    match makeRewrite C debug h n with
    | .panic => none
    | .skip => rewritesOf C debug h ns
    | .rewrite s r =>
      match rewritesOf C debug h ns with
      | none => none
      | some rws => some ((s, r) :: rws)

/-- `UntuplePass::find_rewrites`, untuple.rs:99-123, in the children of one node. -/
def findRewrites (C : Context) (debug : Bool) (h : Hugr Ops.Op Meta) (parent : Nat) :
    Option (List (Subgraph × Hugr Ops.Op Meta)) :=
  rewritesOf C debug h (h.children parent)

/-- What the pass gives: the new Hugr, an error, or a panic. -/
inductive Untupled (Meta : Type) where
  | ok (h : Hugr Ops.Op Meta)
  | rewriteError
  | panic

/-- The loop of `UntuplePass::run`, untuple.rs:134-136. `alloc h k` are the indices of `k` new nodes in `h`. -/
def applyRewrites (alloc : Hugr Ops.Op Meta → Nat → List Nat) (h : Hugr Ops.Op Meta) :
    List (Subgraph × Hugr Ops.Op Meta) → Untupled Meta
  | [] => .ok h
  | (s, r) :: rws =>
    match simpleReplace s h r (alloc h (r.descendants r.entrypoint).length) with
    | .ok g _ => applyRewrites alloc g rws
    | .panic => .panic
    | _ => .rewriteError

/-- `UntuplePass::run`, untuple.rs:130-138. -/
def untuplePass (C : Context) (debug : Bool) (alloc : Hugr Ops.Op Meta → Nat → List Nat) (h : Hugr Ops.Op Meta)
    (parent : Option Nat) : Untupled Meta :=
  match findRewrites C debug h (parent.getD h.entrypoint) with
  | none => .panic
  | some rws => applyRewrites alloc h rws

end Verif.Patch
