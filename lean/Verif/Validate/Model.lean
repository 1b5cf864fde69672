import Verif.Validate.Topo
import Verif.Graph.SerializeOps

/-!
# Model of the validation of a Hugr

Sources: `/repo/hugr-core/src/hugr/validate.rs`, `/repo/hugr-core/src/ops/validate.rs`.

Simplifications. Unresolved opaque operations, which are always rejected (validate.rs:143-149), are
not among the modelled operations. What `Ops.Op` does not represent is given in `Context`: the
visibility of functions, the result of `Const::validate`, and the definitions of extension operations.
Types are compared structurally: sums are in the form in which the constructors make them (C02).
The cache of the dominator trees is left out: the Hugr does not change. The JSON round trip of test
builds (validate.rs:66-82) is left out.
-/
namespace Verif.Validate

open Verif.Graph Verif.Ops Verif.Types Verif.Passes

variable {Meta : Type}

/-- `ValidationError`, `InterGraphEdgeError`, `ChildrenValidationError` and `EdgeValidationError`,
with the nodes, ports and edges that they name. -/
inductive VError where
  | rootNotRoot
  | wrongNumberOfPorts (n : Nat) (dir : Graph.Dir) (actual expected : Nat)
  | unconnectedPort (n : Nat) (dir : Graph.Dir) (port : Nat)
  | tooManyConnections (n : Nat) (dir : Graph.Dir) (port : Nat)
  | incompatiblePorts (l : Link)
  | noParent (n : Nat)
  | invalidParentOp (child parent : Nat)
  | invalidInitialChild (parent : Nat) (first : Bool)
  | conditionalSum (parent : Nat)
  | caseSignature (parent child : Nat)
  | ioSignature (parent child : Nat)
  | internalExit (parent child : Nat)
  | internalIO (parent child : Nat)
  | duplicateExport (first second : Nat)
  | cfgEdge (parent : Nat) (l : Link)
  | nonContainerWithChildren (n : Nat)
  | containerWithoutChildren (n : Nat)
  | notADag (n : Nat)
  | nonCopyableData (l : Link)
  | nonCfgAncestor (l : Link)
  | missingOrderEdge (l : Link) (ancestor : Nat)
  | noRelation (l : Link)
  | nonDominatedAncestor (l : Link) (ancestor : Nat)
  | signature (n : Nat)
  | constType (n : Nat)
  | entrypointNotContainer (n : Nat)
deriving DecidableEq

/-- The outcome of a check. -/
inductive Verdict where
  | ok
  | error (e : VError)
  | panic
deriving DecidableEq

/-- `?`: the first check that does not succeed is the outcome. -/
def Verdict.andThen : Verdict → Verdict → Verdict
  | .ok, v => v
  | v, _ => v

/-- `if !b { return Err(e) }`. -/
def check (b : Bool) (e : VError) : Verdict := if b then .ok else .error e

/-- A `for` loop with checks. -/
def forAll {α : Type} (f : α → Verdict) : List α → Verdict
  | [] => .ok
  | a :: l => (f a).andThen (forAll f l)

/-- `SignatureFunc`, extension/op_def.rs:146-158, as far as `validate_args` uses it: a polymorphic
type with the given parameters, or a function that computes the parameters from the static arguments;
`missing` is `MissingComputeFunc` and `MissingValidateFunc`. -/
inductive SigFunc where
  | poly (params : List Term)
  | custom (staticParams : List Term) (compute : List Term → Option (List Term))
  | missing

/-- What the model of operations leaves open. -/
structure Context where
  types : Types.Env
  defs : String → String → SigFunc
  isPublic : Nat → Bool
  constOk : Nat → Bool

/-- `OpDef::validate_args`, extension/op_def.rs:373-398. -/
def validateArgs (C : Context) (f : SigFunc) (args decls : List Term) : Bool :=
  match f with
  | .poly params => validateTerms C.types decls args && checkTerms args params
  | .custom static compute =>
    let staticArgs := args.take (min static.length args.length)
    let otherArgs := args.drop (min static.length args.length)
    validateTerms C.types [] staticArgs && checkTerms staticArgs static &&
      match compute staticArgs with
      | none => false
      | some params => validateTerms C.types decls otherArgs && checkTerms otherArgs params
  | .missing => false

/-- `OpValidityFlags`, ops/validate.rs:26-45. The only edge check is that of control-flow graphs. -/
structure Flags where
  allowedChildren : OpTag := .none
  allowedFirst : OpTag := .any
  allowedSecond : OpTag := .any
  requiresChildren : Bool := false
  requiresDag : Bool := false
  edgeCheck : Bool := false

/-- `validity_flags`, ops/validate.rs:62-70, 73-81, 116-127, 258-268, 412-425. -/
def flags : Ops.Op → Flags
  | .module => { allowedChildren := .moduleOp }
  | .conditional .. => { allowedChildren := .case, requiresChildren := true }
  | .cfg .. =>
    { allowedChildren := .controlFlowChild, allowedFirst := .dataflowBlock,
      allowedSecond := .basicBlockExit, requiresChildren := true, edgeCheck := true }
  | .funcDefn .. | .dfg .. | .tailLoop .. | .dataflowBlock .. | .case .. =>
    { allowedChildren := .dataflowChild, allowedFirst := .input, allowedSecond := .output,
      requiresChildren := true, requiresDag := true }
  | _ => {}

/-- `validate_io_nodes`, ops/validate.rs:284-337. -/
def validateIoNodes (h : Hugr Ops.Op Meta) (parent : Nat) (sig : Signature) : List Nat → Verdict
  | first :: second :: rest =>
    match (h.ops first).dataflowSignature, (h.ops second).dataflowSignature with
    | .ok s1, .ok s2 =>
      (check (decide ((s1.getD ⟨[], []⟩).output = sig.input)) (.ioSignature parent first)).andThen
      ((check (decide ((s2.getD ⟨[], []⟩).input = sig.output)) (.ioSignature parent second)).andThen
      (forAll (fun c => check (decide ((h.ops c).opTag ≠ .input ∧ (h.ops c).opTag ≠ .output))
        (.internalIO parent c)) rest))
    | _, _ => .panic
  | _ => .panic

/-- `CFG::validate_op_children`, ops/validate.rs:129-167. -/
def validateCfgChildren (h : Hugr Ops.Op Meta) (parent : Nat) (sig : Signature) : List Nat → Verdict
  | entry :: exit :: rest =>
    match h.ops entry, h.ops exit with
    | .dataflowBlock ins _ _, .exitBlock outs =>
      (check (decide (ins = sig.input)) (.ioSignature parent entry)).andThen
      ((check (decide (outs = sig.output)) (.ioSignature parent exit)).andThen
      (forAll (fun c => check (decide ((h.ops c).opTag ≠ .basicBlockExit)) (.internalExit parent c))
        rest))
    | _, _ => .panic
  | _ => .panic

/-- The check of one case, ops/validate.rs:100-109; `row` is its expected input. -/
def validateCase (parent : Nat) (outs : List Ty) (c : Nat) : Ops.Op → Option (List Ty) → Verdict
  | .case sig, some row =>
    check (decide (sig.input = row ∧ sig.output = outs)) (.caseSignature parent c)
  | _, _ => .panic

/-- The loop over the cases, ops/validate.rs:99-110; `i` is the index of the first of the children. -/
def validateCases (h : Hugr Ops.Op Meta) (parent : Nat) (op : Ops.Op) (outs : List Ty) :
    Nat → List Nat → Verdict
  | _, [] => .ok
  | i, c :: cs =>
    (validateCase parent outs c (h.ops c) (op.caseInputRow i)).andThen
    (validateCases h parent op outs (i + 1) cs)

/-- `validate_op_children`, ops.rs (the default accepts), ops/validate.rs:83-113, 129-167, 271-277. -/
def validateOpChildren (h : Hugr Ops.Op Meta) (n : Nat) (children : List Nat) : Verdict :=
  match h.ops n with
  | .conditional rows other outs =>
    (check (decide (rows.length = children.length)) (.conditionalSum n)).andThen
    (validateCases h n (.conditional rows other outs) outs 0 children)
  | .cfg sig => validateCfgChildren h n sig children
  | op =>
    match op.innerSignature with
    | some sig => validateIoNodes h n sig children
    | none => .ok

/-- The input of a basic block, ops/validate.rs:347-351. -/
def blockInput : Ops.Op → Option (List Ty)
  | .dataflowBlock ins _ _ => some ins
  | .exitBlock outs => some outs
  | _ => none

/-- `validate_cfg_edge`, ops/validate.rs:340-363. -/
def validateCfgEdge (h : Hugr Ops.Op Meta) (parent : Nat) (l : Link) : Verdict :=
  match h.ops l.src with
  | .dataflowBlock ins other rows =>
    match blockInput (h.ops l.dst) with
    | none => .panic
    | some target =>
      check (decide ((Op.dataflowBlock ins other rows).successorInput l.srcPort = some target))
        (.cfgEdge parent l)
  | _ => .panic

/-- `HugrView::node_connections`, views.rs:652-658: the links from one node to another. -/
def nodeConnections (h : Hugr Ops.Op Meta) (src dst : Nat) : List Link :=
  h.links.filter fun l => l.src = src && l.dst = dst

/-- `HugrView::output_neighbours`. -/
def outputNeighbours (h : Hugr Ops.Op Meta) (n : Nat) : List Nat :=
  (h.links.filter fun l => l.src = n).map Link.dst

/-- The loop over the edges between the children, validate.rs:370-396. -/
def validateEdges (h : Hugr Ops.Op Meta) (n : Nat) (children : List Nat) : Verdict :=
  forAll (fun source =>
    forAll (fun target =>
      if h.getParent target ≠ some n then .ok
      else forAll (validateCfgEdge h n) (nodeConnections h source target))
      (outputNeighbours h source)) children

/-- The successors of a node in the region of the children of `p`: `region_portgraph`,
internal.rs:121-132, is the graph of the children without the parent. -/
def regionSucc (h : Hugr Ops.Op Meta) (p n : Nat) : List Nat :=
  (h.links.filter fun l => l.src = n && (n ∈ h.children p && l.dst ∈ h.children p)).map Link.dst

/-- The predecessors of a node in the region of the children of `p`. -/
def regionPred (h : Hugr Ops.Op Meta) (p n : Nat) : List Nat :=
  (h.links.filter fun l => l.dst = n && (n ∈ h.children p && l.src ∈ h.children p)).map Link.src

/-- `validate_children_dag`, validate.rs:416-441. -/
def validateDag (h : Hugr Ops.Op Meta) (n : Nat) : Verdict :=
  check (decide ((topo (h.children n) (regionSucc h n) (regionPred h n)).length =
    (h.children n).length)) (.notADag n)

/-- The check of the second child, validate.rs:346-359. -/
def validateSecond (h : Hugr Ops.Op Meta) (n : Nat) (allowed : OpTag) : List Nat → Verdict
  | [] => .ok
  | c :: _ => check (allowed.isSuperset (h.ops c).opTag) (.invalidInitialChild n false)

/-- `validate_children`, validate.rs:317-410. -/
def validateChildren (h : Hugr Ops.Op Meta) (n : Nat) : Verdict :=
  let f := flags (h.ops n)
  match h.children n with
  | [] => check (!f.requiresChildren) (.containerWithoutChildren n)
  | c :: cs =>
    (check (!f.allowedChildren.isEmpty) (.nonContainerWithChildren n)).andThen
    ((check (f.allowedFirst.isSuperset (h.ops c).opTag) (.invalidInitialChild n true)).andThen
    ((validateSecond h n f.allowedSecond cs).andThen
    ((validateOpChildren h n (c :: cs)).andThen
    ((if f.edgeCheck then validateEdges h n (c :: cs) else Verdict.ok).andThen
    (if f.requiresDag then validateDag h n else .ok)))))

/-- The check of the number of ports in one direction, validate.rs:152-164. -/
def validatePortCount (h : Hugr Ops.Op Meta) (n : Nat) (dir : Graph.Dir) : Verdict :=
  match (h.ops n).portCount dir.toOps with
  | .panic => .panic
  | .ok k => check (decide (h.numPorts n dir = k)) (.wrongNumberOfPorts n dir (h.numPorts n dir) k)

/-- The check of the parent, validate.rs:166-183. -/
def validateParent (h : Hugr Ops.Op Meta) (n : Nat) : Verdict :=
  if n = h.moduleRoot then .ok
  else
    match h.getParent n with
    | none => .error (.noParent n)
    | some p => check ((flags (h.ops p)).allowedChildren.isSuperset (h.ops n).opTag)
        (.invalidParentOp n p)

/-- The check of the entrypoint, validate.rs:185-194. -/
def validateEntrypoint (h : Hugr Ops.Op Meta) (n : Nat) : Verdict :=
  if n = h.entrypoint then
    check (!(flags (h.ops n)).allowedChildren.isEmpty) (.entrypointNotContainer n)
  else .ok

/-- The check of constants, validate.rs:201-205. -/
def validateConst (C : Context) (n : Nat) : Ops.Op → Verdict
  | .const _ => check (C.constOk n) (.constType n)
  | _ => .ok

/-- `validate_node`, validate.rs:139-208. -/
def validateNode (C : Context) (h : Hugr Ops.Op Meta) (n : Nat) : Verdict :=
  (forAll (validatePortCount h n) [.incoming, .outgoing]).andThen
  ((validateParent h n).andThen
  ((validateEntrypoint h n).andThen
  ((validateChildren h n).andThen
  (validateConst C n (h.ops n)))))

/-- `EdgeKind::is_linear`, types.rs:72-74. -/
def isLinear : Kind → Bool
  | .value t => !t.copyable
  | _ => false

/-- `EdgeKind::is_const`, types.rs:103-105. -/
def isConst : Kind → Bool
  | .const _ => true
  | _ => false

/-- `validate_port_kind`, validate.rs:301-314. -/
def validatePortKind (C : Context) (decls : List Term) : Kind → Bool
  | .value t => t.validate C.types decls
  | .const t => t.validate C.types []
  | .function pf => pf.validate C.types
  | _ => true

/-- Whether `b` dominates `a` in the graph reached from `entry`: `Dominators::dominators(a)` contains
`b`. `petgraph::algo::dominators::simple_fast`, whose source is not available here, is modelled by its
documentation: `a` can be reached, but not without `b`. -/
def dominates (nodes : List Nat) (succ : Nat → List Nat) (entry b a : Nat) : Bool :=
  let without := fun n => (succ n).filter fun m => m ≠ b
  let start := if entry = b then [] else [entry]
  decide (a ∈ dfs succ (dfsFuel succ nodes [entry]) [] [entry]) &&
    !decide (a ∈ dfs without (dfsFuel without nodes start) [] start)

/-- The check of domination, validate.rs:516-537, with `compute_dominator`, validate.rs:125-133:
`unwrap` panics if the graph has no children. -/
def checkDominance (h : Hugr Ops.Op Meta) (cfg : Nat) (b a : Nat) (e : VError) : Verdict :=
  match h.children cfg with
  | [] => .panic
  | entry :: _ => check (dominates (h.children cfg) (regionSucc h cfg) entry b a) e

/-- The loop over the ancestors of the target, validate.rs:480-548. `a` is the current ancestor,
`fp` the parent of the source. `fuel` bounds the height. -/
def edgeLoop (h : Hugr Ops.Op Meta) (l : Link) (isStatic : Bool) (fp : Nat) : Nat → Nat → Verdict
  | 0, _ => .error (.noRelation l)
  | fuel + 1, a =>
    match h.getParent a with
    | none => .error (.noRelation l)
    | some ap =>
      if ap = fp then
        if isStatic then .ok
        else
          match (nodeConnections h l.src a).find? fun c =>
            decide ((h.ops l.src).portKind .outgoing c.srcPort = .ok (some .stateOrder)) with
          | some _ => .ok
          | none => .error (.missingOrderEdge l a)
      else if some ap = h.getParent fp ∧ isStatic = false then
        (check (decide ((h.ops ap).opTag = .cfg)) (.nonCfgAncestor l)).andThen
        (checkDominance h ap fp a (.nonDominatedAncestor l a))
      else edgeLoop h l isStatic fp fuel ap

/-- `validate_edge`, validate.rs:450-556. -/
def validateEdge (h : Hugr Ops.Op Meta) (l : Link) (kind : Kind) : Verdict :=
  match h.getParent l.src with
  | none => .panic
  | some fp =>
    if h.getParent l.dst = some fp then .ok
    else if !kind.isStatic && !(kind.isValue && !isLinear kind) then .error (.nonCopyableData l)
    else
      match h.getParent l.dst with
      | none => .error (.noRelation l)
      | some tp => edgeLoop h l kind.isStatic fp (h.cap + 1) tp

/-- The comparison of the kinds of linked ports, validate.rs:271-288; `other` is the kind of the
target. -/
def checkKind (kind : Kind) (l : Link) : Run (Option Kind) → Verdict
  | .ok (some k) => check (decide (k = kind)) (.incompatiblePorts l)
  | _ => .panic

/-- The loop over the links of an outgoing port, validate.rs:260-292; `first` tells whether there was
no link before. -/
def validateLinks (h : Hugr Ops.Op Meta) (n port : Nat) (kind : Kind) (unique : Bool) :
    Bool → List (Nat × Nat) → Verdict
  | _, [] => .ok
  | first, (m, mp) :: rest =>
    (check (!(unique && !first)) (.tooManyConnections n .outgoing port)).andThen
    ((checkKind kind ⟨n, port, m, mp⟩ ((h.ops m).portKind .incoming mp)).andThen
    ((validateEdge h ⟨n, port, m, mp⟩ kind).andThen
    (validateLinks h n port kind unique false rest)))

/-- `validate_port`, validate.rs:213-295, of an incoming port. -/
def validateIncoming (h : Hugr Ops.Op Meta) (n port : Nat) : Verdict :=
  match (h.ops n).portKind .incoming port with
  | .ok (some kind) =>
    let links := h.linkedOutputs n port
    (check (!(decide (kind ≠ .stateOrder) && decide (kind ≠ .controlFlow) &&
        decide ((h.ops n).opTag ≠ .case) && links.isEmpty)) (.unconnectedPort n .incoming port)).andThen
    (check (!((kind.isValue || isConst kind) && decide (1 < links.length)))
      (.tooManyConnections n .incoming port))
  | _ => .panic

/-- `validate_port`, validate.rs:213-295, of an outgoing port. -/
def validateOutgoing (C : Context) (h : Hugr Ops.Op Meta) (decls : List Term) (n port : Nat) : Verdict :=
  match (h.ops n).portKind .outgoing port with
  | .ok (some kind) =>
    let links := h.linkedInputs n port
    let unique := isLinear kind || decide (kind = .controlFlow)
    (check (!(unique && links.isEmpty)) (.unconnectedPort n .outgoing port)).andThen
    ((check (validatePortKind C decls kind) (.signature n)).andThen
    (validateLinks h n port kind unique true links))
  | _ => .panic

/-- `Call::validate` and `LoadFunction::validate`, ops/dataflow.rs:282-292, 473-483. -/
def validateCall (C : Context) (n : Nat) (sig : PolyFunc) (args : List Term) (inst : Signature) :
    Verdict :=
  match sig.instantiate C.types args with
  | .ok s => check (decide (s = inst)) (.signature n)
  | .error => .error (.signature n)
  | .panic => .panic

/-- The checks of the operation, validate.rs:569-609. -/
def validateOp (C : Context) (decls : List Term) (n : Nat) : Ops.Op → Verdict
  | .extensionOp ext name args _ => check (validateArgs C (C.defs ext name) args decls) (.signature n)
  | .call sig args inst => validateCall C n sig args inst
  | .loadFunction sig args inst => validateCall C n sig args inst
  | _ => .ok

/-- The variables that the children of a node may use, validate.rs:620-624. -/
def declsBelow (op : Ops.Op) (decls : List Term) : List Term :=
  match op with
  | .funcDefn _ sig => sig.params
  | _ => decls

/-- `validate_subtree`, validate.rs:560-631. `fuel` bounds the height. -/
def validateSubtree (C : Context) (h : Hugr Ops.Op Meta) : Nat → List Term → Nat → Verdict
  | 0, _, _ => .panic
  | fuel + 1, decls, n =>
    (validateOp C decls n (h.ops n)).andThen
    ((forAll (validateIncoming h n) (List.range (h.numPorts n .incoming))).andThen
    ((forAll (validateOutgoing C h decls n) (List.range (h.numPorts n .outgoing))).andThen
    (forAll (validateSubtree C h fuel (declsBelow (h.ops n) decls)) (h.children n))))

/-- The public functions, validate.rs:93-101: name, signature and whether it is a definition. -/
def exported (C : Context) (h : Hugr Ops.Op Meta) (n : Nat) : Option (String × PolyFunc × Bool) :=
  match h.ops n with
  | .funcDecl name sig => if C.isPublic n then some (name, sig, false) else none
  | .funcDefn name sig => if C.isPublic n then some (name, sig, true) else none
  | _ => none

/-- The loop of `validate_linkage`, validate.rs:92-119. -/
def linkageLoop (C : Context) (h : Hugr Ops.Op Meta) :
    List (String × Nat × PolyFunc × Bool) → List Nat → Verdict
  | _, [] => .ok
  | seen, c :: cs =>
    match exported C h c with
    | none => linkageLoop C h seen cs
    | some (name, sig, isDefn) =>
      match seen.lookup name with
      | none => linkageLoop C h ((name, c, sig, isDefn) :: seen) cs
      | some (prev, prevSig, prevDefn) =>
        if prevSig ≠ sig ∨ isDefn = true ∨ prevDefn = true then .error (.duplicateExport prev c)
        else linkageLoop C h seen cs

/-- `validate`, validate.rs:47-85. -/
def validate (C : Context) (h : Hugr Ops.Op Meta) : Verdict :=
  (check (h.getParent h.moduleRoot).isNone .rootNotRoot).andThen
  ((forAll (validateNode C h) h.nodes).andThen
  ((validateSubtree C h (h.cap + 1) [] h.moduleRoot).andThen
  (linkageLoop C h [] (h.children h.moduleRoot))))

end Verif.Validate
