import Verif.Ops.Tag
import Verif.Types.Model

/-!
# Model of `OpType`: signatures, ports, inner signatures and substitution

Sources: `/repo/hugr-core/src/ops.rs`, `ops/{module,dataflow,controlflow,sum,constant,custom}.rs`.

A computation that may panic returns `Run`.
-/
namespace Verif.Ops

open Verif.Types

/-- A computation that returns a value or panics. -/
inductive Run (α : Type) where
  | panic
  | ok (a : α)
  deriving DecidableEq

def Run.map {α β : Type} (f : α → β) : Run α → Run β
  | .panic => .panic
  | .ok a => .ok (f a)

/-- `portgraph::Direction`. -/
inductive Dir where
  | incoming
  | outgoing
  deriving DecidableEq

/-- `EdgeKind`, hugr-core/src/types.rs:53-67. -/
inductive Kind where
  | controlFlow
  | value (t : Ty)
  | const (t : Ty)
  | function (sig : PolyFunc)
  | stateOrder
  deriving DecidableEq

/-- `OpType`, hugr-core/src/ops.rs:43-68, with the fields of each operation
(ops/module.rs, ops/dataflow.rs, ops/controlflow.rs, ops/sum.rs, ops/custom.rs).
Simplifications: a constant is represented by its type (`Const::get_type`, ops/constant.rs:93-95);
extension operations and opaque operations carry the same fields (extension, name, arguments and
cached signature: ops/custom.rs:39-50, 231-246) and are one constructor. -/
inductive Op where
  | module
  | funcDefn (name : String) (sig : PolyFunc)
  | funcDecl (name : String) (sig : PolyFunc)
  | aliasDefn (name : String) (defn : Ty)
  | aliasDecl (name : String) (bound : Bound)
  | const (t : Ty)
  | input (types : List Ty)
  | output (types : List Ty)
  | call (sig : PolyFunc) (args : List Term) (inst : Signature)
  | callIndirect (sig : Signature)
  | loadConstant (t : Ty)
  | loadFunction (sig : PolyFunc) (args : List Term) (inst : Signature)
  | dfg (sig : Signature)
  | extensionOp (extension name : String) (args : List Term) (sig : Signature)
  | tag (tag : Nat) (variants : List (List Ty))
  | dataflowBlock (inputs otherOutputs : List Ty) (sumRows : List (List Ty))
  | exitBlock (cfgOutputs : List Ty)
  | tailLoop (justInputs justOutputs rest : List Ty)
  | cfg (sig : Signature)
  | conditional (sumRows : List (List Ty)) (otherInputs outputs : List Ty)
  | case (sig : Signature)

/-- A row without row variables seen as a row that may have some: `From<TypeRow> for TypeRowRV`,
hugr-core/src/types/type_row.rs. -/
def rvRow (r : List Ty) : List RTy := r.map .ty

/-- `Type::new_sum` of rows without row variables. -/
def sumOf (rows : List (List Ty)) : Ty := .newSum (rows.map rvRow)

/-- `Type::new_function` of a signature, hugr-core/src/types.rs:459-462. -/
def functionOf (s : Signature) : Ty := .function (rvRow s.input) (rvRow s.output)

namespace Op

/-- `OpTrait::tag`: ops/module.rs:32,120,214,245,289, ops/dataflow.rs:104,126,202,306,337,402,512,
ops/controlflow.rs:27,102,144,184,188,310, ops/sum.rs:33, ops/custom.rs:200,312,
ops/constant.rs:81. -/
def opTag : Op → OpTag
  | module => .moduleRoot
  | funcDefn .. => .funcDefn
  | funcDecl .. => .function
  | aliasDefn .. => .alias
  | aliasDecl .. => .alias
  | const .. => .const
  | input .. => .input
  | output .. => .output
  | call .. => .fnCall
  | callIndirect .. => .dataflowChild
  | loadConstant .. => .loadConst
  | loadFunction .. => .loadFunc
  | dfg .. => .dfg
  | extensionOp .. => .leaf
  | tag .. => .leaf
  | dataflowBlock .. => .dataflowBlock
  | exitBlock .. => .basicBlockExit
  | tailLoop .. => .tailLoop
  | cfg .. => .cfg
  | conditional .. => .conditional
  | case .. => .case

/-- `OpTrait::dataflow_signature`, ops.rs:410-412 and ops/dataflow.rs:159-161, with
`DataflowOpTrait::signature` of each operation: ops/dataflow.rs:114-117, 134-137, 208-210, 312-319,
343-346, 408-413, 518-520, ops/controlflow.rs:33-38, 108-115, 150-152, ops/sum.rs:41-50,
ops/custom.rs:206-208, 318-320. -/
def dataflowSignature : Op → Run (Option Signature)
  | input types => .ok (some ⟨[], types⟩)
  | output types => .ok (some ⟨types, []⟩)
  | call _ _ inst => .ok (some inst)
  | callIndirect s => .ok (some ⟨functionOf s :: s.input, s.output⟩)
  | loadConstant t => .ok (some ⟨[], [t]⟩)
  | loadFunction _ _ inst => .ok (some ⟨[], [functionOf inst]⟩)
  | dfg s => .ok (some s)
  | extensionOp _ _ _ s => .ok (some s)
  | tag k variants =>
    match variants[k]? with
    | some row => .ok (some ⟨row, [sumOf variants]⟩)
    | none => .panic
  | tailLoop ji jo rest => .ok (some ⟨ji ++ rest, jo ++ rest⟩)
  | cfg s => .ok (some s)
  | conditional rows other outs => .ok (some ⟨sumOf rows :: other, outs⟩)
  | _ => .ok none

/-- `OpTrait::other_input`, ops.rs:419-421, ops/dataflow.rs:32-34, 110-112,
ops/controlflow.rs:214-216, 247-249. -/
def otherInput : Op → Option Kind
  | module | funcDefn .. | funcDecl .. | aliasDefn .. | aliasDecl .. | const .. | case .. => none
  | input .. => none
  | dataflowBlock .. | exitBlock .. => some .controlFlow
  | _ => some .stateOrder

/-- `OpTrait::other_output`, ops.rs:428-430, ops/dataflow.rs:41-43, 139-141,
ops/controlflow.rs:218-220, 251-253. -/
def otherOutput : Op → Option Kind
  | module | funcDefn .. | funcDecl .. | aliasDefn .. | aliasDecl .. | const .. | case .. => none
  | output .. => none
  | dataflowBlock .. | exitBlock .. => some .controlFlow
  | _ => some .stateOrder

/-- `OpTrait::static_input`, ops.rs:437-439, ops/dataflow.rs:212-214, 348-350, 415-417. -/
def staticInput : Op → Option Kind
  | call s _ _ => some (.function s)
  | loadConstant t => some (.const t)
  | loadFunction s _ _ => some (.function s)
  | _ => none

/-- `OpTrait::static_output`, ops.rs:446-448, ops/module.rs:138-140, 226-228,
ops/constant.rs:93-95. -/
def staticOutput : Op → Option Kind
  | funcDefn _ s => some (.function s)
  | funcDecl _ s => some (.function s)
  | const t => some (.const t)
  | _ => none

/-- `OpType::other_port_kind`, ops.rs:151-156. -/
def otherPortKind (op : Op) : Dir → Option Kind
  | .incoming => op.otherInput
  | .outgoing => op.otherOutput

/-- `OpType::static_port_kind`, ops.rs:166-171. -/
def staticPortKind (op : Op) : Dir → Option Kind
  | .incoming => op.staticInput
  | .outgoing => op.staticOutput

/-- `OpTrait::non_df_port_count`, ops.rs:451-459, ops/controlflow.rs:222-227, 255-260. -/
def nonDfPortCount (op : Op) (dir : Dir) : Nat :=
  match op, dir with
  | dataflowBlock .., .incoming => 1
  | dataflowBlock _ _ rows, .outgoing => rows.length
  | exitBlock _, .incoming => 1
  | exitBlock _, .outgoing => 0
  | op, dir => if (op.otherPortKind dir).isSome then 1 else 0

end Op

/-- The types of one direction of a signature (`port_type`, `port_count`,
hugr-core/src/types/signature.rs:162-168, 207-213). -/
def sigRow (s : Signature) : Dir → List Ty
  | .incoming => s.input
  | .outgoing => s.output

namespace Op

/-- `OpType::port_kind`, ops.rs:178-199. -/
def portKind (op : Op) (dir : Dir) (idx : Nat) : Run (Option Kind) :=
  match op.dataflowSignature with
  | .panic => .panic
  | .ok s =>
    let signature := s.getD ⟨[], []⟩
    let portCount := (sigRow signature dir).length
    if idx < portCount then
      .ok (((sigRow signature dir)[idx]?).map .value)
    else if idx = portCount ∧ (op.staticPortKind dir).isSome then
      .ok (op.staticPortKind dir)
    else
      .ok (op.otherPortKind dir)

/-- `OpType::value_port_count`, ops.rs:267-270. -/
def valuePortCount (op : Op) (dir : Dir) : Run Nat :=
  match op.dataflowSignature with
  | .panic => .panic
  | .ok none => .ok 0
  | .ok (some s) => .ok (sigRow s dir).length

/-- `OpType::other_port`, ops.rs:206-217. -/
def otherPort (op : Op) (dir : Dir) : Run (Option Nat) :=
  match op.valuePortCount dir with
  | .panic => .panic
  | .ok dfCount =>
    let staticInput :=
      if dir = .incoming ∧ OpTag.isSuperset .staticInput op.opTag = true then 1 else 0
    if (op.otherPortKind dir).isSome ∧ 1 ≤ op.nonDfPortCount dir then
      .ok (some (dfCount + staticInput))
    else .ok none

/-- `OpType::static_port`, ops.rs:242-245. -/
def staticPort (op : Op) (dir : Dir) : Run (Option Nat) :=
  match op.staticPortKind dir with
  | none => .ok none
  | some _ => (op.valuePortCount dir).map some

/-- `OpType::port_count`, ops.rs:289-293. -/
def portCount (op : Op) (dir : Dir) : Run Nat :=
  (op.valuePortCount dir).map fun n =>
    n + (if (op.staticPortKind dir).isSome then 1 else 0) + op.nonDfPortCount dir

/-- `Call::called_function_port`, `LoadConstant::constant_port`, `LoadFunction::function_port`:
ops/dataflow.rs:278-280, 383-385, 469-471. -/
def ownStaticPort : Op → Option Nat
  | call _ _ inst => some inst.input.length
  | loadConstant _ => some 0
  | loadFunction .. => some 0
  | _ => none

/-- `OpParent::inner_function_type`, ops.rs:475-502, with `DataflowParent::inner_signature` of each
operation: ops/module.rs:124-126, ops/dataflow.rs:506-508, ops/controlflow.rs:61-85, 192-202,
314-316. -/
def innerSignature : Op → Option Signature
  | funcDefn _ s => some s.body
  | dfg s => some s
  | tailLoop ji jo rest => some ⟨ji ++ rest, sumOf [ji, jo] :: rest⟩
  | dataflowBlock ins other rows => some ⟨ins, sumOf rows :: other⟩
  | case s => some s
  | _ => none

/-- `Conditional::case_input_row`, ops/controlflow.rs:128-130. -/
def caseInputRow : Op → Nat → Option (List Ty)
  | conditional rows other _, k => (rows[k]?).map (· ++ other)
  | _, _ => none

/-- `DataflowBlock::successor_input`, ops/controlflow.rs:284-290. -/
def successorInput : Op → Nat → Option (List Ty)
  | dataflowBlock _ other rows, k => (rows[k]?).map (· ++ other)
  | _, _ => none

end Op

/-- `sum_rows.iter().map(|r| r.substitute(subst))`. -/
def substTypeRows (env : Env) (σ : List Term) : List (List Ty) → Option (List (List Ty))
  | [] => some []
  | r :: rs =>
    match substTypes env σ r, substTypeRows env σ rs with
    | some r', some rs' => some (r' :: rs')
    | _, _ => none

/-- `Call::try_new`, `LoadFunction::try_new`, ops/dataflow.rs:239-250, 442-453: `none` covers both
the error and the panic of `instantiate` (modelled apart in `PolyFunc.instantiate`). -/
def tryInstantiate (env : Env) (sig : PolyFunc) (args : List Term) : Option Signature :=
  match sig.instantiate env args with
  | .ok s => some s
  | _ => none

namespace Op

/-- `Call::try_new`, ops/dataflow.rs:239-250. -/
def newCall (env : Env) (sig : PolyFunc) (args : List Term) : Option Op :=
  (tryInstantiate env sig args).map fun inst => call sig args inst

/-- `LoadFunction::try_new`, ops/dataflow.rs:442-453. -/
def newLoadFunction (env : Env) (sig : PolyFunc) (args : List Term) : Option Op :=
  (tryInstantiate env sig args).map fun inst => loadFunction sig args inst

/-- `OpTrait::substitute`, ops.rs:463-465 and ops/dataflow.rs:119-123, 143-147, 216-232, 321-325,
352-355, 419-435, 522-526, ops/controlflow.rs:40-46, 117-123, 154-158, 229-235, 262-266, 328-332,
ops/sum.rs:60-65, ops/custom.rs:210-222, 322-328.  `none` is a panic.
The `debug_assert_eq!` of `Call` and `LoadFunction` (ops/dataflow.rs:223-226, 426-429) is not part
of this function: it is the subject of `C43_call_assert_partial`. -/
def subst (env : Env) (σ : List Term) : Op → Option Op
  | input types => (substTypes env σ types).map input
  | output types => (substTypes env σ types).map output
  | call s args inst =>
    match substTerms env σ args, inst.subst env σ with
    | some args', some inst' => some (call s args' inst')
    | _, _ => none
  | callIndirect s => (s.subst env σ).map callIndirect
  | loadConstant t => some (loadConstant t)
  | loadFunction s args inst =>
    match substTerms env σ args, inst.subst env σ with
    | some args', some inst' => some (loadFunction s args' inst')
    | _, _ => none
  | dfg s => (s.subst env σ).map dfg
  | extensionOp e n args s =>
    match substTerms env σ args, s.subst env σ with
    | some args', some s' => some (extensionOp e n args' s')
    | _, _ => none
  | tag k variants => (substTypeRows env σ variants).map (tag k)
  | dataflowBlock ins other rows =>
    match substTypes env σ ins, substTypes env σ other, substTypeRows env σ rows with
    | some ins', some other', some rows' => some (dataflowBlock ins' other' rows')
    | _, _, _ => none
  | exitBlock outs => (substTypes env σ outs).map exitBlock
  | tailLoop ji jo rest =>
    match substTypes env σ ji, substTypes env σ jo, substTypes env σ rest with
    | some ji', some jo', some rest' => some (tailLoop ji' jo' rest')
    | _, _, _ => none
  | cfg s => (s.subst env σ).map cfg
  | conditional rows other outs =>
    match substTypeRows env σ rows, substTypes env σ other, substTypes env σ outs with
    | some rows', some other', some outs' => some (conditional rows' other' outs')
    | _, _, _ => none
  | case s => (s.subst env σ).map case
  | op => some op

end Op
end Verif.Ops
