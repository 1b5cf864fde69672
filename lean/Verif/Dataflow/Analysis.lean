import Verif.Dataflow.PartialValue
import Verif.Passes.ForceOrder
import Verif.Passes.DeadFuncs
import Verif.Validate.Model

/-!
# Model of the dataflow analysis

Sources: `/repo/hugr-passes/src/dataflow/datalog.rs`, `dataflow.rs`, `dataflow/value_row.rs`,
`dataflow/results.rs`.

`ascent` evaluates the rules until nothing changes; in which order is not documented. In the model a
rule is a function from the state of the relations to the facts that it derives; facts are added one
by one in any order (`Run`), also facts that were derived from an earlier state; and the analysis is
finished (`Finished`) when adding a fact that can be derived changes nothing. A panic is a fact.

Simplifications. The type arguments of loaded functions are left out: no rule reads them. A lattice
without an entry is `bottom`, and the rules that only create entries with `bottom` (datalog.rs:188,
196, 203) are left out. `DFContext` has no state of its own. The filter of the results by descendants
of the entrypoint (datalog.rs:378-402) is left out: the theorems are about all nodes. Nodes whose
signature cannot be computed (a `Tag` operation with an invalid tag, C10) have no ports.
-/
namespace Verif.Dataflow

open Verif.Graph Verif.Ops Verif.Passes

variable {Meta V E : Type}

/-- The abstract values of the analysis. -/
abbrev Abs (V : Type) := PV V Nat Unit

/-! ## Constants -/

/-- `Value`, hugr-core/src/ops/constant.rs:104-130: a sum, or a leaf, which is an extension constant
or a function. -/
inductive CVal (E : Type) where
  | leaf (e : E)
  | sum (tag : Nat) (vals : List (CVal E))

/-- `DFContext` and `ConstLoader`, dataflow.rs:22-83. `load n path e` is `value_from_opaque` or
`value_from_const_hugr` at a location (dataflow.rs:41-47); `interp n ins p` is what
`interpret_leaf_op` leaves in the output `p`, which was `top`. Not in the code: `constant n` is the
value of the constant node `n`, of which `Ops.Op` keeps only the type. -/
structure DFContext (V E : Type) where
  load : Nat → List Nat → E → Option V
  interp : Nat → List (Abs V) → Nat → Abs V
  constant : Nat → CVal E

mutual
/-- `partial_from_const`, dataflow.rs:90-116. -/
def partialFromConst (load : Nat → List Nat → E → Option V) (n : Nat) (path : List Nat) :
    CVal E → Abs V
  | .leaf e =>
    match load n path e with
    | some v => .value v
    | none => .top
  | .sum tag vals => PV.newVariant tag (partialsFromConst load n path 0 vals)
/-- The elements, dataflow.rs:102-105. -/
def partialsFromConst (load : Nat → List Nat → E → Option V) (n : Nat) (path : List Nat) :
    Nat → List (CVal E) → List (Abs V)
  | _, [] => []
  | i, v :: vs => partialFromConst load n (i :: path) v :: partialsFromConst load n path (i + 1) vs
end

/-! ## The state -/

/-- A map, as the list of its entries. -/
abbrev Store (K α : Type) := List (K × α)

/-- The entry of a key. -/
def Store.get {K α : Type} [DecidableEq K] (s : Store K α) (k : K) (d : α) : α := (s.lookup k).getD d

/-- Replace the entry of a key, or add one. -/
def Store.set {K α : Type} [DecidableEq K] : Store K α → K → α → Store K α
  | [], k, v => [(k, v)]
  | (k', v') :: s, k, v => if k' = k then (k, v) :: s else (k', v') :: Store.set s k v

/-- `LatticeWrapper`, datalog.rs:405-410. -/
inductive Lat where
  | bottom
  | value (n : Nat)
  | top
deriving DecidableEq

/-- `LatticeWrapper::join_mut`, datalog.rs:426-437. -/
def Lat.join (a b : Lat) : Lat × Bool :=
  if a = b ∨ a = .top ∨ b = .bottom then (a, false)
  else if a = .bottom ∨ b = .top then (b, true)
  else (.top, true)

/-- `load_func`, datalog.rs:440-448. -/
def loadFunc : Abs V → Lat
  | .bottom | .psum _ => .bottom
  | .func n _ => .value n
  | .value _ | .top => .top

/-- The relations and lattices that are computed, datalog.rs:171-173, 268, 278, 330. -/
structure AState (V : Type) where
  out : Store (Nat × Nat) (Abs V) := []
  inn : Store (Nat × Nat) (Abs V) := []
  row : Store Nat (List (Abs V)) := []
  cases : List (Nat × Nat) := []
  blocks : List (Nat × Nat) := []
  indirect : Store Nat Lat := []

/-- What a rule derives. -/
inductive Fact (V : Type) where
  | out (n p : Nat) (v : Abs V)
  | inn (n p : Nat) (v : Abs V)
  | row (n : Nat) (vs : List (Abs V))
  | case (cond c : Nat)
  | block (g b : Nat)
  | indirect (n : Nat) (t : Lat)
  | panic

/-- `out_wire_value` of a port. -/
def AState.outOf (s : AState V) (n p : Nat) : Abs V := s.out.get (n, p) .bottom

/-- `in_wire_value` of a port. -/
def AState.inOf (s : AState V) (n p : Nat) : Abs V := s.inn.get (n, p) .bottom

/-- The input types in `HugrView::signature`, views.rs:471-473; none if there is no signature. -/
def sigIns (op : Ops.Op) : List Types.Ty :=
  match op.dataflowSignature with
  | .ok (some sig) => sig.input
  | _ => []

/-- The output types in `HugrView::signature`. -/
def sigOuts (op : Ops.Op) : List Types.Ty :=
  match op.dataflowSignature with
  | .ok (some sig) => sig.output
  | _ => []

/-- `ValueRow::new`, value_row.rs:17-19. -/
def newRow (len : Nat) : List (Abs V) := List.replicate len .bottom

/-- `node_in_value_row` of a node, datalog.rs:203. -/
def AState.rowOf (h : Hugr Ops.Op Meta) (s : AState V) (n : Nat) : List (Abs V) :=
  s.row.get n (newRow (sigIns (h.ops n)).length)

/-- Add a fact; the flag tells whether that changed something. -/
def addFact [AbsVal V] (h : Hugr Ops.Op Meta) (s : AState V) : Fact V → AState V × Bool
  | .out n p v =>
    let r := PV.join (s.outOf n p) v
    ({ s with out := s.out.set (n, p) r.1 }, r.2)
  | .inn n p v =>
    let r := PV.join (s.inOf n p) v
    ({ s with inn := s.inn.set (n, p) r.1 }, r.2)
  | .row n vs =>
    let r := PV.joinRow (s.rowOf h n) vs
    ({ s with row := s.row.set n r.1 }, r.2)
  | .case cond c =>
    if (cond, c) ∈ s.cases then (s, false) else ({ s with cases := (cond, c) :: s.cases }, true)
  | .block g b =>
    if (g, b) ∈ s.blocks then (s, false) else ({ s with blocks := (g, b) :: s.blocks }, true)
  | .indirect n t =>
    let r := (s.indirect.get n .bottom).join t
    ({ s with indirect := s.indirect.set n r.1 }, r.2)
  | .panic => (s, true)

/-! ## The rules -/

/-- `HugrView::output_neighbours`: the targets of the links of each outgoing port in turn. -/
def neighboursInOrder (h : Hugr Ops.Op Meta) (n : Nat) : List Nat :=
  (List.range (h.outs n)).flatMap fun p => (h.linkedInputs n p).map Prod.fst

/-- Facts for each port of a row. -/
def outFacts (n : Nat) (vs : List (Abs V)) : List (Fact V) :=
  vs.zipIdx.map fun vp => .out n vp.2 vp.1

/-- `ValueRow::unpack_first`, value_row.rs:33-40. -/
def unpackFirst (variant len : Nat) : List (Abs V) → PV.Variant V Nat Unit
  | [] => .panic
  | x :: rest =>
    match x.variantValues variant len with
    | .panic => .panic
    | .none => .none
    | .some vals => .some (vals ++ rest)

/-- The facts of `if let Some(fields) = row.unpack_first(..), for (p, v) in fields.enumerate()`. -/
def variantFacts (n : Nat) : PV.Variant V Nat Unit → List (Fact V)
  | .panic => [.panic]
  | .none => []
  | .some vs => outFacts n vs

/-- All values at the incoming ports of a node: `in_wire_value(n, p, v)`. -/
def inVals (h : Hugr Ops.Op Meta) (s : AState V) (n : Nat) : List (Abs V) :=
  (List.range (sigIns (h.ops n)).length).map fun p => s.inOf n p

/-- Outputs to inputs, datalog.rs:191-193. -/
def wireFacts (h : Hugr Ops.Op Meta) (s : AState V) (n : Nat) : List (Fact V) :=
  (List.range (sigIns (h.ops n)).length).flatMap fun p =>
    match h.linkedOutputs n p with
    | [(m, q)] => [.inn n p (s.outOf m q)]
    | _ => []

/-- Prepopulated values, datalog.rs:197-200. -/
def protoFacts (h : Hugr Ops.Op Meta) (proto : List (Nat × Nat × Abs V)) : List (Fact V) :=
  (proto.filter fun e => h.live e.1 && decide (e.2.1 < (sigIns (h.ops e.1)).length)).map fun e =>
    .inn e.1 e.2.1 e.2.2

/-- Assembling the rows, datalog.rs:204, with `ValueRow::set`, value_row.rs:21-24. -/
def rowFacts (h : Hugr Ops.Op Meta) (s : AState V) (n : Nat) : List (Fact V) :=
  (List.range (sigIns (h.ops n)).length).map fun p =>
    .row n ((newRow (sigIns (h.ops n)).length).set p (s.inOf n p))

/-- `op.cast::<MakeTuple>()` and `op.cast::<UnpackTuple>()`, extension/prelude.rs:698-728, 760-790. -/
def isMakeTuple : Ops.Op → Bool
  | .extensionOp ext name _ _ => ext == "prelude" && name == "MakeTuple"
  | _ => false
def isUnpackTuple : Ops.Op → Bool
  | .extensionOp ext name _ _ => ext == "prelude" && name == "UnpackTuple"
  | _ => false

/-- The only link of an incoming port: `single_linked_output`, views.rs:236-243. -/
def singleSource (h : Hugr Ops.Op Meta) (n p : Nat) : Option Nat :=
  match h.linkedOutputs n p with
  | [(m, _)] => some m
  | _ => none

/-- The arm for a tuple that is unpacked, datalog.rs:463-467. -/
def unpackTuple (len : Nat) : List (Abs V) → PV.Variant V Nat Unit
  | [tup] => tup.variantValues 0 len
  | _ => .panic

/-- The arm for constants, datalog.rs:474-482. -/
def loadConstant (h : Hugr Ops.Op Meta) (K : DFContext V E) (n : Nat) : PV.Variant V Nat Unit :=
  match singleSource h n 0 with
  | none => .panic
  | some c =>
    match h.ops c with
    | .const _ => .some [partialFromConst K.load n [] (K.constant c)]
    | _ => .panic

/-- The arm for functions, datalog.rs:483-494. -/
def loadFunction (h : Hugr Ops.Op Meta) (n : Nat) : PV.Variant V Nat Unit :=
  match singleSource h n 0 with
  | none => .panic
  | some f => .some [.func f ()]

/-- `propagate_leaf_op`, datalog.rs:450-514. -/
def propagateLeafOp (h : Hugr Ops.Op Meta) (K : DFContext V E) (n : Nat) (ins : List (Abs V))
    (numOuts : Nat) : PV.Variant V Nat Unit :=
  if isMakeTuple (h.ops n) then .some [PV.newVariant 0 ins]
  else if isUnpackTuple (h.ops n) then unpackTuple numOuts ins
  else
    match h.ops n with
    | .tag t _ => .some [PV.newVariant t ins]
    | .input .. | .output .. | .exitBlock .. | .call .. | .callIndirect .. => .none
    | .loadConstant .. => if ins.isEmpty then loadConstant h K n else .panic
    | .loadFunction .. => if ins.isEmpty then loadFunction h n else .panic
    | .extensionOp .. =>
      if PV.rowContainsBottom ins then .some (List.replicate numOuts .bottom)
      else .some ((List.range numOuts).map (K.interp n ins))
    | _ => .panic

/-- Is it an operation with a dataflow signature that is not a container? datalog.rs:209-211. -/
def isLeafOp (op : Ops.Op) : Bool :=
  (Validate.flags op).allowedChildren.isEmpty &&
    match op.dataflowSignature with
    | .ok (some _) => true
    | _ => false

/-- Leaf operations, datalog.rs:207-214. -/
def leafFacts (h : Hugr Ops.Op Meta) (K : DFContext V E) (s : AState V) (n : Nat) : List (Fact V) :=
  if isLeafOp (h.ops n) then
    variantFacts n (propagateLeafOp h K n (s.rowOf h n) (sigOuts (h.ops n)).length)
  else []

/-- The values that go into the region of `p`, with `input_child`. -/
def toInput (h : Hugr Ops.Op Meta) (p : Nat) (vs : List (Abs V)) : List (Fact V) :=
  match getIo h p with
  | some (i, _) => outFacts i vs
  | none => []

/-- The values that come out of the region of `p`, with `output_child`. -/
def fromOutput (h : Hugr Ops.Op Meta) (s : AState V) (p n : Nat) : List (Fact V) :=
  match getIo h p with
  | some (_, o) => outFacts n (inVals h s o)
  | none => []

/-- `DFG`, datalog.rs:217-224. -/
def dfgFacts (h : Hugr Ops.Op Meta) (s : AState V) (n : Nat) : List (Fact V) :=
  match h.ops n with
  | .dfg _ => toInput h n (inVals h s n) ++ fromOutput h s n n
  | _ => []

/-- `TailLoop`, datalog.rs:226-253. -/
def loopFacts (h : Hugr Ops.Op Meta) (s : AState V) (n : Nat) : List (Fact V) :=
  match h.ops n with
  | .tailLoop ji jo _ =>
    toInput h n (inVals h s n) ++
    match getIo h n with
    | some (i, o) =>
      variantFacts i (unpackFirst 0 ji.length (s.rowOf h o)) ++
      variantFacts n (unpackFirst 1 jo.length (s.rowOf h o))
    | none => []
  | _ => []

/-- `is_case`. -/
def isCase : Ops.Op → Bool
  | .case _ => true
  | _ => false

/-- The facts for one case, datalog.rs:263-286. `sum_rows[case_index]` panics if there is no such
variant. -/
def caseFacts (h : Hugr Ops.Op Meta) (s : AState V) (n : Nat) (rows : List (List Types.Ty))
    (c i : Nat) : List (Fact V) :=
  if isCase (h.ops c) then
    (match getIo h c with
      | some (inp, _) =>
        match rows[i]? with
        | some row => variantFacts inp (unpackFirst i row.length (s.rowOf h n))
        | none => [.panic]
      | none => []) ++
    (if (n, c) ∈ s.cases then fromOutput h s c n else []) ++
    (if (s.inOf n 0).supportsTag i then [.case n c] else [])
  else []

/-- `Conditional`, datalog.rs:255-286. -/
def condFacts (h : Hugr Ops.Op Meta) (s : AState V) (n : Nat) : List (Fact V) :=
  match h.ops n with
  | .conditional rows _ _ => (h.children n).zipIdx.flatMap fun ci => caseFacts h s n rows ci.1 ci.2
  | _ => []

/-- `is_dataflow_block`. -/
def isBlock : Ops.Op → Bool
  | .dataflowBlock .. => true
  | _ => false

/-- `CFG`: the entry block, datalog.rs:289-296, 304-309. -/
def cfgFacts (h : Hugr Ops.Op Meta) (s : AState V) (n : Nat) : List (Fact V) :=
  match h.ops n with
  | .cfg _ =>
    match h.children n with
    | entry :: _ => .block n entry :: toInput h entry (inVals h s n)
    | [] => []
  | _ => []

/-- `_cfg_succ_dest`, datalog.rs:311-318. -/
def succDest (h : Hugr Ops.Op Meta) (g succ : Nat) : List Nat :=
  (if (h.children g)[1]? = some succ then [g] else []) ++
  (if succ ∈ h.children g ∧ isBlock (h.ops succ) = true then
    match getIo h succ with
    | some (i, _) => [i]
    | none => []
  else [])

/-- The values that a block passes on, datalog.rs:321-330. `sum_rows.get(succ_n).unwrap()` panics if
there is no such variant. -/
def passFacts (h : Hugr Ops.Op Meta) (s : AState V) (g o : Nat) (rows : List (List Types.Ty))
    (succ tag : Nat) : List (Fact V) :=
  (succDest h g succ).flatMap fun dest =>
    match rows[tag]? with
    | some row => variantFacts dest (unpackFirst tag row.length (s.rowOf h o))
    | none => [.panic]

/-- The rules for a reachable block, datalog.rs:297-302, 321-330. -/
def blockFacts (h : Hugr Ops.Op Meta) (s : AState V) (g pred : Nat) : List (Fact V) :=
  match getIo h pred with
  | some (_, o) =>
    (neighboursInOrder h pred).zipIdx.flatMap fun st =>
      (if (s.inOf o 0).supportsTag st.2 then [.block g st.1] else []) ++
      match h.ops pred with
      | .dataflowBlock _ _ rows => passFacts h s g o rows st.1 st.2
      | _ => []
  | none => []

/-- `Call`, datalog.rs:332-347. -/
def callFacts (h : Hugr Ops.Op Meta) (s : AState V) (n : Nat) : List (Fact V) :=
  match h.ops n with
  | .call .. =>
    match staticSource h n with
    | some f => toInput h f (inVals h s n) ++ fromOutput h s f n
    | none => []
  | _ => []

/-- `matches!(v, PartialValue::Top | PartialValue::Value(_))`, datalog.rs:374. -/
def unknownFunction : Abs V → Bool
  | .top | .value _ => true
  | _ => false

/-- The rules for the target of an indirect call, datalog.rs:357-368. -/
def targetFacts (h : Hugr Ops.Op Meta) (s : AState V) (n : Nat) : List (Fact V) :=
  match s.indirect.get n .bottom with
  | .value f => toInput h f ((inVals h s n).drop 1) ++ fromOutput h s f n
  | _ => []

/-- `CallIndirect`, datalog.rs:349-376. -/
def indirectFacts (h : Hugr Ops.Op Meta) (s : AState V) (n : Nat) : List (Fact V) :=
  match h.ops n with
  | .callIndirect sig =>
    .indirect n (loadFunc (s.inOf n 0)) :: targetFacts h s n ++
    if unknownFunction (s.inOf n 0) then outFacts n (List.replicate sig.output.length .top) else []
  | _ => []

/-- All that can be derived from a state, datalog.rs:159-377. -/
def derive (h : Hugr Ops.Op Meta) (K : DFContext V E) (proto : List (Nat × Nat × Abs V))
    (s : AState V) : List (Fact V) :=
  protoFacts h proto ++
  (h.nodes.flatMap fun n =>
    wireFacts h s n ++ rowFacts h s n ++ leafFacts h K s n ++ dfgFacts h s n ++ loopFacts h s n ++
    condFacts h s n ++ cfgFacts h s n ++ callFacts h s n ++ indirectFacts h s n) ++
  s.blocks.flatMap fun gb => blockFacts h s gb.1 gb.2

/-- The states of an evaluation, with the facts that were derived on the way. -/
inductive Run [AbsVal V] (h : Hugr Ops.Op Meta) (K : DFContext V E)
    (proto : List (Nat × Nat × Abs V)) : AState V → List (Fact V) → Prop
  | init : Run h K proto {} []
  | derive {s : AState V} {facts : List (Fact V)} {f : Fact V} : Run h K proto s facts →
      f ∈ derive h K proto s → Run h K proto s (f :: facts)
  | add {s : AState V} {facts : List (Fact V)} {f : Fact V} : Run h K proto s facts →
      f ∈ facts → Run h K proto (addFact h s f).1 facts

/-- Nothing changes any more. -/
def Finished [AbsVal V] (h : Hugr Ops.Op Meta) (K : DFContext V E)
    (proto : List (Nat × Nat × Abs V)) (s : AState V) : Prop :=
  (derive h K proto s).all (fun f => !(addFact h s f).2) = true

/-! ## The machine -/

/-- `Machine::prepopulate_wire`, datalog.rs:43-47. -/
def prepopulateWire (h : Hugr Ops.Op Meta) (proto : List (Nat × Nat × Abs V)) (n p : Nat)
    (v : Abs V) : List (Nat × Nat × Abs V) :=
  proto ++ (h.linkedInputs n p).map fun mq => (mq.1, mq.2, v)

/-- `for (i, v) in vals { prepopulate_wire(Wire::new(inp, i), v) }`, datalog.rs:77-79. -/
def prepopulateWires (h : Hugr Ops.Op Meta) (n : Nat) :
    Nat → List (Abs V) → List (Nat × Nat × Abs V) → List (Nat × Nat × Abs V)
  | _, [], proto => proto
  | i, v :: vs, proto => prepopulateWires h n (i + 1) vs (prepopulateWire h proto n i v)

/-- The outcome of a call that may fail or panic. -/
inductive MResult (α : Type) where
  | ok (a : α)
  | error
  | panic

/-- `for (ip, v) in in_values { vals[ip.index()] = v; }`, datalog.rs:74-76, 85-87. -/
def fillVals : List (Nat × Abs V) → List (Abs V) → Option (List (Abs V))
  | [], vals => some vals
  | (i, v) :: rest, vals => if i < vals.length then fillVals rest (vals.set i v) else none

/-- The arm for regions, datalog.rs:69-80. -/
def prepopulateRegion (h : Hugr Ops.Op Meta) (proto : List (Nat × Nat × Abs V)) (parent : Nat)
    (inValues : List (Nat × Abs V)) : MResult (List (Nat × Nat × Abs V)) :=
  match getIo h parent with
  | some (i, _) =>
    match fillVals inValues (List.replicate (sigOuts (h.ops i)).length .top) with
    | some vals => .ok (prepopulateWires h i 0 vals proto)
    | none => .panic
  | none => .panic

/-- The arm for operations with inputs, datalog.rs:81-94. -/
def prepopulateNode (h : Hugr Ops.Op Meta) (proto : List (Nat × Nat × Abs V)) (parent : Nat)
    (inValues : List (Nat × Abs V)) : MResult (List (Nat × Nat × Abs V)) :=
  match fillVals inValues (List.replicate (sigIns (h.ops parent)).length .top) with
  | some vals => .ok (proto ++ vals.zipIdx.map fun vi => (parent, vi.2, vi.1))
  | none => .panic

/-- `Machine::prepopulate_inputs`, datalog.rs:59-98. -/
def prepopulateInputs (h : Hugr Ops.Op Meta) (proto : List (Nat × Nat × Abs V)) (parent : Nat)
    (inValues : List (Nat × Abs V)) : MResult (List (Nat × Nat × Abs V)) :=
  if h.live parent then
    match h.ops parent with
    | .dataflowBlock .. | .case .. | .funcDefn .. => prepopulateRegion h proto parent inValues
    | .dfg .. | .tailLoop .. | .cfg .. | .conditional .. => prepopulateNode h proto parent inValues
    | _ => .error
  else .ok proto

/-- The start of `Machine::run`, datalog.rs:115-139: what the rules start from. -/
def runProto (h : Hugr Ops.Op Meta) (proto : List (Nat × Nat × Abs V))
    (inValues : List (Nat × Abs V)) : MResult (List (Nat × Nat × Abs V)) :=
  if isModule (h.ops h.entrypoint) then
    if inValues.isEmpty then .ok proto else .panic
  else if !inValues.isEmpty || !(proto.any fun e => e.1 == h.entrypoint) then
    match prepopulateInputs h proto h.entrypoint inValues with
    | .ok proto' => .ok proto'
    | _ => .panic
  else .ok proto

/-- A call that prepopulates. -/
inductive PreCall (V : Type) where
  | wire (n p : Nat) (v : Abs V)
  | inputs (parent : Nat) (inValues : List (Nat × Abs V))

/-- The machine after some calls, none of which failed; `none` otherwise. -/
def prepopulate (h : Hugr Ops.Op Meta) :
    List (PreCall V) → List (Nat × Nat × Abs V) → Option (List (Nat × Nat × Abs V))
  | [], proto => some proto
  | .wire n p v :: calls, proto => prepopulate h calls (prepopulateWire h proto n p v)
  | .inputs parent inValues :: calls, proto =>
    match prepopulateInputs h proto parent inValues with
    | .ok proto' => prepopulate h calls proto'
    | _ => none

/-! ## The results -/

/-- `TailLoopTermination`, results.rs:103-117. -/
inductive Termination where
  | neverBreaks
  | neverContinues
  | breaksAndContinues
deriving DecidableEq

/-- `TailLoopTermination::from_control_value`, results.rs:120-131. -/
def Termination.ofControl (v : Abs V) : Termination :=
  if v.supportsTag 1 then
    if v.supportsTag 0 then .breaksAndContinues else .neverContinues
  else .neverBreaks

/-- `AnalysisResults::tail_loop_terminates`, results.rs:36-45. -/
def tailLoopTerminates (h : Hugr Ops.Op Meta) (s : AState V) (n : Nat) : Option Termination :=
  match h.ops n with
  | .tailLoop .. => (getIo h n).map fun io => .ofControl (s.inOf io.2 0)
  | _ => none

/-- `AnalysisResults::case_reachable`, results.rs:54-63. -/
def caseReachable (h : Hugr Ops.Op Meta) (s : AState V) (c : Nat) : Option Bool :=
  match h.ops c, h.getParent c with
  | .case _, some cond =>
    match h.ops cond with
    | .conditional .. => some (decide ((cond, c) ∈ s.cases))
    | _ => none
  | _, _ => none

/-- `AnalysisResults::bb_reachable`, results.rs:71-81. -/
def bbReachable (h : Hugr Ops.Op Meta) (s : AState V) (b : Nat) : Option Bool :=
  match h.getParent b with
  | none => none
  | some g =>
    match h.ops g, h.ops b with
    | .cfg _, .dataflowBlock .. => some (decide ((g, b) ∈ s.blocks))
    | .cfg _, .exitBlock _ => some (decide ((g, b) ∈ s.blocks))
    | _, _ => none

end Verif.Dataflow
