import Verif.Dataflow.Analysis
import Verif.Dataflow.Concrete
import Verif.Passes.DeadCode
import Verif.Types.SumModel

/-!
# Model of constant folding

Sources: `/repo/hugr-passes/src/const_fold.rs`, `const_fold/value_handle.rs`.

Simplifications. What the constants of extensions and their operations do is a parameter (`Folder`).
Two hashable constants are equal if they are the same leaf: `HashedConst::eq` (value_handle.rs:34-38)
compares the hashes and then the constants. A folder that returns a value for an output that does not
exist makes the code panic (const_fold.rs:254); here the value is ignored. The hash map of inputs is
a list.
-/
namespace Verif.Dataflow

open Verif.Graph Verif.Ops Verif.Passes

variable {Meta E : Type}

/-- A typed constant: `Value` with `Value::get_type`, constant.rs:335-345. -/
abbrev TVal (E : Type) := CVal E × Types.Ty

/-- What is known of the constants and operations of extensions: the type of a leaf, whether it can
be hashed (`TryHash`), and what `ExtensionOp::constant_fold` returns for the operation at a node,
given its known inputs. Not in the code: `constant n` is the value of the constant node `n`. -/
structure Folder (E : Type) where
  tyOf : E → Types.Ty
  hashable : E → Bool
  fold : Nat → List (Nat × TVal E) → List (Nat × TVal E)
  constant : Nat → CVal E

/-! ## Value handles -/

/-- `ValueHandle`, value_handle.rs:49-63. -/
inductive Handle (E : Type) where
  | hashable (e : E)
  | unhashable (node : Nat) (fields : List Nat) (leaf : E)

/-- What `PartialEq for ValueHandle` compares, value_handle.rs:107-132. -/
def Handle.key : Handle E → E ⊕ (Nat × List Nat)
  | .hashable e => .inl e
  | .unhashable n f _ => .inr (n, f)

/-- The constant in a handle: `from_value`, value_handle.rs:160-174. -/
def Handle.leaf : Handle E → E
  | .hashable e => e
  | .unhashable _ _ e => e

/-- `impl AbstractValue for ValueHandle {}`, value_handle.rs:105, with the default methods,
partial_value.rs:24-26, 35-37. -/
instance [DecidableEq E] : AbsVal (Handle E) where
  tryJoin a b := if a.key = b.key then some (a, false) else none
  tryMeet a b := if a.key = b.key then some (a, false) else none

/-- `ValueHandle::new_opaque` and `new_const_hugr`, value_handle.rs:77-102, with `node_and_fields`
(l.65-74): `path` gives the innermost position first. -/
def handleOf (F : Folder E) (n : Nat) (path : List Nat) (e : E) : Handle E :=
  if F.hashable e then .hashable e else .unhashable n path.reverse e

/-- `TypeRow::try_from(TypeRowRV)`, type_row.rs:130-142: fails if there is a row variable. -/
def concreteRow : List Types.RTy → Option (List Types.Ty)
  | [] => some []
  | .ty t :: ts =>
    match concreteRow ts with
    | some r => some (t :: r)
    | none => none
  | .rowVar .. :: _ => none

/-- `SumType::get_variant` and then `TypeRow::try_from`. -/
def variantRow (t : Types.Ty) (tag : Nat) : Option (List Types.Ty) :=
  match t.getVariant tag with
  | some r => concreteRow r
  | none => none

/-- `SumType::check_type`, types/check.rs:64-97. -/
def checkSum (t : Types.Ty) (tag : Nat) (tys : List Types.Ty) : Bool :=
  match variantRow t tag with
  | some r => decide (r.length = tys.length) && (List.zipWith Types.Ty.rustEq tys r).all id
  | none => false

/-- `AsConcrete<ValueHandle, N> for Value`, value_handle.rs:156-186. -/
def toValue (F : Folder E) : AsConcrete (Handle E) Nat Unit Types.Ty (TVal E) where
  fromValue v := some (.leaf v.leaf, F.tyOf v.leaf)
  fromFunc _ _ := none
  fromSum tag cs t :=
    if checkSum t tag (cs.map Prod.snd) then some (.sum tag (cs.map Prod.fst), t) else none
  getVariant := variantRow

/-! ## The context -/

/-- The known inputs, const_fold.rs:239-250. -/
def knownIns (F : Folder E) : Nat → List Types.Ty → List (Abs (Handle E)) → List (Nat × TVal E)
  | _, [], _ => []
  | _, _ :: _, [] => []
  | i, t :: ts, v :: vs =>
    match v.tryIntoConcrete (toValue F) t with
    | .ok c => (i, c) :: knownIns F (i + 1) ts vs
    | .error _ => knownIns F (i + 1) ts vs

/-- `ConstLoader for ConstFoldContext`, const_fold.rs:211-229. -/
def foldLoad (F : Folder E) (n : Nat) (path : List Nat) (e : E) : Option (Handle E) :=
  some (handleOf F n path e)

/-- The last of the values that a folder returned for an output. -/
def lastFor (p : Nat) (outs : List (Nat × TVal E)) : Option (TVal E) :=
  (outs.reverse.lookup p)

/-- `ConstFoldContext::interpret_leaf_op`, const_fold.rs:232-256. -/
def foldInterp (F : Folder E) (h : Hugr Ops.Op Meta) (n : Nat) (ins : List (Abs (Handle E)))
    (p : Nat) : Abs (Handle E) :=
  match lastFor p (F.fold n (knownIns F 0 (sigIns (h.ops n)) ins)) with
  | some v => partialFromConst (foldLoad F) n [p] v.1
  | none => .top

/-- `ConstFoldContext`. -/
def foldContext (F : Folder E) (h : Hugr Ops.Op Meta) : DFContext (Handle E) E where
  load := foldLoad F
  interp := foldInterp F h
  constant := F.constant

/-! ## The pass -/

/-- The inputs given with `with_inputs`: for a node, values for some of its ports. -/
abbrev FoldInputs (E : Type) := List (Nat × List (Nat × CVal E))

/-- `fresh_node`, const_fold.rs:103-105. -/
def freshNode (h : Hugr Ops.Op Meta) : Nat :=
  match h.nodes.getLast? with
  | some n => n + 1
  | none => 0

/-- The calls of `prepopulate_inputs`, const_fold.rs:107-123. -/
def foldCalls (F : Folder E) (h : Hugr Ops.Op Meta) (inputs : FoldInputs E) :
    List (PreCall (Handle E)) :=
  inputs.map fun e => .inputs e.1
    (e.2.map fun pv => (pv.1, partialFromConst (foldLoad F) (freshNode h) [pv.1] pv.2))

/-- A wire to break: the port of a node, and the constant. -/
structure Break (E : Type) where
  node : Nat
  port : Nat
  val : TVal E

/-- `try_read_wire_concrete`, results.rs:92-108, on the results for descendants of the entrypoint
(datalog.rs:378-380). -/
def readConcrete (F : Folder E) (h : Hugr Ops.Op Meta) (s : AState (Handle E)) (n p : Nat) :
    Option (TVal E) :=
  if n ∈ h.descendants h.entrypoint then
    match (sigOuts (h.ops n))[p]? with
    | some t =>
      match (s.outOf n p).tryIntoConcrete (toValue F) t with
      | .ok c => some c
      | .error _ => none
    | none => none
  else none

/-- `is_load_constant`. -/
def isLoadConstant : Ops.Op → Bool
  | .loadConstant _ => true
  | _ => false

/-- `matches!(hugr.get_optype(n).port_kind(ip), Some(EdgeKind::Value(_)))`. -/
def isValueIn (op : Ops.Op) (p : Nat) : Bool :=
  match op.portKind .incoming p with
  | .ok (some (.value _)) => true
  | _ => false

/-- `mb_root_inp`, const_fold.rs:126. -/
def rootInput (h : Hugr Ops.Op Meta) : Option Nat :=
  match getIo h h.entrypoint with
  | some (i, _) => some i
  | none => none

/-- The closure for one port, const_fold.rs:135-148. -/
def breakOf (F : Folder E) (h : Hugr Ops.Op Meta) (s : AState (Handle E)) (n p src q : Nat) :
    List (Break E) :=
  if isLoadConstant (h.ops src) = false ∧ some src ≠ rootInput h then
    match readConcrete F h s src q with
    | some c => [⟨n, p, c⟩]
    | none => []
  else []

/-- `wires_to_break`, const_fold.rs:128-149. A port with no link, or with several, panics. -/
def breaksOf (F : Folder E) (h : Hugr Ops.Op Meta) (s : AState (Handle E)) :
    List (Nat × Nat) → Option (List (Break E))
  | [] => some []
  | (n, p) :: rest =>
    if n ≠ h.entrypoint ∧ isValueIn (h.ops n) p = true then
      match h.linkedOutputs n p with
      | [(src, q)] =>
        match breaksOf F h s rest with
        | some bs => some (breakOf F h s n p src q ++ bs)
        | none => none
      | _ => none
    else breaksOf F h s rest

/-- The incoming ports of the descendants of the entrypoint, const_fold.rs:128-130. -/
def entryPorts (h : Hugr Ops.Op Meta) : List (Nat × Nat) :=
  (h.descendants h.entrypoint).flatMap fun n => (List.range (h.ins n)).map fun p => (n, p)

/-- `wires_to_break`. -/
def wiresToBreak (F : Folder E) (h : Hugr Ops.Op Meta) (s : AState (Handle E)) :
    Option (List (Break E)) := breaksOf F h s (entryPorts h)

/-- Breaking one wire, const_fold.rs:158-167. `cst` and `lcst` are the new nodes. -/
def breakWire (h : Hugr Ops.Op Meta) (b : Break E) (cst lcst : Nat) : Option (Hugr Ops.Op Meta) :=
  match h.getParent b.node with
  | none => none
  | some parent =>
    match h.addNodeWithParent opsInfo.toOpInfo cst parent (.const b.val.2) with
    | none => none
    | some h1 =>
      match h1.addNodeWithParent opsInfo.toOpInfo lcst parent (.loadConstant b.val.2) with
      | none => none
      | some h2 =>
        match h2.connect ⟨cst, 0, lcst, 0⟩ with
        | none => none
        | some h3 =>
          match h3.disconnect b.node .incoming b.port with
          | none => none
          | some h4 => h4.connect ⟨lcst, 0, b.node, b.port⟩

/-- Breaking all wires, const_fold.rs:158-167. -/
def breakAll (h : Hugr Ops.Op Meta) : List (Break E × Nat × Nat) → Option (Hugr Ops.Op Meta)
  | [] => some h
  | (b, cst, lcst) :: rest =>
    match breakWire h b cst lcst with
    | none => none
    | some h' => breakAll h' rest

/-- The values of the constant nodes after that. -/
def newConstants (old : Nat → CVal E) : List (Break E × Nat × Nat) → Nat → CVal E
  | [], n => old n
  | (b, cst, _) :: rest, n => if n = cst then b.val.1 else newConstants old rest n

/-- `terminating_tail_loops`, const_fold.rs:151-156. -/
def terminatingLoops (h : Hugr Ops.Op Meta) (s : AState (Handle E)) : List Nat :=
  (h.descendants h.entrypoint).filter fun n => tailLoopTerminates h s n = some .neverContinues

/-- The callback for dead code elimination, const_fold.rs:171-182. -/
def foldPreserve (allowIncrease : Bool) (loops : List Nat) (h : Hugr Ops.Op Meta) (n : Nat) :
    PreserveNode :=
  if allowIncrease then .canRemoveIgnoringChildren
  else if n ∈ loops then .deferToChildren
  else .defaultFor h n

/-- `ConstantFoldPass::run` after the analysis, const_fold.rs:126-190: `s` is the final state of the
analysis, `idxs` are the indices of the new nodes. `none` is a panic, or indices that are not free. -/
def foldAfter (F : Folder E) (allowIncrease : Bool) (h : Hugr Ops.Op Meta) (inputs : FoldInputs E)
    (s : AState (Handle E)) (idxs : List (Nat × Nat)) : Option (Hugr Ops.Op Meta) :=
  match wiresToBreak F h s with
  | none => none
  | some bs =>
    if idxs.length = bs.length then
      match breakAll h (bs.zip idxs) with
      | none => none
      | some h1 =>
        match deadCodeElim h1 (foldPreserve allowIncrease (terminatingLoops h s) h1)
            (inputs.map Prod.fst) with
        | .ok h2 => some h2
        | _ => none
    else none

/-- `constant_fold_pass`, const_fold.rs:192-208: all functions of a module are announced. -/
def passInputs (h : Hugr Ops.Op Meta) : FoldInputs E :=
  if isModule (h.ops h.entrypoint) then
    ((h.children h.entrypoint).filter fun n =>
      match h.ops n with | .funcDefn .. => true | _ => false).map fun n => (n, [])
  else []

end Verif.Dataflow
