import Verif.Consts.Model
/-!
# Constant folding of logic, tuple and list operations

Model of the constant folders in `hugr-core/src/std_extensions/logic.rs`,
`extension/prelude.rs:606-640, 843-852` and `extension/prelude/generic.rs` and
`std_extensions/collections/list/list_fold.rs`. A folder is called with the constants known for
*some* of the inputs of an operation (hugr-passes/src/const_fold.rs:233-257), in any order.
-/
namespace Verif.Consts

open Verif.Types

variable {κ φ : Type}

/-- The constants known on input ports, `&[(IncomingPort, Value)]`. -/
abbrev Known (κ φ : Type) := List (Nat × Value κ φ)

/-- What a folder does: `ConstFoldResult` is `None` (`unknown`) or the constants on output ports;
the Rust code may also panic. -/
inductive Folded (κ φ : Type)
  | panic
  | unknown
  | known (outs : List (Nat × Value κ φ))

/-- Insertion by port behind entries with the same port. -/
def insertByPort (x : Nat × Value κ φ) : Known κ φ → Known κ φ
  | [] => [x]
  | y :: l => if x.1 < y.1 then x :: y :: l else y :: insertByPort x l

/-- `sort_by_in_port`, hugr-core/src/utils.rs:249-254: `slice::sort_by_key` is a stable sort. -/
def sortByPort (l : Known κ φ) : Known κ φ := l.foldl (fun acc x => insertByPort x acc) []

/-- `sorted_consts`, hugr-core/src/utils.rs:256-263. -/
def sortedConsts (l : Known κ φ) : List (Value κ φ) := (sortByPort l).map (·.2)

/-- `fold_out_row`, hugr-core/src/extension/const_fold.rs:19-26. -/
def foldOutRow (vs : List (Value κ φ)) : Folded κ φ := .known (vs.zipIdx.map fun p => (p.2, p.1))

/-- A single output on port 0 holding a constant whose construction may panic. -/
def oneOut : Option (Value κ φ) → Folded κ φ
  | none => .panic
  | some v => .known [(0, v)]

/-! ## Logic -/

/-- `LogicOp`, hugr-core/src/std_extensions/logic.rs:66-77. -/
inductive LogicOp
  | and | or | eq | not | xor
  deriving DecidableEq

/-- One step of `read_inputs`, hugr-core/src/std_extensions/logic.rs:151-159. -/
def readBool (L : Lib κ φ) (c : Value κ φ) : Option Bool :=
  if c.rustEq L (.sum 1 [] (.unit 2)) then some true
  else if c.rustEq L (.sum 0 [] (.unit 2)) then some false
  else none

/-- Collecting into `Option<Vec<bool>>`. -/
def readBools (L : Lib κ φ) : List (Value κ φ) → Option (List Bool)
  | [] => some []
  | c :: cs =>
    match readBool L c with
    | none => none
    | some b =>
      match readBools L cs with
      | none => none
      | some bs => some (b :: bs)

/-- `read_inputs`, hugr-core/src/std_extensions/logic.rs:146-163. -/
def readInputs (L : Lib κ φ) (consts : Known κ φ) : Option (List Bool) :=
  readBools L (sortedConsts consts)

/-- `inps.iter().copied().reduce(|a, b| a == b)`, hugr-core/src/std_extensions/logic.rs:46. -/
def reduceEq : List Bool → Option Bool
  | [] => none
  | b :: bs => some (bs.foldl (fun a b => a == b) b)

/-- `cond.then_some(vec![(0.into(), Value::from_bool(res))])`. -/
def thenBool (L : Lib κ φ) (cond res : Bool) : Folded κ φ :=
  if cond then oneOut (Value.mkBool L res) else .unknown

/-- `ConstFold for LogicOp`, hugr-core/src/std_extensions/logic.rs:27-64. -/
def LogicOp.fold (L : Lib κ φ) (op : LogicOp) (consts : Known κ φ) : Folded κ φ :=
  match readInputs L consts with
  | none => .unknown
  | some inps =>
    match op with
    | .and => thenBool L (!inps.all id || inps.length == 2) (inps.all id)
    | .or => thenBool L (inps.any id || inps.length == 2) (inps.any id)
    | .eq =>
      match reduceEq inps with
      | none => .unknown
      | some res => thenBool L (!res || inps.length == 2) res
    | .not => thenBool L (!inps.all (!·) || inps.length == 1) (inps.all (!·))
    | .xor => thenBool L (inps.length == 2) (inps.foldl (fun acc x => acc != x) false)

/-! ## Tuples, no-op and generic naturals -/

/-- `TupleOpDef::MakeTuple`, hugr-core/src/extension/prelude.rs:624-627. -/
def foldMakeTuple (L : Lib κ φ) (consts : Known κ φ) : Folded κ φ :=
  match Value.mkTuple L (sortedConsts consts) with
  | none => .panic
  | some v => foldOutRow [v]

/-- `TupleOpDef::UnpackTuple`, hugr-core/src/extension/prelude.rs:628-634. -/
def foldUnpackTuple (consts : Known κ φ) : Folded κ φ :=
  match consts with
  | [] => .unknown
  | (_, c) :: _ =>
    match c.asTuple with
    | none => .panic
    | some vs => foldOutRow vs

/-- `ConstFold for NoopDef`, hugr-core/src/extension/prelude.rs:844-852. -/
def foldNoop (consts : Known κ φ) : Folded κ φ :=
  match consts with
  | [] => .unknown
  | (_, c) :: _ => foldOutRow [c]

/-- `ConstFold for LoadNatDef`, hugr-core/src/extension/prelude/generic.rs:44-62. -/
def foldLoadNat (args : List Term) : Folded κ φ :=
  match args with
  | [.boundedNat n] => .known [(0, .usize n)]
  | _ => .unknown

/-! ## Lists -/

/-- `ListOp`, hugr-core/src/std_extensions/collections/list.rs:140-163. -/
inductive ListOp
  | pop | push | get | set | insert | length
  deriving DecidableEq

/-- `get_custom_value::<ListValue>()`: only a `ListValue` can be downcast to one. -/
def asList : Value κ φ → Option (Ty × List (Value κ φ))
  | .list elem vs => some (elem, vs)
  | _ => none

/-- `get_custom_value::<ConstUsize>()`. -/
def asUsize : Value κ φ → Option Nat
  | .usize n => some n
  | _ => none

/-- `option_type`/`either_type` as types, hugr-core/src/extension/prelude.rs:322-333. -/
def eitherTy (left right : List RTy) : Ty := (SumTy.new [left, right]).toTy

/-- The output types of the list operations, from
`ListOp::compute_signature`, hugr-core/src/std_extensions/collections/list.rs:180-211. -/
def ListOp.outTypes (elem : Ty) : ListOp → List Ty
  | .pop => [listTy elem, eitherTy [] [.ty elem]]
  | .push => [listTy elem]
  | .get => [eitherTy [] [.ty elem]]
  | .set => [listTy elem, eitherTy [.ty elem] [.ty elem]]
  | .insert => [listTy elem, eitherTy [.ty elem] [.ty (.sumUnit 1)]]
  | .length => [listTy elem, usizeTy]

/-- The input types of the list operations, from the same place. -/
def ListOp.inTypes (elem : Ty) : ListOp → List Ty
  | .pop => [listTy elem]
  | .push => [listTy elem, elem]
  | .get => [listTy elem, usizeTy]
  | .set => [listTy elem, usizeTy, elem]
  | .insert => [listTy elem, usizeTy, elem]
  | .length => [listTy elem]

/-- `PopFold`, hugr-core/src/std_extensions/collections/list/list_fold.rs:26-48. -/
def foldPop (L : Lib κ φ) (consts : Known κ φ) : Folded κ φ :=
  match sortedConsts consts with
  | [list] =>
    match asList list with
    | none => .panic
    | some (elem, vs) =>
      match vs.getLast? with
      | some x =>
        match constRight L [] [x] with
        | none => .panic
        | some o => .known [(0, .list elem vs.dropLast), (1, o)]
      | none =>
        match constLeft L [] [.ty elem] with
        | none => .panic
        | some o => .known [(0, .list elem vs), (1, o)]
  | _ => .unknown

/-- `PushFold`, list_fold.rs:50-65. -/
def foldPush (consts : Known κ φ) : Folded κ φ :=
  match sortedConsts consts with
  | [list, x] =>
    match asList list with
    | none => .panic
    | some (elem, vs) => .known [(0, .list elem (vs ++ [x]))]
  | _ => .unknown

/-- `GetFold`, list_fold.rs:67-81. The cast of the index to `usize` is the identity (64-bit). -/
def foldGet (L : Lib κ φ) (consts : Known κ φ) : Folded κ φ :=
  match sortedConsts consts with
  | [list, index] =>
    match asList list with
    | none => .panic
    | some (elem, vs) =>
      match asUsize index with
      | none => .panic
      | some idx =>
        match vs[idx]? with
        | some x => oneOut (constRight L [] [x])
        | none => oneOut (constLeft L [] [.ty elem])
  | _ => .unknown

/-- `SetFold`, list_fold.rs:83-105. -/
def foldSet (L : Lib κ φ) (consts : Known κ φ) : Folded κ φ :=
  match sortedConsts consts with
  | [list, index, x] =>
    match asList list with
    | none => .panic
    | some (elem, vs) =>
      match asUsize index with
      | none => .panic
      | some idx =>
        match vs[idx]? with
        | some old =>
          match constRight L [.ty elem] [old] with
          | none => .panic
          | some o => .known [(0, .list elem (vs.set idx x)), (1, o)]
        | none =>
          match constLeft L [x] [.ty elem] with
          | none => .panic
          | some o => .known [(0, .list elem vs), (1, o)]
  | _ => .unknown

/-- `InsertFold`, list_fold.rs:107-127; `Type::UNIT` is the unit sum with one variant. -/
def foldInsert (L : Lib κ φ) (consts : Known κ φ) : Folded κ φ :=
  match sortedConsts consts with
  | [list, index, x] =>
    match asList list with
    | none => .panic
    | some (elem, vs) =>
      match asUsize index with
      | none => .panic
      | some idx =>
        if vs.length > idx then
          match constRight L [.ty elem] [] with
          | none => .panic
          | some o => .known [(0, .list elem (vs.take idx ++ x :: vs.drop idx)), (1, o)]
        else
          match constLeft L [x] [.ty (.sumUnit 1)] with
          | none => .panic
          | some o => .known [(0, .list elem vs), (1, o)]
  | _ => .unknown

/-- `LengthFold`, list_fold.rs:129-139. -/
def foldLength (consts : Known κ φ) : Folded κ φ :=
  match sortedConsts consts with
  | [list] =>
    match asList list with
    | none => .panic
    | some (_, vs) => .known [(0, .usize vs.length)]
  | _ => .unknown

/-- `set_fold`, list_fold.rs:15-24. -/
def ListOp.fold (L : Lib κ φ) : ListOp → Known κ φ → Folded κ φ
  | .pop => foldPop L
  | .push => foldPush
  | .get => foldGet L
  | .set => foldSet L
  | .insert => foldInsert L
  | .length => foldLength

end Verif.Consts
