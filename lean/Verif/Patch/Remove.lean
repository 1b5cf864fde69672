import Verif.Patch.Extra
import Verif.Patch.See
import Verif.Passes.RemoveNodes

/-!
# Model of `RemoveLoadConstant` and `RemoveConst`

Source: `/repo/hugr-core/src/hugr/patch/consts.rs`.
-/
namespace Verif.Patch

open Verif.Graph Verif.Ops Verif.Passes Verif.Validate

variable {Meta : Type}

/-- The outcome of `RemoveLoadConstant` and `RemoveConst`: the new Hugr, with the source of the constant or
the parent of the constant; or a `RemoveError`, consts.rs:15-25. -/
inductive Removal (Meta : Type) where
  | ok (h : Hugr Ops.Op Meta) (n : Nat)
  | invalidNode
  | valueUsed
  | panic

/-- `OpType::is_load_constant`. -/
def isLoadConstant : Ops.Op → Bool
  | .loadConstant _ => true
  | _ => false

/-- `OpType::is_const`. -/
def isConst : Ops.Op → Bool
  | .const _ => true
  | _ => false

/-- `RemoveLoadConstant::apply_hugr_mut`, consts.rs:63-74, with `verify`, 31-47. The only value that the
operation outputs is at port 0. -/
def removeLoadConstant (h : Hugr Ops.Op Meta) (n : Nat) : Removal Meta :=
  if !h.live n || !isLoadConstant (h.ops n) then .invalidNode
  else
    match h.linkedInputs n 0 with
    | _ :: _ => .valueUsed
    | [] =>
      match inputNeighbours h n with
      | [source] =>
        match h.removeNode opsInfo.toOpInfo n with
        | none => .panic
        | some g => .ok g source
      | _ => .panic

/-- `RemoveConst::apply_hugr_mut`, consts.rs:111-120, with `verify`, 85-97. -/
def removeConst (h : Hugr Ops.Op Meta) (n : Nat) : Removal Meta :=
  if !h.live n || !isConst (h.ops n) then .invalidNode
  else
    match outputNeighbours h n with
    | _ :: _ => .valueUsed
    | [] =>
      match h.hier.parent n with
      | none => .panic
      | some p =>
        match h.removeNode opsInfo.toOpInfo n with
        | none => .panic
        | some g => .ok g p

end Verif.Patch
