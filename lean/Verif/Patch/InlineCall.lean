import Verif.Patch.Copy
import Verif.Graph.Insert

/-!
# Model of `InlineCall`

Source: `/repo/hugr-core/src/hugr/patch/inline_call.rs`.
-/
namespace Verif.Patch

open Verif.Graph Verif.Ops Verif.Passes

variable {Meta : Type}

/-- `HugrView::static_source`, views.rs:455-459. -/
def staticSource (h : Hugr Ops.Op Meta) (n : Nat) : Option Nat :=
  match (h.ops n).staticPort .incoming with
  | .ok (some p) => ((h.linkedOutputs n p).head?).map Prod.fst
  | _ => none

/-- The outcome of `InlineCall`. -/
inductive CallInlining (Meta : Type) where
  | ok (h : Hugr Ops.Op Meta)
  | notCallNode
  | callTargetNotFuncDefn (f : Nat)
  | panic

/-- The function that is copied, with its signature, or the outcome, if that is known. `verify`,
inline_call.rs:40-54, and the `unwrap`s that follow. -/
def inlineCallVerify (h : Hugr Ops.Op Meta) (n : Nat) : Nat × Types.Signature ⊕ CallInlining Meta :=
  match h.ops n with
  | .call _ _ _ =>
    match staticSource h n with
    | none => .inr .panic
    | some f =>
      match h.ops f with
      | .funcDefn _ sig => .inl (f, sig.body)
      | _ => .inr (.callTargetNotFuncDefn f)
  | _ => .inr .notCallNode

/-- The call becomes a DFG node without children, inline_call.rs:67-95. `sig` is the signature of the
body of the function. -/
def emptyCall (h : Hugr Ops.Op Meta) (n : Nat) (sig : Types.Signature) : Option (Hugr Ops.Op Meta) :=
  match (h.ops n).staticPort .incoming, (h.ops n).otherPort .incoming, (Op.dfg sig).otherPort .incoming with
  | .ok (some static), .ok (some oldOrder), .ok (some newOrder) =>
    match h.disconnect n .incoming static with
    | none => none
    | some h1 =>
      match h1.disconnect n .incoming oldOrder with
      | none => none
      | some h2 =>
        match h2.replaceOp n (.dfg sig) with
        | none => none
        | some (h3, _) =>
          match h3.addPorts n .incoming (-1) with
          | none => none
          | some (h4, _) =>
            connectAll h4 ((h1.linkedOutputs n oldOrder).map fun s => ⟨s.1, s.2, n, newOrder⟩)
  | _, _, _ => none

/-- The type arguments of the call. -/
def typeArgs : Ops.Op → List Types.Term
  | .call _ targs _ => targs
  | _ => []

/-- The substitution in the copies, inline_call.rs:97-101. -/
def inlineSub (env : Types.Env) (targs : List Types.Term) (op : Ops.Op) : Option Ops.Op :=
  if targs = [] then some op else op.subst env targs

/-- `InlineCall::apply_hugr_mut`, inline_call.rs:62-103. `news` are the indices of the new nodes. -/
def inlineCall (env : Types.Env) (h : Hugr Ops.Op Meta) (n : Nat) (news : List Nat) : CallInlining Meta :=
  match inlineCallVerify h n with
  | .inr r => r
  | .inl (f, sig) =>
    match emptyCall h n sig with
    | none => .panic
    | some h1 =>
      match copyDescendants (inlineSub env (typeArgs (h.ops n))) h1 f n news with
      | none => .panic
      | some h2 => .ok h2

end Verif.Patch
