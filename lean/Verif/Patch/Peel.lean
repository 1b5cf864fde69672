import Verif.Patch.Copy
import Verif.Graph.Insert

/-!
# Model of `PeelTailLoop`

Source: `/repo/hugr-core/src/hugr/patch/peel_loop.rs`.
-/
namespace Verif.Patch

open Verif.Graph Verif.Ops Verif.Passes

variable {Meta : Type}

/-- The indices of the new nodes: the copy of the loop, the output of the new graph, and the two cases
with their inputs and outputs. -/
structure PeelNew where
  copy : Nat
  out : Nat
  again : Nat
  againIn : Nat
  againOut : Nat
  stop : Nat
  stopIn : Nat
  stopOut : Nat

/-- The new nodes. -/
def PeelNew.news (P : PeelNew) : List Nat :=
  [P.copy, P.out, P.again, P.againIn, P.againOut, P.stop, P.stopIn, P.stopOut]

/-- The outcome of `PeelTailLoop`. -/
inductive LoopPeeling (Meta : Type) where
  | ok (h : Hugr Ops.Op Meta)
  | notTailLoop
  | panic

/-- The links from the first `k` ports of `s` to those of `t`. -/
def straight (s t k : Nat) : List Link := (List.range k).map fun p => ⟨s, p, t, p⟩

/-- The loop becomes a graph, and a copy of the loop is put next to it, peel_loop.rs:65-80. -/
def copyLoop (h : Hugr Ops.Op Meta) (n : Nat) (ji jo rest : List Types.Ty) (N : PeelNew) (copies : List Nat) :
    Option (Hugr Ops.Op Meta) :=
  match h.replaceOp n (.dfg ⟨ji ++ rest, jo ++ rest⟩) with
  | none => none
  | some (h1, _) =>
    match h1.addNodeAfter opsInfo.toOpInfo N.copy n (.tailLoop ji jo rest) with
    | none => none
    | some h2 => copyDescendants some h2 n N.copy copies

/-- The output of the body becomes a conditional, followed by a new output, peel_loop.rs:83-102. -/
def addConditional (h : Hugr Ops.Op Meta) (n : Nat) (ji jo rest : List Types.Ty) (N : PeelNew) :
    Option (Hugr Ops.Op Meta × Nat) :=
  match getIo h n with
  | none => none
  | some (_, o) =>
    match h.replaceOp o (.conditional [ji, jo] rest (jo ++ rest)) with
    | none => none
    | some (h1, _) =>
      match h1.addPorts o .outgoing ((jo ++ rest).length + 1) with
      | none => none
      | some (h2, _) =>
        match h2.addNodeBefore opsInfo.toOpInfo N.out o (.output (jo ++ rest)) with
        | none => none
        | some h3 =>
          match connectAll h3 (straight o N.out (jo ++ rest).length) with
          | none => none
          | some h4 => some (h4, o)

/-- A case with its input and output, peel_loop.rs:105-112. -/
def addCase (h : Hugr Ops.Op Meta) (cond c i o : Nat) (ins outs : List Types.Ty) : Option (Hugr Ops.Op Meta) :=
  match h.addNodeWithParent opsInfo.toOpInfo c cond (.case ⟨ins, outs⟩) with
  | none => none
  | some h1 =>
    match h1.addNodeWithParent opsInfo.toOpInfo i c (.input ins) with
    | none => none
    | some h2 => h2.addNodeWithParent opsInfo.toOpInfo o c (.output outs)

/-- The copy of the loop moves into the first case, and the cases are wired, peel_loop.rs:114-123. The
tag to go on is 0, and that to stop is 1, hugr-core/src/ops/controlflow.rs:53 and 58. -/
def wireCases (h : Hugr Ops.Op Meta) (ji jo rest : List Types.Ty) (N : PeelNew) : Option (Hugr Ops.Op Meta) :=
  match h.setParent N.copy N.again with
  | none => none
  | some h1 =>
    match getIo h1 N.again, getIo h1 N.stop with
    | some (ai, ao), some (si, so) =>
      match connectAll h1 ((List.range (jo ++ rest).length).flatMap fun p => [⟨si, p, so, p⟩, ⟨N.copy, p, ao, p⟩]) with
      | none => none
      | some h2 => connectAll h2 (straight ai N.copy (ji ++ rest).length)
    | _, _ => none

/-- `PeelTailLoop::apply_hugr_mut` for a loop, peel_loop.rs:65-124. -/
def peelSteps (h : Hugr Ops.Op Meta) (n : Nat) (ji jo rest : List Types.Ty) (N : PeelNew) (copies : List Nat) :
    Option (Hugr Ops.Op Meta) :=
  match copyLoop h n ji jo rest N copies with
  | none => none
  | some h1 =>
    match addConditional h1 n ji jo rest N with
    | none => none
    | some (h2, o) =>
      match addCase h2 o N.again N.againIn N.againOut (ji ++ rest) (jo ++ rest) with
      | none => none
      | some h3 =>
        match addCase h3 o N.stop N.stopIn N.stopOut (jo ++ rest) (jo ++ rest) with
        | none => none
        | some h4 => wireCases h4 ji jo rest N

/-- `PeelTailLoop::apply_hugr_mut`, peel_loop.rs:63-125, with `verify`, 43-52. `copies` are the indices of
the copies of the nodes inside the loop. -/
def peelLoop (h : Hugr Ops.Op Meta) (n : Nat) (N : PeelNew) (copies : List Nat) : LoopPeeling Meta :=
  match h.ops n with
  | .tailLoop ji jo rest =>
    match peelSteps h n ji jo rest N copies with
    | none => .panic
    | some g => .ok g
  | _ => .notTailLoop

end Verif.Patch
