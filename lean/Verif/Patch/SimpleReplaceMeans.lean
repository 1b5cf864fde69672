import Verif.Patch.Semantics
import Verif.Patch.SimpleReplaceSpec
import Verif.Graph.Forgets
import Verif.Graph.SerializeOps

/-!
# Specification: what a subgraph and its replacement do

A subgraph of a dataflow region, and the region of the replacement, relate the values on their inputs to the
values on their outputs. Neither says what the functions do that it calls: the calls are answered by someone
else.
-/
namespace Verif.Patch

open Verif.Graph Verif.Ops Verif.Validate Verif.Dataflow

variable {Meta W E : Type}

/-- The functions of the Hugr without their bodies. -/
def bodiless (h : Hugr Ops.Op Meta) : Hugr Ops.Op Meta :=
  { h with ops := fun n => match h.ops n with
      | .funcDefn name sig => .funcDecl name sig
      | op => op }

/-- What functions may return. -/
abbrev Answers (W : Type) := Nat → List (Val W) → List (Val W) → Prop

/-- The same meaning, with `R` answering calls. -/
def answering (S : Sem W E) (R : Answers W) : Sem W E := { S with external := R }

/-- The nodes of the subgraph `s` of `h`, given `ins` on the inputs of `s`, may have `outs` on its outputs.
There are values `σ` on the wires; each node gets, on each of its ports, the value of an input of `s` or of
another node of `s`. -/
def SubMeans (h : Hugr Ops.Op Meta) (S : Sem W E) (s : Subgraph) (R : Answers W) (ins outs : List (Val W)) : Prop :=
  ins.length = s.inputs.length ∧ outs.length = s.outputs.length ∧
  ∃ (σ : Wires W) (args res : Nat → List (Val W)),
    (∀ n ∈ s.nodes, (args n).length = numIns (h.ops n) ∧
      (∀ (port : Nat) v, (args n)[port]? = some v →
        (∃ (k : Nat) (part : List (Nat × Nat)), s.inputs[k]? = some part ∧ (n, port) ∈ part ∧ ins[k]? = some v) ∨
        ∃ l ∈ h.links, l.src ∈ s.nodes ∧ l.dst = n ∧ l.dstPort = port ∧ σ l.src l.srcPort = some v) ∧
      σ n = outWires (res n) ∧ (res n).length = numOuts (h.ops n) ∧
      Runs (bodiless h) (answering S R) (.node noWires n (args n) (res n))) ∧
    ∀ (j n np : Nat), s.outputs[j]? = some (n, np) → σ n np = outs[j]?

/-- The region of the entrypoint of `r`, given `ins`, may output `outs`. -/
def BodyMeans (r : Hugr Ops.Op Meta) (S : Sem W E) (R : Answers W) (ins outs : List (Val W)) : Prop :=
  ∃ σ, Runs (bodiless r) (answering S R) (.graph noWires r.entrypoint ins outs σ)

/-- The replacement can do whatever the subgraph can do. -/
def Allows (h : Hugr Ops.Op Meta) (S : Sem W E) (s : Subgraph) (r : Hugr Ops.Op Meta) (Sr : Sem W E) : Prop :=
  ∀ R ins outs, SubMeans h S s R ins outs → BodyMeans r Sr R ins outs

/-- The replacement does only what the subgraph can do. -/
def Respects (h : Hugr Ops.Op Meta) (S : Sem W E) (s : Subgraph) (r : Hugr Ops.Op Meta) (Sr : Sem W E) : Prop :=
  ∀ R ins outs, BodyMeans r Sr R ins outs → SubMeans h S s R ins outs

/-- `S'` gives the operations and constants that stay in `h` the meaning that they have in `S`, and those that come
from `r` the one that they have in `Sr`. -/
structure Merges (h r : Hugr Ops.Op Meta) (s : Subgraph) (i o : Nat) (f : Nat → Nat) (S Sr S' : Sem W E) : Prop where
  ext_old : ∀ n, h.live n = true → n ∉ s.nodes → S'.ext n = S.ext n
  const_old : ∀ n, h.live n = true → n ∉ s.nodes → S'.const n = S.const n
  ext_new : ∀ x, Fresh r i o x → S'.ext (f x) = Sr.ext x
  const_new : ∀ x, Fresh r i o x → S'.const (f x) = Sr.const x
  leaf : S'.leaf = S.leaf
  leaf_new : S'.leaf = Sr.leaf
  external : S'.external = S.external
  unknown : S'.unknown = S.unknown
  unknown_new : S'.unknown = Sr.unknown

end Verif.Patch
