import Verif.Dataflow.AnalysisSpec

/-!
# Specification: a transformation preserves executions
-/
namespace Verif.Dataflow

open Verif.Graph Verif.Ops

variable {Meta W E : Type}

section Funcs
variable (P : Nat → Prop)
mutual
/-- All functions in a value satisfy `P`. -/
def FuncsIn : Val W → Prop
  | .val _ => True
  | .func f _ => P f
  | .sum _ elems => FuncsInAll elems
/-- All functions in some values. -/
def FuncsInAll : List (Val W) → Prop
  | [] => True
  | v :: vs => FuncsIn v ∧ FuncsInAll vs
end
end Funcs

/-- What is not defined in the Hugr returns only functions it was given, or functions that satisfy
`P`. -/
structure Sem.Closed (S : Sem W E) (P : Nat → Prop) : Prop where
  ext : ∀ n ins outs, S.ext n ins outs → FuncsInAll P ins → FuncsInAll P outs
  external : ∀ f ins outs, S.external f ins outs → FuncsInAll P ins → FuncsInAll P outs
  unknown : ∀ w ins outs, S.unknown w ins outs → FuncsInAll P ins → FuncsInAll P outs

/-- The activation `a` of `h` is reproduced by the activation `a'` of `h'`: on the nodes that are in
both there are at least the same values, the same regions have been entered, and what a region
returns in `a` it can return in `a'`. -/
structure Reproduces (h h' : Hugr Ops.Op Meta) (a a' : Activation W) : Prop where
  wires : ∀ n p v, h.live n = true → h'.live n = true → a.wires n p = some v → a'.wires n p = some v
  entered : ∀ p, h.live p = true → h'.live p = true → a.entered p → a'.entered p
  returns : ∀ p i o outs, h.live p = true → h'.live p = true → a.entered p →
    (Validate.body (h.ops p)).isSome = true → HasIO h p i o → Ready h a.wires o outs →
    HasIO h' p i o ∧ Ready h' a'.wires o outs

/-- All that happens in an execution of `h` that is started as `Root` allows can happen in an
execution of `h'` that is started in the same way. -/
def Preserves (h : Hugr Ops.Op Meta) (S : Sem W E) (h' : Hugr Ops.Op Meta) (S' : Sem W E)
    (Root : Nat → List (Val W) → Prop) : Prop :=
  ∀ r args a, Root r args → Occurs h S Root r args a →
    ∃ a', Occurs h' S' Root r args a' ∧ Reproduces h h' a a'

end Verif.Dataflow
