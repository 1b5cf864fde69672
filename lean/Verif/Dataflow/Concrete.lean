import Verif.Dataflow.PartialValue

/-!
# Model of the conversion of abstract values into concrete ones

Source: `/repo/hugr-passes/src/dataflow/partial_value.rs:170-234, 413-440`.
-/
namespace Verif.Dataflow
variable {V N A Ty C : Type}

/-- `AsConcrete`, partial_value.rs:178-195 (errors forgotten), with the part of a type that
`try_into_sum` looks at (l.214-217): the row of a variant, `none` if the type is not a sum, has no
such variant or the variant has row variables. -/
structure AsConcrete (V N A Ty C : Type) where
  fromValue : V → Option C
  fromFunc : N → A → Option C
  fromSum : Nat → List C → Ty → Option C
  getVariant : Ty → Nat → Option (List Ty)

/-- `ExtractValueError`, partial_value.rs:240-259. -/
inductive ConvErr where
  | multipleVariants | valueIsBottom | valueIsTop | couldNotConvert | couldNotBuildSum
  | couldNotLoadFunction | badSumType
  deriving DecidableEq

namespace PV
mutual
/-- `PartialValue::try_into_concrete`, partial_value.rs:423-440. -/
def tryIntoConcrete (I : AsConcrete V N A Ty C) : PV V N A → Ty → Except ConvErr C
  | value v, _ =>
    match I.fromValue v with
    | some c => .ok c
    | none => .error .couldNotConvert
  | func n x, _ =>
    match I.fromFunc n x with
    | some c => .ok c
    | none => .error .couldNotLoadFunction
  | psum rows, t => tryIntoSum I rows t
  | top, _ => .error .valueIsTop
  | bottom, _ => .error .valueIsBottom
/-- `PartialSum::try_into_sum`, partial_value.rs:206-234, followed by `from_sum`. -/
def tryIntoSum (I : AsConcrete V N A Ty C) : List (Nat × List (PV V N A)) → Ty → Except ConvErr C
  | [], _ => .error .multipleVariants
  | (tag, row) :: rows, t =>
    if rows.isEmpty then
      match I.getVariant t tag with
      | some ts =>
        if row.length = ts.length then
          match tryIntoRow I row ts with
          | .ok cs =>
            match I.fromSum tag cs t with
            | some c => .ok c
            | none => .error .couldNotBuildSum
          | .error e => .error e
        else .error .badSumType
      | none => .error .badSumType
    else .error .multipleVariants
/-- The elements of the sum, partial_value.rs:220-223. -/
def tryIntoRow (I : AsConcrete V N A Ty C) : List (PV V N A) → List Ty → Except ConvErr (List C)
  | [], _ => .ok []
  | _ :: _, [] => .ok []
  | x :: xs, t :: ts =>
    match tryIntoConcrete I x t with
    | .ok c =>
      match tryIntoRow I xs ts with
      | .ok cs => .ok (c :: cs)
      | .error e => .error e
    | .error e => .error e
end
end PV
end Verif.Dataflow
