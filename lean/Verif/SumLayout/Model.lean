import Mathlib.Order.Defs.LinearOrder
import Verif.Common.SortedMap

/-!
# Model of the layout of sum types

Source: `/repo/hugr-llvm/src/sum/layout.rs`. The types of fields are any type `T` with a linear
order, as in the source (`layout_variants_impl` is generic).
-/
namespace Verif.SumLayout

variable {T : Type} [LinearOrder T]

/-- Counting the fields of one variant by type, layout.rs:107-117. -/
def countFields (elide : T → Bool) : List (T × Nat) → List T → List (T × Nat)
  | m, [] => m
  | m, t :: ts =>
    if elide t then countFields elide m ts
    else
      match bmGet m t with
      | some c => countFields elide (bmInsert m t (c + 1)) ts
      | none => countFields elide (bmInsert m t 1) ts

/-- One step of taking the maximum over variants, layout.rs:119-125. -/
def mergeCounts : List (T × Nat) → List (T × Nat) → List (T × Nat)
  | m, [] => m
  | m, (t, count) :: rest =>
    match bmGet m t with
    | some x => mergeCounts (bmInsert m t (max count x)) rest
    | none => mergeCounts (bmInsert m t count) rest

/-- `t_counts`, layout.rs:104-127 (`flatten` goes through the variants in turn, each in key order). -/
def typeCounts (elide : T → Bool) (variants : List (List T)) : List (T × Nat) :=
  variants.foldl (fun m v => mergeCounts m (countFields elide [] v)) []

/-- `sorted_fields`, layout.rs:128-131. -/
def sortedFields (counts : List (T × Nat)) : List T :=
  counts.flatMap fun e => List.replicate e.2 e.1

/-- `t_to_range`, layout.rs:133-140: start and end of each type's slots. -/
def typeRanges : Nat → List (T × Nat) → List (T × (Nat × Nat))
  | _, [] => []
  | offset, (t, count) :: rest => (t, (offset, offset + count)) :: typeRanges (offset + count) rest

/-- The slots of one variant, layout.rs:174-186; `none` is the panic "We have ensured that there are
enough fields of type t". -/
def assignSlots (elide : T → Bool) : List (T × (Nat × Nat)) → List T → Option (List (Option Nat))
  | _, [] => some []
  | ranges, t :: ts =>
    if elide t then
      match assignSlots elide ranges ts with
      | some out => some (none :: out)
      | none => none
    else
      match bmGet ranges t with
      | none => none
      | some (s, e) =>
        if s < e then
          match assignSlots elide (bmInsert ranges t (s + 1, e)) ts with
          | some out => some (some s :: out)
          | none => none
        else none

/-- All variants, layout.rs:171-189; `none` if one panics. -/
def assignAll (elide : T → Bool) (ranges : List (T × (Nat × Nat))) :
    List (List T) → Option (List (List (Option Nat)))
  | [] => some []
  | v :: vs =>
    match assignSlots elide ranges v with
    | none => none
    | some out =>
      match assignAll elide ranges vs with
      | none => none
      | some outs => some (out :: outs)

/-- `layout_variants_impl`, layout.rs:161-208. The debug assertions are not modelled; they follow
from `C40_layout`. -/
def layoutVariants (elide : T → Bool) (variants : List (List T)) :
    Option (List T × List (List (Option Nat))) :=
  let counts := typeCounts elide variants
  match assignAll elide (typeRanges 0 counts) variants with
  | none => none
  | some layout => some (sortedFields counts, layout)

end Verif.SumLayout
