import Mathlib.Order.Defs.LinearOrder
import Mathlib.Data.Nat.Basic
import Verif.Common.SortedMap

/-!
# Model of `PartialValue`: the abstract values of dataflow analysis

Source: `/repo/hugr-passes/src/dataflow/partial_value.rs`.

A `HashMap` from tags to rows is modelled by the list of its entries sorted by tag (the order of
iteration matters only for `partial_cmp`, where it is a parameter).
-/
namespace Verif.Dataflow

/-- `AbstractValue`, partial_value.rs:15-38: join and meet of leaf values, with the flag telling
whether the result differs from the first argument; `none` if not representable. -/
class AbsVal (V : Type) where
  tryJoin : V → V → Option (V × Bool)
  tryMeet : V → V → Option (V × Bool)

/-- The default methods of `AbstractValue`, partial_value.rs:24-26, 35-37. -/
@[reducible] def AbsVal.default (V : Type) [DecidableEq V] : AbsVal V where
  tryJoin a b := if a = b then some (a, false) else none
  tryMeet a b := if a = b then some (a, false) else none

/-- `PartialValue<V, N>`, partial_value.rs:319-330, with `LoadedFunction` (l.57-62, `A` is the type
of its arguments) and `PartialSum` (l.67) inlined. -/
inductive PV (V N A : Type) where
  | bottom
  | func (node : N) (args : A)
  | value (v : V)
  | psum (rows : List (Nat × List (PV V N A)))
  | top

variable {V N A : Type}

namespace PV

/-- `PartialValue::new_variant`, partial_value.rs:72-74, 352-354. -/
def newVariant (tag : Nat) (values : List (PV V N A)) : PV V N A := psum [(tag, values)]

/-- The check at the start of `try_join_mut`, partial_value.rs:111-115: no tag of `other` has a row
of another length in `self`. -/
def joinLengthsOk (self other : List (Nat × List (PV V N A))) : Bool :=
  other.all fun e => match bmGet self e.1 with
    | some row => row.length == e.2.length
    | none => true

mutual
/-- `PartialValue::join_mut`, partial_value.rs:444-469: the new value and the flag.
Simplification: the assertions on `self` (l.445) are left out; `C16_invariant_kept` shows that
they hold. -/
def join [AbsVal V] [DecidableEq N] (a : PV V N A) : PV V N A → PV V N A × Bool
  | bottom => (a, false)
  | top =>
    match a with
    | top => (top, false)
    | _ => (top, true)
  | value h2 =>
    match a with
    | top => (top, false)
    | bottom => (value h2, true)
    | value h1 =>
      match AbsVal.tryJoin h1 h2 with
      | some (h3, b) => (value h3, b)
      | none => (top, true)
    | _ => (top, true)
  | func n2 a2 =>
    match a with
    | top => (top, false)
    | bottom => (func n2 a2, true)
    | func n1 a1 => if n1 = n2 then (func n1 a1, false) else (top, true)
    | _ => (top, true)
  | psum ps2 =>
    match a with
    | top => (top, false)
    | bottom => (psum ps2, true)
    | psum ps1 =>
      if joinLengthsOk ps1 ps2 then
        (psum (joinRows ps1 ps2).1, (joinRows ps1 ps2).2)
      else (top, true)
    | _ => (top, true)
/-- The loop of `PartialSum::try_join_mut`, partial_value.rs:116-128. -/
def joinRows [AbsVal V] [DecidableEq N] (self : List (Nat × List (PV V N A))) :
    List (Nat × List (PV V N A)) → List (Nat × List (PV V N A)) × Bool
  | [] => (self, false)
  | (k, v) :: other =>
    match bmGet self k with
    | some row =>
      let r := joinRow row v
      let s := joinRows (bmInsert self k r.1) other
      (s.1, r.2 || s.2)
    | none => ((joinRows (bmInsert self k v) other).1, true)
/-- The inner loop, partial_value.rs:120-122. `zip_eq` panics on different lengths; the lengths have
been checked, and the model keeps what is left of `self`. -/
def joinRow [AbsVal V] [DecidableEq N] (self : List (PV V N A)) :
    List (PV V N A) → List (PV V N A) × Bool
  | [] => (self, false)
  | rhs :: v =>
    match self with
    | [] => ([], false)
    | lhs :: row =>
      let r := join lhs rhs
      let s := joinRow row v
      (r.1 :: s.1, r.2 || s.2)
end

/-- The check at the start of `try_meet_mut`, partial_value.rs:141-150: no common tag has rows of
different lengths. -/
def meetLengthsOk (self other : List (Nat × List (PV V N A))) : Bool :=
  self.all fun e => match bmGet other e.1 with
    | some row => e.2.length == row.length
    | none => true

/-- `keys_to_remove` after the first loop, partial_value.rs:143: the tags of `self` unknown to
`other`. -/
def keysMissing (self other : List (Nat × List (PV V N A))) : List Nat :=
  (self.filter fun e => (bmGet other e.1).isNone).map Prod.fst

/-- `for k in keys_to_remove { self.0.remove(&k); .. }`, partial_value.rs:163-166. -/
def removeKeys (self : List (Nat × List (PV V N A))) (ks : List Nat) :
    List (Nat × List (PV V N A)) := ks.foldl bmRemove self

mutual
/-- `PartialValue::meet_mut`, partial_value.rs:471-496. -/
def meet [AbsVal V] [DecidableEq N] (a : PV V N A) : PV V N A → PV V N A × Bool
  | top => (a, false)
  | bottom =>
    match a with
    | bottom => (bottom, false)
    | _ => (bottom, true)
  | value h2 =>
    match a with
    | bottom => (bottom, false)
    | top => (value h2, true)
    | value h1 =>
      match AbsVal.tryMeet h1 h2 with
      | some (h3, b) => (value h3, b)
      | none => (bottom, true)
    | _ => (bottom, true)
  | func n2 a2 =>
    match a with
    | bottom => (bottom, false)
    | top => (func n2 a2, true)
    | func n1 a1 => if n1 = n2 then (func n1 a1, false) else (bottom, true)
    | _ => (bottom, true)
  | psum ps2 =>
    match a with
    | bottom => (bottom, false)
    | top => (psum ps2, true)
    | psum ps1 =>
      if meetLengthsOk ps1 ps2 = false ∨ (keysMissing ps1 ps2).length = ps1.length then
        (bottom, true)
      else
        let r := meetRows ps1 ps2
        let keysToRemove := keysMissing ps1 ps2 ++ r.2.2
        (psum (removeKeys r.1 keysToRemove), r.2.1 || !keysToRemove.isEmpty)
    | _ => (bottom, true)
/-- The second loop of `PartialSum::try_meet_mut`, partial_value.rs:154-162: the rows, the flag, and
the tags of `other` unknown to `self`. -/
def meetRows [AbsVal V] [DecidableEq N] (self : List (Nat × List (PV V N A))) :
    List (Nat × List (PV V N A)) → List (Nat × List (PV V N A)) × Bool × List Nat
  | [] => (self, false, [])
  | (k, v) :: other =>
    match bmGet self k with
    | some row =>
      let r := meetRow row v
      let s := meetRows (bmInsert self k r.1) other
      (s.1, r.2 || s.2.1, s.2.2)
    | none =>
      let s := meetRows self other
      (s.1, s.2.1, k :: s.2.2)
/-- The inner loop, partial_value.rs:156-158. -/
def meetRow [AbsVal V] [DecidableEq N] (self : List (PV V N A)) :
    List (PV V N A) → List (PV V N A) × Bool
  | [] => (self, false)
  | rhs :: v =>
    match self with
    | [] => ([], false)
    | lhs :: row =>
      let r := meet lhs rhs
      let s := meetRow row v
      (r.1 :: s.1, r.2 || s.2)
end

/-- `keys1`/`keys2` of `PartialSum::partial_cmp`, partial_value.rs:273-280: the characteristic
vector of the tags, of length `n`. -/
def keyVector (n : Nat) (rows : List (Nat × List (PV V N A))) : List Nat :=
  (List.range n).map fun k => if (bmGet rows k).isSome then 1 else 0

/-- `Vec<i32>::cmp`: lexicographic. -/
def lexCmp : List Nat → List Nat → Ordering
  | [], [] => .eq
  | [], _ :: _ => .lt
  | _ :: _, [] => .gt
  | a :: as, b :: bs => if a < b then .lt else if b < a then .gt else lexCmp as bs

/-- The loop over the rows, partial_value.rs:285-294, on the results of comparing them: the first
that is not `Equal`. -/
def firstDiff : List (Nat × Option Ordering) → Option Ordering
  | [] => some .eq
  | (_, c) :: rest => if c ≠ some .eq then c else firstDiff rest

/-- `max_key + 1`, partial_value.rs:272. -/
def keyBound (r1 r2 : List (Nat × List (PV V N A))) : Nat :=
  ((r1 ++ r2).map fun e => e.1 + 1).foldr max 0

mutual
/-- `PartialOrd for PartialValue`, partial_value.rs:510-526, with `PartialOrd for PartialSum`,
l.270-298. `pick` is the order in which the hash map is iterated (l.285): it permutes the list of
tags with the results of comparing their rows. -/
def partialCmp [DecidableEq V] [DecidableEq N] [DecidableEq A]
    (pick : List (Nat × Option Ordering) → List (Nat × Option Ordering)) (a : PV V N A) :
    PV V N A → Option Ordering
  | bottom =>
    match a with
    | bottom => some .eq
    | _ => some .gt
  | top =>
    match a with
    | top => some .eq
    | _ => some .lt
  | value v2 =>
    match a with
    | bottom => some .lt
    | top => some .gt
    | value v1 => if v1 = v2 then some .eq else none
    | _ => none
  | func n2 a2 =>
    match a with
    | bottom => some .lt
    | top => some .gt
    | func n1 a1 => if n1 = n2 ∧ a1 = a2 then some .eq else none
    | _ => none
  | psum ps2 =>
    match a with
    | bottom => some .lt
    | top => some .gt
    | psum ps1 =>
      match lexCmp (keyVector (keyBound ps1 ps2) ps1) (keyVector (keyBound ps1 ps2) ps2) with
      | .eq => firstDiff (pick (cmpRows pick ps1 ps2))
      | o => some o
    | _ => none
/-- For each tag of `other` (which are those of `self`), the result of comparing the rows. -/
def cmpRows [DecidableEq V] [DecidableEq N] [DecidableEq A]
    (pick : List (Nat × Option Ordering) → List (Nat × Option Ordering))
    (self : List (Nat × List (PV V N A))) :
    List (Nat × List (PV V N A)) → List (Nat × Option Ordering)
  | [] => []
  | (k, v) :: other =>
    (k, match bmGet self k with
        | some row => cmpRow pick row v
        | none => some .eq) :: cmpRows pick self other
/-- `Vec<PartialValue>::partial_cmp`: lexicographic, l.289. -/
def cmpRow [DecidableEq V] [DecidableEq N] [DecidableEq A]
    (pick : List (Nat × Option Ordering) → List (Nat × Option Ordering))
    (self : List (PV V N A)) : List (PV V N A) → Option Ordering
  | [] =>
    match self with
    | [] => some .eq
    | _ :: _ => some .gt
  | rhs :: v =>
    match self with
    | [] => some .lt
    | lhs :: row =>
      match partialCmp pick lhs rhs with
      | some .eq => cmpRow pick row v
      | o => o
end

mutual
/-- `PartialValue::contains_bottom`, partial_value.rs:385-391, with `PartialSum::contains_bottom`,
l.98-102. -/
def containsBottom : PV V N A → Bool
  | bottom => true
  | psum rows => rowsContainBottom rows
  | _ => false
/-- `self.0.iter().all(..)`, l.99-101. -/
def rowsContainBottom : List (Nat × List (PV V N A)) → Bool
  | [] => true
  | (_, row) :: rows => rowContainsBottom row && rowsContainBottom rows
/-- `row_contains_bottom`, hugr-passes/src/dataflow.rs:110-114. -/
def rowContainsBottom : List (PV V N A) → Bool
  | [] => false
  | x :: xs => x.containsBottom || rowContainsBottom xs
end

/-- `PartialValue::supports_tag`, partial_value.rs:371-379. -/
def supportsTag (tag : Nat) : PV V N A → Bool
  | psum rows => (bmGet rows tag).isSome
  | top => true
  | _ => false

/-- Result of `variant_values`. -/
inductive Variant (V N A : Type) where
  | panic
  | none
  | some (row : List (PV V N A))

/-- `PartialValue::variant_values`, partial_value.rs:400-410. -/
def variantValues (tag len : Nat) : PV V N A → Variant V N A
  | psum rows =>
    match bmGet rows tag with
    | .none => .none
    | .some row => if row.length = len then .some row else .panic
  | top => .some (List.replicate len top)
  | _ => .none

end PV
end Verif.Dataflow
