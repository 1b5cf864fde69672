import Verif.Consts.Fold
import Verif.Consts.Spec
/-!
# What folding logic, tuple and list operations should give
-/
namespace Verif.Consts

open Verif.Types

variable {κ φ : Type}

/-- The constants known for some of the inputs `ins` of an operation: at most one per port, in any
order, each agreeing (in the sense of `R`) with the input of that port. -/
def Supplies {α : Type} (R : Value κ φ → α → Prop) (consts : Known κ φ) (ins : List α) : Prop :=
  (consts.map (·.1)).Nodup ∧ ∀ p ∈ consts, ∃ a, ins[p.1]? = some a ∧ R p.2 a

/-- The constant for a boolean: a variant of the sum of two empty rows. -/
def boolVal (b : Bool) : Value κ φ := .sum b.toNat [] (.unit 2)

/-- A constant that a program may carry where the runtime value is the boolean `b`: one equal to
the boolean constant, or an extension constant (such as an external symbol), of which nothing is
known. -/
def StandsFor (L : Lib κ φ) (c : Value κ φ) (b : Bool) : Prop :=
  c.rustEq L (boolVal b) = true ∨ ∃ k, c = .ext k

/-- The truth tables. -/
def LogicOp.table : LogicOp → List Bool → Option Bool
  | .and, [a, b] => some (a && b)
  | .or, [a, b] => some (a || b)
  | .eq, [a, b] => some (a == b)
  | .xor, [a, b] => some (a != b)
  | .not, [a] => some (!a)
  | _, _ => none

/-- `v` is the variant `tag` of the sum type `t`, holding exactly `xs`. -/
def IsVariant (L : Lib κ φ) (t : Ty) (tag : Nat) (xs : List (Value κ φ)) (v : Value κ φ) : Prop :=
  HasType L v t ∧ ∃ ty, v = .sum tag xs ty

/-- What the list operations do on lists (documentation of `ListOp`,
hugr-core/src/std_extensions/collections/list.rs:140-163): `ins` are the inputs, `outs` the
outputs in the order of the signature. -/
inductive ListSpec (L : Lib κ φ) (elem : Ty) :
    ListOp → List (Value κ φ) → List (Value κ φ) → Prop
  | pop_last (vs x o) : IsVariant L (eitherTy [] [.ty elem]) 1 [x] o →
      ListSpec L elem .pop [.list elem (vs ++ [x])] [.list elem vs, o]
  | pop_empty (o) : IsVariant L (eitherTy [] [.ty elem]) 0 [] o →
      ListSpec L elem .pop [.list elem []] [.list elem [], o]
  | push (vs x) : ListSpec L elem .push [.list elem vs, x] [.list elem (vs ++ [x])]
  | get_in (pre x post o) : IsVariant L (eitherTy [] [.ty elem]) 1 [x] o →
      ListSpec L elem .get [.list elem (pre ++ x :: post), .usize pre.length] [o]
  | get_out (vs i o) : vs.length ≤ i → IsVariant L (eitherTy [] [.ty elem]) 0 [] o →
      ListSpec L elem .get [.list elem vs, .usize i] [o]
  | set_in (pre old post x o) : IsVariant L (eitherTy [.ty elem] [.ty elem]) 1 [old] o →
      ListSpec L elem .set [.list elem (pre ++ old :: post), .usize pre.length, x]
        [.list elem (pre ++ x :: post), o]
  | set_out (vs i x o) : vs.length ≤ i → IsVariant L (eitherTy [.ty elem] [.ty elem]) 0 [x] o →
      ListSpec L elem .set [.list elem vs, .usize i, x] [.list elem vs, o]
  | insert_out (vs i x o) : vs.length ≤ i →
      IsVariant L (eitherTy [.ty elem] [.ty (.sumUnit 1)]) 0 [x] o →
      ListSpec L elem .insert [.list elem vs, .usize i, x] [.list elem vs, o]
  | insert_in (pre next post x o u) : u = .sum 0 [] (.unit 1) →
      IsVariant L (eitherTy [.ty elem] [.ty (.sumUnit 1)]) 1 [u] o →
      ListSpec L elem .insert [.list elem (pre ++ next :: post), .usize pre.length, x]
        [.list elem (pre ++ x :: next :: post), o]
  | length (vs) : ListSpec L elem .length [.list elem vs] [.list elem vs, .usize vs.length]

end Verif.Consts
