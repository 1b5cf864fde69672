import Verif.Consts.Model
/-!
# When a constant is well typed

A specification of the types of constants that does not use the checks made by the code.
-/
namespace Verif.Consts

open Verif.Types

variable {κ φ : Type}

/-- `HasType L v t`: the constant `v`, looked at all the way down, is a constant of type `t`.
Types are compared by the equality of types (an equivalence, see `C02_equality_is_equivalence`),
which identifies the two representations of sums of empty rows. -/
inductive HasType (L : Lib κ φ) : Value κ φ → Ty → Prop
  /-- An extension constant that accepts itself has the type it says. -/
  | ext (c : κ) : L.valid c = true → HasType L (.ext c) (L.typeOf c)
  /-- A `usize`. -/
  | usize (n : Nat) : HasType L (.usize n) usizeTy
  /-- A list, all of whose elements have the element type. -/
  | list (elem : Ty) (vs : List (Value κ φ)) : (∀ v ∈ vs, HasType L v elem) →
      HasType L (.list elem vs) (listTy elem)
  /-- A function given by a Hugr with a monomorphic signature. -/
  | func (f : φ) (ins outs : List Ty) : L.sig f = some (ins, outs) →
      HasType L (.func f) (.function (ins.map .ty) (outs.map .ty))
  /-- A variant of a sum: the tag selects one of its rows, which is a row of types, and there is
  one value of each of them. -/
  | sum (tag : Nat) (vs : List (Value κ φ)) (ty : SumTy) (row : List Ty) :
      ty.variants[tag]? = some (row.map .ty) → vs.length = row.length →
      (∀ p ∈ vs.zip row, HasType L p.1 p.2) → HasType L (.sum tag vs ty) ty.toTy
  /-- Equal types are interchangeable. -/
  | conv (v : Value κ φ) (t t' : Ty) : HasType L v t → t.rustEq t' = true → HasType L v t'

/-- A constant is well typed when it has some type. -/
def WellTyped (L : Lib κ φ) (v : Value κ φ) : Prop := ∃ t, HasType L v t

/-- The constants a program can make with the functions of the library: extension constants and
lists that pass their own `validate`, and the results of the constructors. -/
inductive Built (L : Lib κ φ) : Value κ φ → Prop
  | ext (c : κ) : L.valid c = true → Built L (.ext c)
  | usize (n : Nat) : Built L (.usize n)
  | list (elem : Ty) (vs : List (Value κ φ)) : (∀ v ∈ vs, Built L v) →
      (Value.list elem vs).validate L = .ok () → Built L (.list elem vs)
  | function (f : φ) (v : Value κ φ) : Value.mkFunction L f = .ok v → Built L v
  | sum (tag : Nat) (items : List (Value κ φ)) (ty : SumTy) (v : Value κ φ) :
      (∀ v ∈ items, Built L v) → Value.mkSum L tag items ty = .ok v → Built L v
  | tuple (items : List (Value κ φ)) (v : Value κ φ) :
      (∀ v ∈ items, Built L v) → Value.mkTuple L items = some v → Built L v
  | unit : Built L Value.mkUnit
  | unitSum (tag size : Nat) (v : Value κ φ) : Value.mkUnitSum L tag size = .ok v → Built L v
  | bool (b : Bool) (v : Value κ φ) : Value.mkBool L b = some v → Built L v
  | some (items : List (Value κ φ)) (v : Value κ φ) :
      (∀ v ∈ items, Built L v) → Value.mkSome L items = some v → Built L v
  | none (tys : List Ty) (v : Value κ φ) : Value.mkNone L tys = some v → Built L v
  | left (items : List (Value κ φ)) (right : List RTy) (v : Value κ φ) :
      (∀ v ∈ items, Built L v) → constLeft L items right = some v → Built L v
  | right (left : List RTy) (items : List (Value κ φ)) (v : Value κ φ) :
      (∀ v ∈ items, Built L v) → constRight L left items = some v → Built L v

/-- The parts of a constant. -/
def Value.parts : Value κ φ → List (Value κ φ)
  | .list _ vs => vs
  | .sum _ vs _ => vs
  | _ => []

/-- A constant without functions, all of whose extension constants are hashable. -/
inductive Hashable (L : Lib κ φ) : Value κ φ → Prop
  | ext (c : κ) : (L.hash c).isSome = true → Hashable L (.ext c)
  | usize (n : Nat) : Hashable L (.usize n)
  | list (elem : Ty) (vs : List (Value κ φ)) : (∀ v ∈ vs, Hashable L v) → Hashable L (.list elem vs)
  | sum (tag : Nat) (vs : List (Value κ φ)) (ty : SumTy) : (∀ v ∈ vs, Hashable L v) →
      Hashable L (.sum tag vs ty)

/-- What is required of extension constants and Hugrs for equality and hashing: equal ones have
equal types and, when one is hashable, so is the other and both hash alike. -/
structure Lib.Lawful (L : Lib κ φ) : Prop where
  type_eq : ∀ c c', L.eq c c' = true → (L.typeOf c).rustEq (L.typeOf c') = true
  hash_eq : ∀ c c', L.eq c c' = true → L.hash c = L.hash c'
  sig_eq : ∀ f f', L.eqF f f' = true → L.sig f = L.sig f'

/-- A constant that refers to a value known only when the program is linked:
`ConstExternalSymbol`, hugr-core/src/extension/prelude.rs:549-608. It may claim any type; it is
valid when the symbol is not empty; it is hashable. -/
structure Sym where
  symbol : String
  typ : Ty
  constant : Bool

/-- A library whose extension constants are external symbols and without any Hugrs. -/
def symLib : Lib Sym Empty where
  typeOf := Sym.typ
  valid := fun s => s.symbol != ""
  eq := fun s s' => s.symbol == s'.symbol && s.typ.rustEq s'.typ && s.constant == s'.constant
  hash := fun s => some (.str s.symbol :: (s.typ.trace ++ [.num s.constant.toNat]))
  sig := nofun
  eqF := nofun

end Verif.Consts
