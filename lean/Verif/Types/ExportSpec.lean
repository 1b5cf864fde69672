import Verif.Types.Export
import Verif.Types.Built
import Verif.Ident.Props
/-
Specification for the exchange format: what of a type or term the format can express.
-/
namespace Verif.Types

/-- The name of a type definition: the extension is a path of identifiers other than `core`, whose
names stand for built-in constructors; the type is one identifier. -/
def GoodName (C : Ident.Classes) (e i : String) : Prop :=
  (∃ cs, Ident.IsPath C cs e.toList) ∧ Ident.IsIdent C i.toList ∧ e ≠ "core"

mutual
/-- There is nothing inside that the exchange format cannot express:
* kinds of types below the outermost level are not restricted to copyable types,
* kinds of numbers have no upper bound,
* concatenations are as the constructors make them,
* row variables are not restricted to copyable types,
* names are identifiers and there are no aliases,
* indices of row variables fit 16 bits. -/
def Term.Lossless (C : Ident.Classes) : Term → Prop
  | .runtimeType b => b = .linear
  | .boundedNatType ub => ub = none
  | .listType t => t.Lossless C
  | .tupleType t => t.Lossless C
  | .runtime t => t.Lossless C
  | .constType t => t.Lossless C
  | .list ts => LosslessTerms C ts
  | .tuple ts => LosslessTerms C ts
  | .listConcat ts => LosslessTerms C ts ∧ ∃ parts, .listConcat ts = newListFromParts parts
  | .tupleConcat ts => LosslessTerms C ts ∧ ∃ parts, .tupleConcat ts = newTupleFromParts parts
  | _ => True
/-- See `Term.Lossless`. -/
def LosslessTerms (C : Ident.Classes) : List Term → Prop
  | [] => True
  | t :: ts => t.Lossless C ∧ LosslessTerms C ts
/-- See `Term.Lossless`. -/
def Ty.Lossless (C : Ident.Classes) : Ty → Prop
  | .ext e i args _ => GoodName C e i ∧ LosslessTerms C args
  | .alias _ _ => False
  | .function i o => LosslessRow C i ∧ LosslessRow C o
  | .sumGen rows _ => LosslessRows C rows
  | _ => True
/-- See `Term.Lossless`. -/
def RTy.Lossless (C : Ident.Classes) : RTy → Prop
  | .ty t => t.Lossless C
  | .rowVar i b => b = .linear ∧ i < 2 ^ 16
/-- See `Term.Lossless`. -/
def LosslessRow (C : Ident.Classes) : List RTy → Prop
  | [] => True
  | t :: ts => t.Lossless C ∧ LosslessRow C ts
/-- See `Term.Lossless`. -/
def LosslessRows (C : Ident.Classes) : List (List RTy) → Prop
  | [] => True
  | r :: rs => LosslessRow C r ∧ LosslessRows C rs
end

/-- At the outermost level of a parameter, types may be restricted to copyable types. -/
def LosslessParam (C : Ident.Classes) (p : Term) : Prop :=
  (∃ b, p = .runtimeType b) ∨ p.Lossless C

/-- A polymorphic function type that is valid and made by the constructors.  The code validates the
body (types/poly_func.rs:126-128); here also the types of the parameters must be valid. -/
def PolyOk (env : Env) (params : List Term) (i o : List RTy) : Prop :=
  validateRow env params i = true ∧ validateRow env params o = true
  ∧ builtRow i = true ∧ builtRow o = true
  ∧ ∀ p ∈ params, p.validate env params = true ∧ p.built = true

/-- There is nothing in a polymorphic function type that the exchange format cannot express. -/
def PolyLossless (C : Ident.Classes) (params : List Term) (i o : List RTy) : Prop :=
  params.length ≤ 2 ^ 16 ∧ (∀ p ∈ params, LosslessParam C p) ∧ LosslessRow C i ∧ LosslessRow C o

/-- The import ends with result `r`: following enough uses of variables one inside the other gives
`r`.  (The code follows as many as there are.) -/
def ImportsTo (E : ImportEnv) (s : MSymbol) (r : List Term × List RTy × List RTy) : Prop :=
  ∃ k, ∀ n, k ≤ n → importPoly E n s = some r

end Verif.Types
