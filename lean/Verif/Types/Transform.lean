import Verif.Types.Built
import Mathlib.Data.List.Forall2
/-
Replacing extension types inside types and terms.  Models `TypeTransformer` and `Transformable`,
hugr-core/src/types.rs:780-826, with their implementations for terms, types, rows and signatures.
-/
namespace Verif.Types

/-- `TypeTransformer::apply_custom`, hugr-core/src/types.rs:800: an error (`error`), no change (`ok none`) or the type to
use instead of an extension type, given by its extension, name, arguments and bound. -/
abbrev Transformer := String → String → List Term → Bound → Outcome (Option Ty)

/-- The operator `?`. -/
def Outcome.andThen {α β : Type} : Outcome α → (α → Outcome β) → Outcome β
  | .ok a, f => f a
  | .error, _ => .error
  | .panic, _ => .panic

/-- Wraps what was transformed, keeping the flag that tells of a change. -/
def Outcome.wrap {α β : Type} (f : α → β) (r : Outcome (α × Bool)) : Outcome (β × Bool) :=
  r.andThen fun p => .ok (f p.1, p.2)

/-- `get_type_def(&get_extension()?)?.instantiate(args)?`, types.rs:623-626: an error if the extension or the type is
missing or the arguments do not fit, and a panic if the bound depends on an argument that is not a type. -/
def reinstantiate (env : Env) (e i : String) (args : List Term) : Outcome Ty :=
  match env e i with
  | none => .error
  | some d =>
    if checkTerms args d.params then
      match d.boundOf args with
      | some b => .ok (.ext e i args b)
      | none => .panic
    else .error

mutual
/-- `Term::transform`, hugr-core/src/types/type_param.rs:592-616. -/
def Term.transform (env : Env) (tr : Transformer) : Term → Outcome (Term × Bool)
  | .runtime t => (t.transform env tr).wrap .runtime
  | .list es => (transformTerms env tr es).wrap .list
  | .tuple es => (transformTerms env tr es).wrap .tuple
  | .listConcat es => (transformTerms env tr es).wrap .listConcat
  | .tupleConcat es => (transformTerms env tr es).wrap .tupleConcat
  | .listType t => (t.transform env tr).wrap .listType
  | .tupleType t => (t.transform env tr).wrap .tupleType
  | .constType t => (t.transform env tr).wrap .constType
  | t => .ok (t, false)
/-- `[E]::transform`, hugr-core/src/types.rs:818-826. -/
def transformTerms (env : Env) (tr : Transformer) : List Term → Outcome (List Term × Bool)
  | [] => .ok ([], false)
  | t :: ts => (t.transform env tr).andThen fun p => (transformTerms env tr ts).andThen fun q =>
      .ok (p.1 :: q.1, p.2 || q.2)
/-- `TypeBase::transform`, hugr-core/src/types.rs:611-640, with `FuncTypeBase::transform`, types/signature.rs:130-135, and
`SumType::transform`, types.rs:312-319. -/
def Ty.transform (env : Env) (tr : Transformer) : Ty → Outcome (Ty × Bool)
  | .ext e i args b => (tr e i args b).andThen fun r =>
      match r with
      | some nt => .ok (nt, true)
      | none => (transformTerms env tr args).andThen fun p =>
          if p.2 then (reinstantiate env e i p.1).andThen fun nt => .ok (nt, true) else .ok (.ext e i p.1 b, false)
  | .function i o => (transformRow env tr i).andThen fun p => (transformRow env tr o).andThen fun q =>
      .ok (.function p.1 q.1, p.2 || q.2)
  | .sumGen rows _ => (transformRows env tr rows).wrap Ty.general
  | t => .ok (t, false)
/-- `TypeBase<RowVariable>::transform`, types.rs:611-640. -/
def RTy.transform (env : Env) (tr : Transformer) : RTy → Outcome (RTy × Bool)
  | .ty t => (t.transform env tr).wrap .ty
  | .rowVar idx b => .ok (.rowVar idx b, false)
/-- `TypeRowBase::transform`, hugr-core/src/types/type_row.rs:105-109. -/
def transformRow (env : Env) (tr : Transformer) : List RTy → Outcome (List RTy × Bool)
  | [] => .ok ([], false)
  | t :: ts => (t.transform env tr).andThen fun p => (transformRow env tr ts).andThen fun q =>
      .ok (p.1 :: q.1, p.2 || q.2)
/-- The rows of a sum, types.rs:818-826. -/
def transformRows (env : Env) (tr : Transformer) : List (List RTy) → Outcome (List (List RTy) × Bool)
  | [] => .ok ([], false)
  | r :: rs => (transformRow env tr r).andThen fun p => (transformRows env tr rs).andThen fun q =>
      .ok (p.1 :: q.1, p.2 || q.2)
end

/-! ## Specification -/

mutual
/-- The second term is the first one in which the outermost extension types that are to be replaced are replaced. -/
inductive TermReplaced (env : Env) (tr : Transformer) : Term → Term → Prop
  | runtimeType b : TermReplaced env tr (.runtimeType b) (.runtimeType b)
  | staticType : TermReplaced env tr .staticType .staticType
  | boundedNatType ub : TermReplaced env tr (.boundedNatType ub) (.boundedNatType ub)
  | stringType : TermReplaced env tr .stringType .stringType
  | bytesType : TermReplaced env tr .bytesType .bytesType
  | floatType : TermReplaced env tr .floatType .floatType
  | boundedNat n : TermReplaced env tr (.boundedNat n) (.boundedNat n)
  | string s : TermReplaced env tr (.string s) (.string s)
  | bytes s : TermReplaced env tr (.bytes s) (.bytes s)
  | float s : TermReplaced env tr (.float s) (.float s)
  | variable i d : TermReplaced env tr (.variable i d) (.variable i d)
  | runtime {t t' : Ty} : TyReplaced env tr t t' → TermReplaced env tr (.runtime t) (.runtime t')
  | constType {t t' : Ty} : TyReplaced env tr t t' → TermReplaced env tr (.constType t) (.constType t')
  | listType {t t' : Term} : TermReplaced env tr t t' → TermReplaced env tr (.listType t) (.listType t')
  | tupleType {t t' : Term} : TermReplaced env tr t t' → TermReplaced env tr (.tupleType t) (.tupleType t')
  | list {ts ts' : List Term} : List.Forall₂ (TermReplaced env tr) ts ts' → TermReplaced env tr (.list ts) (.list ts')
  | tuple {ts ts' : List Term} : List.Forall₂ (TermReplaced env tr) ts ts' → TermReplaced env tr (.tuple ts) (.tuple ts')
  | listConcat {ts ts' : List Term} : List.Forall₂ (TermReplaced env tr) ts ts' →
      TermReplaced env tr (.listConcat ts) (.listConcat ts')
  | tupleConcat {ts ts' : List Term} : List.Forall₂ (TermReplaced env tr) ts ts' →
      TermReplaced env tr (.tupleConcat ts) (.tupleConcat ts')
/-- An extension type that is not replaced keeps its name; its arguments must still fit, and its bound is that of its
definition. The bound of a sum is the least upper bound of what is in it. -/
inductive TyReplaced (env : Env) (tr : Transformer) : Ty → Ty → Prop
  | replaced {e i : String} {args : List Term} {b : Bound} {t : Ty} : tr e i args b = .ok (some t) →
      TyReplaced env tr (.ext e i args b) t
  | kept {e i : String} {args args' : List Term} {b b' : Bound} {d : TypeDef} : tr e i args b = .ok none →
      List.Forall₂ (TermReplaced env tr) args args' → env e i = some d → checkTerms args' d.params = true →
      d.boundOf args' = some b' → TyReplaced env tr (.ext e i args b) (.ext e i args' b')
  | alias n b : TyReplaced env tr (.alias n b) (.alias n b)
  | variable i b : TyReplaced env tr (.variable i b) (.variable i b)
  | sumUnit n : TyReplaced env tr (.sumUnit n) (.sumUnit n)
  | function {i i' o o' : List RTy} : List.Forall₂ (RTyReplaced env tr) i i' → List.Forall₂ (RTyReplaced env tr) o o' →
      TyReplaced env tr (.function i o) (.function i' o')
  | sumGen {rows rows' : List (List RTy)} {b : Bound} : List.Forall₂ (List.Forall₂ (RTyReplaced env tr)) rows rows' →
      TyReplaced env tr (.sumGen rows b) (.sumGen rows' (leastUpperBound (rows'.flatten.map RTy.bound)))
inductive RTyReplaced (env : Env) (tr : Transformer) : RTy → RTy → Prop
  | ty {t t' : Ty} : TyReplaced env tr t t' → RTyReplaced env tr (.ty t) (.ty t')
  | rowVar i b : RTyReplaced env tr (.rowVar i b) (.rowVar i b)
end

end Verif.Types
