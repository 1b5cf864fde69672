import Verif.Types.Syntax
/-
Functions on HUGR types and static terms: bounds, sum normalisation, kind checking, validation and
substitution.  Models `hugr-core/src/types.rs`, `types/type_param.rs`, `types/type_row.rs`,
`types/signature.rs`, `types/poly_func.rs`, `types/custom.rs`, `extension/type_def.rs`.

Panics (including failing `debug_assert!`s, i.e. the debug build is modelled) are `none`.
-/
namespace Verif.Types

/-! ## Bounds -/

/-- `TypeBound::contains`, hugr-core/src/types.rs:152-155. -/
def Bound.contains : Bound → Bound → Bool
  | .linear, _ => true
  | _, .copyable => true
  | _, _ => false

/-- `TypeBound::union`, hugr-core/src/types.rs:141-148. -/
def Bound.union (a b : Bound) : Bound := if a.contains b then a else b

/-- Body of the loop of `least_upper_bound`, hugr-core/src/types.rs:159-168: `fold_while` with the
accumulator `acc`, stopping at the first linear bound. -/
def leastUpperBoundFrom (acc : Bound) : List Bound → Bound
  | [] => acc
  | new :: rest =>
    if acc = .linear ∨ new = .linear then .linear else leastUpperBoundFrom (acc.union new) rest

/-- `least_upper_bound`, hugr-core/src/types.rs:159-168. -/
def leastUpperBound (bs : List Bound) : Bound := leastUpperBoundFrom .copyable bs

/-- `TypeBase<NoRV>::least_upper_bound`, hugr-core/src/types.rs:522-525: the cached bound. -/
def Ty.bound : Ty → Bound
  | .ext _ _ _ b => b
  | .alias _ b => b
  | .function _ _ => .copyable
  | .variable _ b => b
  | .sumUnit _ => .copyable
  | .sumGen _ b => b

/-- `TypeBase<RowVariable>::least_upper_bound`, hugr-core/src/types.rs:522-525. -/
def RTy.bound : RTy → Bound
  | .ty t => t.bound
  | .rowVar _ b => b

/-- `TypeBase::copyable`, hugr-core/src/types.rs:559-561. -/
def Ty.copyable (t : Ty) : Bool := Bound.contains .copyable t.bound

/-- `SumType::General` wrapped by `TypeBase::new`: the cached bound is
`TypeEnum::least_upper_bound`, hugr-core/src/types.rs:376-393, 502-505. -/
def Ty.general (rows : List (List RTy)) : Ty :=
  .sumGen rows (leastUpperBound (rows.flatten.map RTy.bound))

/-- `TypeBase::new_sum` via `SumType::new`, hugr-core/src/types.rs:225-237, 476-483. -/
def Ty.newSum (rows : List (List RTy)) : Ty :=
  if rows.length < 256 ∧ rows.all List.isEmpty then .sumUnit rows.length else .general rows

/-- `TypeBase::new_tuple`, hugr-core/src/types.rs:466-473. -/
def Ty.newTuple (row : List RTy) : Ty :=
  if row.length = 0 then .sumUnit 1 else .newSum [row]

/-- `Term::new_var_use`, hugr-core/src/types/type_param.rs:280-294. -/
def Term.newVarUse (idx : Nat) : Term → Term
  | .runtimeType b => .runtime (.variable idx b)
  | decl => .variable idx decl

/-! ## Kinds -/

/-- `UpperBound::valid_value`, hugr-core/src/types/type_param.rs:33-39. -/
def ubValid (ub : Option Nat) (val : Nat) : Bool :=
  match ub with
  | none => true
  | some n => if val = 0 then true else decide (val < n)

/-- `UpperBound::contains`, hugr-core/src/types/type_param.rs:40-46. -/
def ubContains : Option Nat → Option Nat → Bool
  | none, _ => true
  | some b1, some b2 => decide (b2 ≤ b1)
  | some _, none => false

mutual
/-- `Term::is_supertype`, hugr-core/src/types/type_param.rs:197-223. -/
def Term.isSupertype : Term → Term → Bool
  | .runtimeType b1, .runtimeType b2 => b1.contains b2
  | .boundedNatType b1, .boundedNatType b2 => ubContains b1 b2
  | .stringType, .stringType => true
  | .staticType, .staticType => true
  | .listType e1, .listType e2 => e1.isSupertype e2
  | .tupleType e1, .tupleType e2 => e1.isSupertype e2
  | .bytesType, .bytesType => true
  | .floatType, .floatType => true
  | .runtime t1, .runtime t2 => decide (t1 = t2)
  | .boundedNat n1, .boundedNat n2 => decide (n1 = n2)
  | .string s1, .string s2 => decide (s1 = s2)
  | .bytes s1, .bytes s2 => decide (s1 = s2)
  | .float s1, .float s2 => decide (s1 = s2)
  | .variable i1 d1, .variable i2 d2 => decide (i1 = i2) && decide (d1 = d2)
  | .list es1, .list es2 => isSupertypes es1 es2
  | .tuple es1, .tuple es2 => isSupertypes es1 es2
  | _, _ => false
/-- `es1.len() == es2.len() && es1.iter().zip(es2).all(..)`, type_param.rs:214-219. -/
def isSupertypes : List Term → List Term → Bool
  | [], [] => true
  | t1 :: ts1, t2 :: ts2 => t1.isSupertype t2 && isSupertypes ts1 ts2
  | _, _ => false
end

/-- `TermVar::bound_if_row_var`, hugr-core/src/types/type_param.rs:626-633, on the declaration. -/
def rowVarBound : Term → Option Bound
  | .listType (.runtimeType b) => some b
  | _ => none

/-- `SeqPart`, hugr-core/src/types/type_param.rs:757-762. -/
inductive SeqPart
  | item (t : Term)
  | splice (t : Term)
  deriving DecidableEq

mutual
/-- The parts produced by `ListPartIter` from one spliced term,
hugr-core/src/types/type_param.rs:781-797 (`Iterator::next`), here by recursion on the term.
`Parts.lean` proves that the explicit stack machine of the source produces the same sequence. -/
def Term.listParts : Term → List SeqPart
  | .list elems => elems.map .item
  | .listConcat lists => listPartsAll lists
  | t => [.splice t]
def listPartsAll : List Term → List SeqPart
  | [] => []
  | t :: ts => t.listParts ++ listPartsAll ts
end

mutual
/-- The parts produced by `TuplePartIter`, hugr-core/src/types/type_param.rs:814-830. -/
def Term.tupleParts : Term → List SeqPart
  | .tuple elems => elems.map .item
  | .tupleConcat tuples => tuplePartsAll tuples
  | t => [.splice t]
def tuplePartsAll : List Term → List SeqPart
  | [] => []
  | t :: ts => t.tupleParts ++ tuplePartsAll ts
end

/-- Outcome of checking a prefix of the parts of a tuple against the parts of its type. -/
inductive TupleCheck
  /-- The whole check fails. -/
  | fail
  /-- A splice was met: the whole check succeeds. -/
  | done
  /-- All terms so far fit; these type parts are left. -/
  | rest (types : List SeqPart)
  deriving DecidableEq

/-- The row-variable exception of the list case of `check_term_type`,
hugr-core/src/types/type_param.rs:648-656. -/
def rowVarFits : Term → Term → Bool
  | .variable _ d, .runtimeType pb =>
    match rowVarBound d with
    | some b => pb.contains b
    | none => false
  | _, _ => false

mutual
/-- `check_term_type`, hugr-core/src/types/type_param.rs:637-710: does the term fit the type.
The error value is collapsed to `false`.  The tuple case is organised by recursion on the spliced
tuples instead of on the list of their parts: `Kinds.lean` proves that it is the loop of the
source (`checkTerm_tuple_loop`). -/
def checkTerm : Term → Term → Bool
  | .variable _ d, ty => ty.isSupertype d
  | .runtime t, .runtimeType b => b.contains t.bound
  | .list elems, .listType item => checkItems elems item
  | .listConcat lists, .listType item => checkLists lists item
  | .tuple elems, .tupleType items => checkTupleItems elems items.listParts == .rest []
      || checkTupleItems elems items.listParts == .done
  | .tupleConcat tuples, .tupleType items => checkTupleSplices tuples items.listParts == .rest []
      || checkTupleSplices tuples items.listParts == .done
  | .boundedNat n, .boundedNatType ub => ubValid ub n
  | .string _, .stringType => true
  | .bytes _, .bytesType => true
  | .float _, .floatType => true
  | .staticType, .staticType => true
  | .stringType, .staticType => true
  | .bytesType, .staticType => true
  | .boundedNatType _, .staticType => true
  | .floatType, .staticType => true
  | .listType _, .staticType => true
  | .tupleType _, .staticType => true
  | .runtimeType _, .staticType => true
  | .constType _, .staticType => true
  | _, _ => false
/-- Elements of a list against the item type, type_param.rs:646-658. -/
def checkItems : List Term → Term → Bool
  | [], _ => true
  | t :: ts, item => (rowVarFits t item || checkTerm t item) && checkItems ts item
/-- Lists of a concatenation against the item type (sic), type_param.rs:660-662. -/
def checkLists : List Term → Term → Bool
  | [], _ => true
  | t :: ts, item => checkTerm t item && checkLists ts item
/-- Items of a tuple against the remaining parts of the type, type_param.rs:667-681. -/
def checkTupleItems : List Term → List SeqPart → TupleCheck
  | [], types => .rest types
  | _ :: _, [] => .fail
  | _ :: _, .splice _ :: _ => .done
  | t :: ts, .item ty :: types => if checkTerm t ty then checkTupleItems ts types else .fail
/-- One spliced tuple against the remaining parts of the type, type_param.rs:667-681. -/
def checkTupleSplice : Term → List SeqPart → TupleCheck
  | .tuple elems, types => checkTupleItems elems types
  | .tupleConcat tuples, types => checkTupleSplices tuples types
  | _, [] => .fail
  | _, _ :: _ => .done
/-- Spliced tuples in order, type_param.rs:667-681. -/
def checkTupleSplices : List Term → List SeqPart → TupleCheck
  | [], types => .rest types
  | t :: ts, types =>
    match checkTupleSplice t types with
    | .fail => .fail
    | .done => .done
    | .rest types' => checkTupleSplices ts types'
end

/-- `check_term_types`, hugr-core/src/types/type_param.rs:713-721. -/
def checkTerms : List Term → List Term → Bool
  | [], [] => true
  | t :: ts, ty :: tys => checkTerm t ty && checkTerms ts tys
  | _, _ => false

/-! ## Definitions of extension types -/

/-- The bounds of the arguments at the given indices; `none` if one is not a runtime type
(panic "TypeArg index does not refer to a type."), type_def.rs:149-155. -/
def argBounds (args : List Term) : List Nat → Option (List Bound)
  | [] => some []
  | i :: is =>
    match args[i]? with
    | some (.runtime t) =>
      match argBounds args is with
      | some bs => some (t.bound :: bs)
      | none => none
    | _ => none

/-- `TypeDef::bound`, hugr-core/src/extension/type_def.rs:138-159.  Simplification: `fold_while`
stops at the first linear bound, so the source may miss a panic for a later index; the model
panics in that case too. -/
def TypeDef.boundOf (d : TypeDef) (args : List Term) : Option Bound :=
  match d.bound with
  | .explicit b => some b
  | .fromParams [] => some .linear
  | .fromParams indices => (argBounds args indices).map leastUpperBound

/-- `TypeDef::instantiate`, hugr-core/src/extension/type_def.rs:123-135. -/
def TypeDef.instantiate (d : TypeDef) (ext id : String) (args : List Term) : Option Ty :=
  if checkTerms args d.params then (d.boundOf args).map (fun b => .ext ext id args b) else none

/-! ## Validation -/

/-- `check_typevar_decl`, hugr-core/src/types.rs:826-850. -/
def checkDecl (decls : List Term) (idx : Nat) (cached : Term) : Bool :=
  match decls[idx]? with
  | some actual => decide (actual = cached)
  | none => false

/-- Is this `TypeParam::RuntimeType` (the assertion of type_param.rs:372-375). -/
def Term.isRuntimeType : Term → Bool
  | .runtimeType _ => true
  | _ => false

mutual
/-- `Term::validate`, hugr-core/src/types/type_param.rs:356-391. Errors and the assertion failure
on malformed variables are `false`. -/
def Term.validate (env : Env) (decls : List Term) : Term → Bool
  | .runtime t => t.validate env decls
  | .list es => validateTerms env decls es
  | .tuple es => validateTerms env decls es
  | .listConcat es => validateTerms env decls es
  | .tupleConcat es => validateTerms env decls es
  | .variable idx d => !d.isRuntimeType && checkDecl decls idx d
  | .listType t => t.validate env decls
  | .tupleType t => t.validate env decls
  | .constType t => t.validate env decls
  | _ => true
def validateTerms (env : Env) (decls : List Term) : List Term → Bool
  | [] => true
  | t :: ts => t.validate env decls && validateTerms env decls ts
/-- `TypeBase::validate`, hugr-core/src/types.rs:573-590, with `CustomType::validate`,
types/custom.rs:79-86, and `TypeDef::check_custom`, extension/type_def.rs:92-116. -/
def Ty.validate (env : Env) (decls : List Term) : Ty → Bool
  | .ext e i args b => validateTerms env decls args &&
      match env e i with
      | none => false
      | some d => checkTerms args d.params && decide (d.boundOf args = some b)
  | .alias _ _ => true
  | .function i o => validateRow env decls i && validateRow env decls o
  | .variable idx b => checkDecl decls idx (.runtimeType b)
  | .sumUnit _ => true
  | .sumGen rows _ => validateRows env decls rows
/-- `TypeBase<RowVariable>::validate`; row variables: types/row_var.rs:73-75. -/
def RTy.validate (env : Env) (decls : List Term) : RTy → Bool
  | .ty t => t.validate env decls
  | .rowVar idx b => checkDecl decls idx (.listType (.runtimeType b))
/-- `TypeRowBase::validate`, types/type_row.rs:97-99. -/
def validateRow (env : Env) (decls : List Term) : List RTy → Bool
  | [] => true
  | t :: ts => t.validate env decls && validateRow env decls ts
def validateRows (env : Env) (decls : List Term) : List (List RTy) → Bool
  | [] => true
  | r :: rs => validateRow env decls r && validateRows env decls rs
end

/-! ## Substitution -/

/-- One step of the loop of `new_seq_from_parts`, hugr-core/src/types/type_param.rs:463-473, on the
state `(items, seqs)`. -/
def seqStep (mkItems : List Term → Term) (s : List Term × List Term) : SeqPart →
    List Term × List Term
  | .item t => (s.1 ++ [t], s.2)
  | .splice q => ([], if s.1.isEmpty then s.2 ++ [q] else s.2 ++ [mkItems s.1] ++ [q])

/-- `Term::new_seq_from_parts`, hugr-core/src/types/type_param.rs:453-483. -/
def newSeqFromParts (mkItems mkConcat : List Term → Term) (parts : List SeqPart) : Term :=
  let s := parts.foldl (seqStep mkItems) ([], [])
  if s.2.isEmpty then mkItems s.1
  else if s.1.isEmpty then mkConcat s.2
  else mkConcat (s.2 ++ [mkItems s.1])

/-- The parts an individual part expands to (`ListPartIter::new`), type_param.rs:773-797. -/
def SeqPart.listExpand : SeqPart → List SeqPart
  | .item t => [.item t]
  | .splice t => t.listParts

/-- `TuplePartIter::new`, type_param.rs:806-830. -/
def SeqPart.tupleExpand : SeqPart → List SeqPart
  | .item t => [.item t]
  | .splice t => t.tupleParts

/-- `Term::new_list_from_parts`, hugr-core/src/types/type_param.rs:486-492. -/
def newListFromParts (parts : List SeqPart) : Term :=
  newSeqFromParts .list .listConcat (parts.flatMap SeqPart.listExpand)

/-- `Term::new_tuple_from_parts`, hugr-core/src/types/type_param.rs:568-574. -/
def newTupleFromParts (parts : List SeqPart) : Term :=
  newSeqFromParts .tuple .tupleConcat (parts.flatMap SeqPart.tupleExpand)

/-- `Substitution::apply_var`, hugr-core/src/types.rs:741-748, including the debug assertion. -/
def applyVar (σ : List Term) (idx : Nat) (decl : Term) : Option Term :=
  match σ[idx]? with
  | none => none
  | some arg => if checkTerm arg decl then some arg else none

/-- One element of the list substituted for a row variable, types.rs:757-769. -/
def rowElem : Term → Option RTy
  | .runtime t => some (.ty t)
  | .variable idx d =>
    match rowVarBound d with
    | some b => some (.rowVar idx b)
    | none => none
  | _ => none

def rowElems : List Term → Option (List RTy)
  | [] => some []
  | t :: ts =>
    match rowElem t with
    | none => none
    | some r =>
      match rowElems ts with
      | none => none
      | some rs => some (r :: rs)

/-- `Substitution::apply_rowvar`, hugr-core/src/types.rs:750-778.  The branch for
`Term::Runtime(ty)` with `ty` a row variable is dead code: `ty` has type `TypeBase<NoRV>`. -/
def applyRowVar (σ : List Term) (idx : Nat) (b : Bound) : Option (List RTy) :=
  match σ[idx]? with
  | none => none
  | some arg =>
    if checkTerm arg (.listType (.runtimeType b)) then
      match arg with
      | .list elems => rowElems elems
      | _ => none
    else none

/-- `is_type` inside `Term::substitute`, type_param.rs:409-415. -/
def Term.isTypeElem : Term → Bool
  | .runtime _ => true
  | .variable _ d => (rowVarBound d).isSome
  | _ => false

/-- `are_types`, type_param.rs:417. -/
def areTypes : List Term → Bool
  | [] => false
  | t :: _ => t.isTypeElem

/-- The part made from a substituted element, type_param.rs:419-423. -/
def listElemPart (types : Bool) : Term → SeqPart
  | .list es => if types then .splice (.list es) else .item (.list es)
  | .listConcat es => if types then .splice (.listConcat es) else .item (.listConcat es)
  | t => .item t

mutual
/-- `Term::substitute`, hugr-core/src/types/type_param.rs:393-451. -/
def Term.subst (env : Env) (σ : List Term) : Term → Option Term
  | .runtime t =>
    match t.subst env σ with
    | some t' => some (.runtime t')
    | none => none
  | .list elems =>
    match substTerms env σ elems with
    | some es => some (newListFromParts (es.map (listElemPart (areTypes elems))))
    | none => none
  | .listConcat lists =>
    match substTerms env σ lists with
    | some es => some (newListFromParts (es.map .splice))
    | none => none
  | .tuple elems =>
    match substTerms env σ elems with
    | some es => some (.tuple es)
    | none => none
  | .tupleConcat tuples =>
    match substTerms env σ tuples with
    | some es => some (newTupleFromParts (es.map .splice))
    | none => none
  | .variable idx d => applyVar σ idx d
  | .listType t =>
    match t.subst env σ with
    | some t' => some (.listType t')
    | none => none
  | .tupleType t =>
    match t.subst env σ with
    | some t' => some (.listType t') -- sic: type_param.rs:449 builds a list type
    | none => none
  | .constType t =>
    match t.subst env σ with
    | some t' => some (.constType t')
    | none => none
  | t => some t
def substTerms (env : Env) (σ : List Term) : List Term → Option (List Term)
  | [] => some []
  | t :: ts =>
    match t.subst env σ with
    | none => none
    | some t' =>
      match substTerms env σ ts with
      | none => none
      | some ts' => some (t' :: ts')
/-- `TypeBase<NoRV>::substitute` through `Type::substitute1`, hugr-core/src/types.rs:598-615,
668-672, with `CustomType::substitute`, types/custom.rs:109-128 (debug assertion included). -/
def Ty.subst (env : Env) (σ : List Term) : Ty → Option Ty
  | .ext e i args b =>
    match substTerms env σ args with
    | none => none
    | some args' =>
      match env e i with
      | none => none
      | some d =>
        match d.boundOf args' with
        | none => none
        | some b' => if b.contains b' then some (.ext e i args' b') else none
  | .alias n b => some (.alias n b)
  | .function i o =>
    match substRow env σ i with
    | none => none
    | some i' =>
      match substRow env σ o with
      | none => none
      | some o' => some (.function i' o')
  | .variable idx b =>
    match applyVar σ idx (.runtimeType b) with
    | some (.runtime t) => some t
    | _ => none
  | .sumUnit n => some (.sumUnit n)
  | .sumGen rows _ =>
    match substRows env σ rows with
    | some rows' => some (.newSum rows')
    | none => none
/-- `TypeBase<RowVariable>::substitute`, hugr-core/src/types.rs:598-615. -/
def RTy.subst (env : Env) (σ : List Term) : RTy → Option (List RTy)
  | .ty t =>
    match t.subst env σ with
    | some t' => some [.ty t']
    | none => none
  | .rowVar idx b => applyRowVar σ idx b
/-- `TypeRowBase::substitute`, hugr-core/src/types/type_row.rs:75-80. -/
def substRow (env : Env) (σ : List Term) : List RTy → Option (List RTy)
  | [] => some []
  | t :: ts =>
    match t.subst env σ with
    | none => none
    | some r =>
      match substRow env σ ts with
      | none => none
      | some rs => some (r ++ rs)
def substRows (env : Env) (σ : List Term) : List (List RTy) → Option (List (List RTy))
  | [] => some []
  | r :: rs =>
    match substRow env σ r with
    | none => none
    | some r' =>
      match substRows env σ rs with
      | none => none
      | some rs' => some (r' :: rs')
end

/-- `TypeRow::substitute` for rows without row variables, types/type_row.rs:75-80: every element
gives exactly one type. -/
def substTypes (env : Env) (σ : List Term) : List Ty → Option (List Ty)
  | [] => some []
  | t :: ts =>
    match t.subst env σ with
    | none => none
    | some t' =>
      match substTypes env σ ts with
      | none => none
      | some ts' => some (t' :: ts')

/-! ## Signatures and polymorphic functions -/

/-- `Signature` = `FuncTypeBase<NoRV>`, hugr-core/src/types/signature.rs:36-51. -/
structure Signature where
  input : List Ty
  output : List Ty
  deriving DecidableEq

/-- `FuncTypeBase::substitute`, hugr-core/src/types/signature.rs:60-65. -/
def Signature.subst (env : Env) (σ : List Term) (s : Signature) : Option Signature :=
  match substTypes env σ s.input with
  | none => none
  | some i =>
    match substTypes env σ s.output with
    | none => none
    | some o => some ⟨i, o⟩

/-- `FuncTypeBase::validate`, hugr-core/src/types/signature.rs:107-110. -/
def Signature.validate (env : Env) (decls : List Term) (s : Signature) : Bool :=
  s.input.all (Ty.validate env decls) && s.output.all (Ty.validate env decls)

/-- `PolyFuncType` = `PolyFuncTypeBase<NoRV>`, hugr-core/src/types/poly_func.rs:30-47. -/
structure PolyFunc where
  params : List Term
  body : Signature
  deriving DecidableEq

/-- Result of an operation that can fail with an error or panic. -/
inductive Outcome (α : Type)
  | ok (a : α)
  | error
  | panic
  deriving DecidableEq

/-- `PolyFuncTypeBase::instantiate`, hugr-core/src/types/poly_func.rs:117-122. -/
def PolyFunc.instantiate (env : Env) (p : PolyFunc) (args : List Term) : Outcome Signature :=
  if checkTerms args p.params then
    match p.body.subst env args with
    | some s => .ok s
    | none => .panic
  else .error

/-- `PolyFuncTypeBase::validate`, hugr-core/src/types/poly_func.rs:126-128. -/
def PolyFunc.validate (env : Env) (p : PolyFunc) : Bool := p.body.validate env p.params

end Verif.Types
