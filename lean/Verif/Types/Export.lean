import Verif.Types.Model
import Verif.Ident.Model
/-
Types, terms and function types in the exchange format `hugr-model`.
Models `export_type`, `export_term`, `export_poly_func_type` and what they use in
hugr-core/src/export.rs, and `import_type`, `import_term`, `import_poly_func_type` and what they use
in hugr-core/src/import.rs.

Terms of the exchange format are trees; in the source they are entries of a table that refer to each
other by index.  A symbol is given by its name: `resolve_symbol` (export.rs:1178-1190) finds or makes
a node with the name, `get_symbol_name` (import.rs:505-512) returns the name of the node.
-/
namespace Verif.Types

mutual
/-- `table::Term`, hugr-model/src/v0/table/mod.rs:327-363.  Function constants have no parts here:
they are refused wherever a type or term is expected. -/
inductive MTerm
  | wildcard
  | var (idx : Nat)
  | apply (symbol : String) (args : List MTerm)
  | list (parts : List MPart)
  | tuple (parts : List MPart)
  | nat (n : Nat)
  | str (s : String)
  | bytes (bs : List Nat)
  | float (bits : Nat)
  | func
/-- `table::SeqPart`. -/
inductive MPart
  | item (t : MTerm)
  | splice (t : MTerm)
end

/-! ## Export -/

/-- `VarIndex` is a `u16` and the conversion with `as` keeps the low bits,
hugr-core/src/export.rs:861-862, 886-894, hugr-model/src/v0/table/mod.rs:319. -/
def varIndex (i : Nat) : Nat := i % 2 ^ 16

mutual
/-- `export_term`, hugr-core/src/export.rs:958-1029, without a variable to constrain. -/
def Term.toModel : Term → MTerm
  | .runtimeType _ => .apply "core.type" []
  | .boundedNatType _ => .apply "core.nat" []
  | .stringType => .apply "core.str" []
  | .bytesType => .apply "core.bytes" []
  | .floatType => .apply "core.float" []
  | .listType t => .apply "core.list" [t.toModel]
  | .tupleType t => .apply "core.tuple" [t.toModel]
  | .runtime t => t.toModel
  | .boundedNat n => .nat n
  | .string s => .str s
  | .float bits => .float bits
  | .bytes bs => .bytes bs
  | .list ts => .list (itemsToModel ts)
  | .listConcat ts => .list (splicesToModel ts)
  | .tuple ts => .tuple (itemsToModel ts)
  | .tupleConcat ts => .tuple (splicesToModel ts)
  | .variable i _ => .var (varIndex i)
  | .staticType => .apply "core.static" []
  | .constType t => .apply "core.const" [t.toModel]
/-- Items of a list or tuple, export.rs:993-1000, 1009-1016. -/
def itemsToModel : List Term → List MPart
  | [] => []
  | t :: ts => .item t.toModel :: itemsToModel ts
/-- Spliced lists or tuples, export.rs:1001-1008, 1017-1024. -/
def splicesToModel : List Term → List MPart
  | [] => []
  | t :: ts => .splice t.toModel :: splicesToModel ts
/-- Arguments of a custom type, export.rs:879-881. -/
def argsToModel : List Term → List MTerm
  | [] => []
  | t :: ts => t.toModel :: argsToModel ts
/-- `export_type_enum`, hugr-core/src/export.rs:853-868, with `export_func_type` (870-874),
`export_custom_type` (876-884), `export_sum_variants` (896-913) and `export_sum_type` (915-918).
The cached bounds are not written. -/
def Ty.toModel : Ty → MTerm
  | .ext e i args _ => .apply (e ++ "." ++ i) (argsToModel args)
  | .alias n _ => .apply n []
  | .function i o => .apply "core.fn" [.list (rowToModel i), .list (rowToModel o)]
  | .variable i _ => .var (varIndex i)
  | .sumUnit n => .apply "core.adt" [.list (List.replicate n (.item (.list [])))]
  | .sumGen rows _ => .apply "core.adt" [.list (rowsToModel rows)]
/-- `export_type_row_with_tail`, hugr-core/src/export.rs:925-951, without a tail: row variables are
spliced (`export_row_var`, 891-894). -/
def RTy.toModel : RTy → MPart
  | .ty t => .item t.toModel
  | .rowVar i _ => .splice (.var (varIndex i))
/-- See `RTy.toModel`. -/
def rowToModel : List RTy → List MPart
  | [] => []
  | t :: ts => t.toModel :: rowToModel ts
/-- Variants of a sum, export.rs:905-911. -/
def rowsToModel : List (List RTy) → List MPart
  | [] => []
  | r :: rs => .item (.list (rowToModel r)) :: rowsToModel rs
end

/-- `table::Symbol`, hugr-model/src/v0/table/mod.rs, without name and visibility. -/
structure MSymbol where
  params : List MTerm
  constraints : List MTerm
  signature : MTerm

/-- The constraints that `export_poly_func_type` collects: parameters that are copyable types,
hugr-core/src/export.rs:836-841, 964-970. -/
def constraintsFrom (i : Nat) : List Term → List MTerm
  | [] => []
  | .runtimeType .copyable :: ts =>
    .apply "core.nonlinear" [.var (varIndex i)] :: constraintsFrom (i + 1) ts
  | _ :: ts => constraintsFrom (i + 1) ts

/-- `export_poly_func_type`, hugr-core/src/export.rs:819-847. -/
def polyToModel (params : List Term) (i o : List RTy) : MSymbol where
  params := argsToModel params
  constraints := constraintsFrom 0 params
  signature := (Ty.function i o).toModel

/-! ## Import -/

/-- What importing depends on: the classes of characters of identifiers and the type definitions of
the registry (`self.extensions`). -/
structure ImportEnv where
  classes : Ident.Classes
  types : Env

/-- `import_custom_name`, hugr-core/src/import.rs:1839-1858; the cache does not matter. -/
def importName (C : Ident.Classes) (symbol : String) : Option (String × String) :=
  match Ident.IdentList.new C symbol.toList with
  | none => none
  | some n =>
    match Ident.IdentList.splitLast n with
    | some (e, i) => some (String.ofList e, String.ofList i)
    | none => none

/-- `match_symbol`, hugr-core/src/import.rs:2050-2079, matches an application with fewer arguments
than the constructor takes and makes up invalid ones, so that the import fails.  Also
`core.constraint` is recognised and refused (import.rs:1463-1465). -/
def termRefused (symbol : String) (args : Nat) : Bool :=
  (symbol == "core.constraint" && args == 0)
  || (["core.const", "core.list", "core.tuple", "core.adt"].contains symbol && args == 0)
  || (symbol == "core.fn" && decide (args < 2))

/-- See `termRefused`; `import_type` (import.rs:1560-1581) recognises only functions and sums. -/
def typeRefused (symbol : String) (args : Nat) : Bool :=
  (symbol == "core.adt" && args == 0) || (symbol == "core.fn" && decide (args < 2))

section
variable (E : ImportEnv) (boundOf : Nat → Option Bound) (declOf : Nat → Option Term)

mutual
/-- `import_term_with_bound`, hugr-core/src/import.rs:1437-1547.  `boundOf` gives the bound of a
local variable, `declOf` the imported type of a local variable. -/
def importTerm (b : Bound) : MTerm → Option Term
  | .wildcard => none
  | .var i => (declOf i).map (Term.newVarUse i)
  | .list parts => (importParts parts).map newListFromParts
  | .tuple parts => (importParts parts).map newTupleFromParts
  | .str s => some (.string s)
  | .nat n => some (.boundedNat n)
  | .bytes bs => some (.bytes bs)
  | .float bits => some (.float bits)
  | .func => none
  | .apply s [] =>
    if s = "core.str" then some .stringType
    else if s = "core.nat" then some (.boundedNatType none)
    else if s = "core.bytes" then some .bytesType
    else if s = "core.float" then some .floatType
    else if s = "core.type" then some (.runtimeType b)
    else if s = "core.static" then some .staticType
    else if termRefused s 0 then none
    else (importCustom s []).map .runtime
  | .apply s [t] =>
    if s = "core.const" then (importType t).map .constType
    else if s = "core.list" then (importTerm .linear t).map .listType
    else if s = "core.tuple" then (importTerm .linear t).map .tupleType
    else if s = "core.adt" then (importVariants t).map (fun rows => .runtime (Ty.newSum rows))
    else if termRefused s 1 then none
    else (importCustom s [t]).map .runtime
  | .apply s [t, u] =>
    if s = "core.fn" then
      match importRow t, importRow u with
      | some i, some o => some (.runtime (.function i o))
      | _, _ => none
    else (importCustom s [t, u]).map .runtime
  | .apply s (t :: u :: v :: args) => (importCustom s (t :: u :: v :: args)).map .runtime
/-- `import_seq_part`, hugr-core/src/import.rs:1549-1557. -/
def importParts : List MPart → Option (List SeqPart)
  | [] => some []
  | .item t :: ps =>
    match importTerm .linear t, importParts ps with
    | some x, some xs => some (.item x :: xs)
    | _, _ => none
  | .splice t :: ps =>
    match importTerm .linear t, importParts ps with
    | some x, some xs => some (.splice x :: xs)
    | _, _ => none
/-- Arguments of a custom type, hugr-core/src/import.rs:1589-1595. -/
def importArgs : List MTerm → Option (List Term)
  | [] => some []
  | t :: ts =>
    match importTerm .linear t, importArgs ts with
    | some x, some xs => some (x :: xs)
    | _, _ => none
/-- The case of custom types in `import_type`, hugr-core/src/import.rs:1586-1624: the bound is
computed from the definition of the type. -/
def importCustom (s : String) (args : List MTerm) : Option Ty :=
  match importArgs args, importName E.classes s with
  | some args, some (e, i) =>
    match E.types e i with
    | some d => (d.boundOf args).map (fun b => .ext e i args b)
    | none => none
  | _, _ => none
/-- `import_type`, hugr-core/src/import.rs:1560-1642. -/
def importType : MTerm → Option Ty
  | .var i => (boundOf i).map (fun b => .variable i b)
  | .apply s [t] =>
    if s = "core.adt" then (importVariants t).map Ty.newSum
    else if typeRefused s 1 then none
    else importCustom s [t]
  | .apply s [t, u] =>
    if s = "core.fn" then
      match importRow t, importRow u with
      | some i, some o => some (.function i o)
      | _, _ => none
    else importCustom s [t, u]
  | .apply s [] => if typeRefused s 0 then none else importCustom s []
  | .apply s (t :: u :: v :: args) => importCustom s (t :: u :: v :: args)
  | _ => none
/-- `import_closed_list` and `import_type_row` for each variant of a sum,
hugr-core/src/import.rs:1570-1581, 1696-1737. -/
def importVariants : MTerm → Option (List (List RTy))
  | .list parts => importVariantParts parts
  | _ => none
/-- See `importVariants`: spliced lists are flattened. -/
def importVariantParts : List MPart → Option (List (List RTy))
  | [] => some []
  | .item t :: ps =>
    match importRow t, importVariantParts ps with
    | some r, some rs => some (r :: rs)
    | _, _ => none
  | .splice t :: ps =>
    match importVariants t, importVariantParts ps with
    | some r, some rs => some (r ++ rs)
    | _, _ => none
/-- `import_type_row::<RowVariable>`, hugr-core/src/import.rs:1797-1837: a variable in the place of
a list becomes a row variable, without looking at its declaration. -/
def importRow : MTerm → Option (List RTy)
  | .list parts => importRowParts parts
  | .var i => some [.rowVar i .linear]
  | _ => none
/-- See `importRow`. -/
def importRowParts : List MPart → Option (List RTy)
  | [] => some []
  | .item t :: ps =>
    match importType t, importRowParts ps with
    | some r, some rs => some (.ty r :: rs)
    | _, _ => none
  | .splice t :: ps =>
    match importRow t, importRowParts ps with
    | some r, some rs => some (r ++ rs)
    | _, _ => none
end

end

/-- `LocalVar`, hugr-core/src/import.rs:2133-2150. -/
structure LocalVar where
  type : MTerm
  bound : Bound

/-- `local_vars`, hugr-core/src/import.rs:300, for the variables of one symbol: by index. -/
abbrev LocalVars := Nat → Option LocalVar

/-- `HashMap::insert` at an index. -/
def LocalVars.set (vars : LocalVars) (i : Nat) (v : LocalVar) : LocalVars :=
  fun j => if j = i then some v else vars j

/-- Enter the parameters of a symbol, hugr-core/src/import.rs:1388-1391. -/
def enterParams (vars : LocalVars) (i : Nat) : List MTerm → LocalVars
  | [] => vars
  | t :: ts => enterParams (vars.set (varIndex i) ⟨t, .linear⟩) (i + 1) ts

/-- Enter the constraints of a symbol, hugr-core/src/import.rs:1393-1416. -/
def enterConstraints (vars : LocalVars) : List MTerm → Option LocalVars
  | [] => some vars
  | .apply s [.var i] :: cs =>
    if s = "core.nonlinear" then
      match vars i with
      | some v => enterConstraints (vars.set i { v with bound := .copyable }) cs
      | none => none
    else none
  | _ => none

/-- The bound of a local variable. -/
def LocalVars.boundOf (vars : LocalVars) (i : Nat) : Option Bound := (vars i).map LocalVar.bound

/-- The imported type of a local variable, hugr-core/src/import.rs:1499-1506: it is imported again at
every use.  At most `n` uses are followed one inside the other; the code has no limit. -/
def LocalVars.declOf (E : ImportEnv) (vars : LocalVars) : Nat → Nat → Option Term
  | 0, _ => none
  | n + 1, i =>
    match vars i with
    | some v => importTerm E vars.boundOf (vars.declOf E n) v.bound v.type
    | none => none

/-- Import the types of the parameters, hugr-core/src/import.rs:1418-1424. -/
def importParams (E : ImportEnv) (vars : LocalVars) (n : Nat) (i : Nat) :
    List MTerm → Option (List Term)
  | [] => some []
  | t :: ts =>
    match vars (varIndex i) with
    | none => none
    | some v =>
      match importTerm E vars.boundOf (vars.declOf E n) v.bound t, importParams E vars n (i + 1) ts with
      | some x, some xs => some (x :: xs)
      | _, _ => none

/-- `import_func_type::<RowVariable>`, hugr-core/src/import.rs:1661-1683. -/
def importFunc (E : ImportEnv) (vars : LocalVars) (n : Nat) : MTerm → Option (List RTy × List RTy)
  | .apply s [t, u] =>
    if s = "core.fn" then
      match importRow E vars.boundOf (vars.declOf E n) t, importRow E vars.boundOf (vars.declOf E n) u with
      | some i, some o => some (i, o)
      | _, _ => none
    else none
  | _ => none

/-- `import_poly_func_type::<RowVariable>`, hugr-core/src/import.rs:1379-1430, following at most `n`
uses of variables one inside the other. -/
def importPoly (E : ImportEnv) (n : Nat) (s : MSymbol) : Option (List Term × List RTy × List RTy) :=
  match enterConstraints (enterParams (fun _ => none) 0 s.params) s.constraints with
  | none => none
  | some vars =>
    match importParams E vars n 0 s.params, importFunc E vars n s.signature with
    | some ps, some (i, o) => some (ps, i, o)
    | _, _ => none

end Verif.Types
