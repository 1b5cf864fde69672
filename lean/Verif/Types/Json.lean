import Verif.Types.Model
import Verif.Types.Base64
/-
JSON form of types, terms and signatures.
Models `hugr-core/src/types/serialize.rs` and the `serde` derives of `TypeBound`, `SumType`,
`TypeBase` (types.rs), `Term`, `TermVar`, `UpperBound` (types/type_param.rs), `CustomType`
(types/custom.rs), `AliasDecl` (ops/module.rs), `TypeRowBase` (types/type_row.rs), `FuncTypeBase`
(types/signature.rs) and `PolyFuncTypeBase` (types/poly_func.rs).

A document is a tree.  The text of a document (quoting, digits, white space) is the business of
`serde_json` and is not modelled, with two exceptions: a float that is not finite is written as
`null`, and a text that nests arrays and objects 128 levels deep is refused (`readDoc`).
-/
namespace Verif.Types

/-- A JSON document, `serde_json::Value`.  Numbers written without fraction are `num`; numbers
written with a fraction or an exponent are `float`, given by the bit pattern of the `f64`. -/
inductive Json
  | null
  | bool (b : Bool)
  | num (n : Nat)
  | float (bits : Nat)
  | str (s : String)
  | arr (elems : List Json)
  | obj (members : List (String × Json))

mutual
/-- How deep arrays and objects are nested. -/
def Json.depth : Json → Nat
  | .arr es => depthElems es + 1
  | .obj ms => depthMembers ms + 1
  | _ => 0
def depthElems : List Json → Nat
  | [] => 0
  | j :: js => max j.depth (depthElems js)
def depthMembers : List (String × Json) → Nat
  | [] => 0
  | (_, j) :: js => max j.depth (depthMembers js)
end

/-! ## Writing -/

/-- A finite `f64`: the eleven bits of the exponent are not all one. -/
def finiteBits (bits : Nat) : Bool := decide (bits < 2 ^ 64 ∧ bits / 2 ^ 52 % 2 ^ 11 ≠ 2 ^ 11 - 1)

/-- `Serialize for TypeBound`, hugr-core/src/types.rs:124-139. -/
def Bound.toJson : Bound → Json
  | .copyable => .str "C"
  | .linear => .str "A"

/-- `Serialize for UpperBound`, hugr-core/src/types/type_param.rs:26-31: a newtype around
`Option<NonZeroU64>`. -/
def ubToJson : Option Nat → Json
  | none => .null
  | some n => .num n

/-- `serde_json` writes floats that are not finite as `null`. -/
def floatToJson (bits : Nat) : Json := if finiteBits bits then .float bits else .null

/-- `qb_t()`, hugr-core/src/extension/prelude.rs:175-188. -/
def qubitTy : Ty := .ext "prelude" "qubit" [] .linear
/-- `usize_t()`, hugr-core/src/extension/prelude.rs:165-173, 191-193. -/
def usizeTy : Ty := .ext "prelude" "usize" [] .copyable

mutual
/-- `Serialize for Term` through `TermSer`, hugr-core/src/types/type_param.rs:60-72,
types/serialize.rs:70-152.  Both sides of the untagged `TermSer` are internally tagged, by `tp` and
by `tya`. -/
def Term.toJson : Term → Json
  | .runtimeType b => .obj [("tp", .str "Type"), ("b", b.toJson)]
  | .staticType => .obj [("tp", .str "StaticType")]
  | .boundedNatType ub => .obj [("tp", .str "BoundedNat"), ("bound", ubToJson ub)]
  | .stringType => .obj [("tp", .str "String")]
  | .bytesType => .obj [("tp", .str "Bytes")]
  | .floatType => .obj [("tp", .str "Float")]
  | .listType t => .obj [("tp", .str "List"), ("param", t.toJson)]
  -- `ArrayOrTermSer`, types/serialize.rs:186-211: a list is written as a JSON array
  | .tupleType (.list ts) => .obj [("tp", .str "Tuple"), ("params", .arr (termsToJson ts))]
  | .tupleType t => .obj [("tp", .str "Tuple"), ("params", t.toJson)]
  | .constType t => .obj [("tp", .str "ConstType"), ("ty", t.toJson)]
  | .runtime t => .obj [("tya", .str "Type"), ("ty", t.toJson)]
  | .boundedNat n => .obj [("tya", .str "BoundedNat"), ("n", .num n)]
  | .string s => .obj [("tya", .str "String"), ("arg", .str s)]
  | .bytes bs => .obj [("tya", .str "Bytes"), ("value", .str (String.ofList (Base64.encode bs)))]
  | .float bits => .obj [("tya", .str "Float"), ("value", floatToJson bits)]
  | .list ts => .obj [("tya", .str "List"), ("elems", .arr (termsToJson ts))]
  | .listConcat ts => .obj [("tya", .str "ListConcat"), ("lists", .arr (termsToJson ts))]
  | .tuple ts => .obj [("tya", .str "Tuple"), ("elems", .arr (termsToJson ts))]
  | .tupleConcat ts => .obj [("tya", .str "TupleConcat"), ("tuples", .arr (termsToJson ts))]
  -- `TermVar` is flattened into the object, type_param.rs:265-271
  | .variable i d =>
    .obj [("tya", .str "Variable"), ("idx", .num i), ("cached_decl", d.toJson)]
/-- `Serialize for Vec<Term>`. -/
def termsToJson : List Term → List Json
  | [] => []
  | t :: ts => t.toJson :: termsToJson ts
/-- `Serialize for TypeBase<NoRV>` through `SerSimpleType`, hugr-core/src/types/serialize.rs:15-48:
the qubit and `usize` have short forms; the cached bound of a sum is not written; the weak reference
of a custom type is skipped (types/custom.rs:22-23). -/
def Ty.toJson : Ty → Json
  | .ext e i args b =>
    if e = "prelude" ∧ i = "qubit" ∧ args.isEmpty ∧ b = .linear then .obj [("t", .str "Q")]
    else if e = "prelude" ∧ i = "usize" ∧ args.isEmpty ∧ b = .copyable then .obj [("t", .str "I")]
    else .obj [("t", .str "Opaque"), ("extension", .str e), ("id", .str i),
      ("args", .arr (termsToJson args)), ("bound", b.toJson)]
  | .alias n b => .obj [("t", .str "Alias"), ("name", .str n), ("bound", b.toJson)]
  | .function i o =>
    .obj [("t", .str "G"), ("input", .arr (rowToJson i)), ("output", .arr (rowToJson o))]
  | .variable i b => .obj [("t", .str "V"), ("i", .num i), ("b", b.toJson)]
  -- `SumType` is internally tagged by `s`, types.rs:170-187
  | .sumUnit n => .obj [("t", .str "Sum"), ("s", .str "Unit"), ("size", .num n)]
  | .sumGen rows _ =>
    .obj [("t", .str "Sum"), ("s", .str "General"), ("rows", .arr (rowsToJson rows))]
/-- `Serialize for TypeBase<RowVariable>`, hugr-core/src/types/serialize.rs:28-48. -/
def RTy.toJson : RTy → Json
  | .ty t => t.toJson
  | .rowVar i b => .obj [("t", .str "R"), ("i", .num i), ("b", b.toJson)]
/-- `Serialize for TypeRowRV`, hugr-core/src/types/type_row.rs:20-26 (transparent). -/
def rowToJson : List RTy → List Json
  | [] => []
  | t :: ts => t.toJson :: rowToJson ts
/-- `Serialize for Vec<TypeRowRV>`. -/
def rowsToJson : List (List RTy) → List Json
  | [] => []
  | r :: rs => .arr (rowToJson r) :: rowsToJson rs
end

/-! ## Reading

Derived readers of structs and of internally tagged enums look up the members they know and ignore
the others; a member that occurs twice is an error.  Simplification: `serde` also reads a struct
from an array of its members in order; the modelled readers accept objects only.  Whole numbers are
not accepted as floats. -/

/-- The value of a member that occurs exactly once. -/
def field (k : String) (ms : List (String × Json)) : Option Json :=
  match ms.filter (fun p => p.1 == k) with
  | [(_, v)] => some v
  | _ => none

/-- The string value of a member. -/
def strField (k : String) (ms : List (String × Json)) : Option String :=
  match field k ms with
  | some (.str s) => some s
  | _ => none

/-- An unsigned number below `lim` (`u8`, `u64`, `usize`) as the value of a member. -/
def natField (lim : Nat) (k : String) (ms : List (String × Json)) : Option Nat :=
  match field k ms with
  | some (.num n) => if n < lim then some n else none
  | _ => none

/-- `Deserialize for TypeBound`, hugr-core/src/types.rs:124-139; `E` is a former name. -/
def boundField (k : String) (ms : List (String × Json)) : Option Bound :=
  match strField k ms with
  | some s => if s = "C" ∨ s = "E" then some .copyable else if s = "A" then some .linear else none
  | none => none

/-- `Deserialize for UpperBound`, hugr-core/src/types/type_param.rs:26-31: `NonZeroU64` refuses
zero. -/
def ubField (k : String) (ms : List (String × Json)) : Option (Option Nat) :=
  match field k ms with
  | some .null => some none
  | some (.num n) => if 0 < n ∧ n < 2 ^ 64 then some (some n) else none
  | _ => none

/-- `Deserialize for OrderedFloat<f64>`: `null` is not a float. -/
def floatField (k : String) (ms : List (String × Json)) : Option Nat :=
  match field k ms with
  | some (.float bits) => if finiteBits bits then some bits else none
  | _ => none

/-- `base64::deserialize`, hugr-core/src/types/serialize.rs:228-234. -/
def bytesField (k : String) (ms : List (String × Json)) : Option (List Nat) :=
  match strField k ms with
  | some s => Base64.decode s.toList
  | none => none

/-- Read every element. -/
def readAll {α : Type} (f : Json → Option α) : List Json → Option (List α)
  | [] => some []
  | j :: js =>
    match f j, readAll f js with
    | some x, some xs => some (x :: xs)
    | _, _ => none

/-- `Deserialize for Vec`. -/
def readVec {α : Type} (f : Json → Option α) : Json → Option (List α)
  | .arr js => readAll f js
  | _ => none

/-- Read the value of a member. -/
def readField {α : Type} (f : Json → Option α) (k : String) (ms : List (String × Json)) :
    Option α :=
  match field k ms with
  | some j => f j
  | none => none

/-- `TryFrom<SerSimpleType> for TypeBase<NoRV>`, hugr-core/src/types/serialize.rs:50-70: a row
variable is refused where a type is expected. -/
def RTy.asTy : Option RTy → Option Ty
  | some (.ty t) => some t
  | _ => none

/-- `TryFrom<SerSimpleType> for TypeBase<RV>`, hugr-core/src/types/serialize.rs:50-70, after the
derived reader of `SerSimpleType` (lines 15-26).  `term` and `elem` read the parts.  Sums go
through `new_sum` and `new_unit_sum` (types.rs:321-328). -/
def readSer (term : Json → Option Term) (elem : Json → Option RTy) (ms : List (String × Json)) :
    Option RTy :=
  match strField "t" ms with
  | none => none
  | some tag =>
    if tag = "Q" then some (.ty qubitTy)
    else if tag = "I" then some (.ty usizeTy)
    else if tag = "G" then
      match readField (readVec elem) "input" ms, readField (readVec elem) "output" ms with
      | some i, some o => some (.ty (.function i o))
      | _, _ => none
    else if tag = "Sum" then
      match strField "s" ms with
      | none => none
      | some s =>
        if s = "Unit" then (natField 256 "size" ms).map (fun n => .ty (.sumUnit n))
        else if s = "General" then
          (readField (readVec (readVec elem)) "rows" ms).map (fun rows => .ty (Ty.newSum rows))
        else none
    else if tag = "Opaque" then
      match strField "extension" ms, strField "id" ms, readField (readVec term) "args" ms,
        boundField "bound" ms with
      | some e, some i, some args, some b => some (.ty (.ext e i args b))
      | _, _, _, _ => none
    else if tag = "Alias" then
      match strField "name" ms, boundField "bound" ms with
      | some n, some b => some (.ty (.alias n b))
      | _, _ => none
    else if tag = "V" then
      match natField (2 ^ 64) "i" ms, boundField "b" ms with
      | some i, some b => some (.ty (.variable i b))
      | _, _ => none
    else if tag = "R" then
      match natField (2 ^ 64) "i" ms, boundField "b" ms with
      | some i, some b => some (.rowVar i b)
      | _, _ => none
    else none

/-- `Deserialize for TypeArgSer`, hugr-core/src/types/serialize.rs:87-123, then `From<TermSer> for
Term` (lines 158-184). -/
def readArg (term : Json → Option Term) (elem : Json → Option RTy) (ms : List (String × Json)) :
    Option Term :=
  match strField "tya" ms with
  | none => none
  | some tag =>
    if tag = "Type" then
      (readField (fun j => RTy.asTy (elem j)) "ty" ms).map .runtime
    else if tag = "BoundedNat" then (natField (2 ^ 64) "n" ms).map .boundedNat
    else if tag = "String" then (strField "arg" ms).map .string
    else if tag = "Bytes" then (bytesField "value" ms).map .bytes
    else if tag = "Float" then (floatField "value" ms).map .float
    else if tag = "List" then (readField (readVec term) "elems" ms).map .list
    else if tag = "ListConcat" then (readField (readVec term) "lists" ms).map .listConcat
    else if tag = "Tuple" then (readField (readVec term) "elems" ms).map .tuple
    else if tag = "TupleConcat" then (readField (readVec term) "tuples" ms).map .tupleConcat
    else if tag = "Variable" then
      match natField (2 ^ 64) "idx" ms, readField term "cached_decl" ms with
      | some i, some d => some (.variable i d)
      | _, _ => none
    else none

/-- `Deserialize for ArrayOrTermSer`, hugr-core/src/types/serialize.rs:186-202: an array is tried
first. -/
def readArrayOrTerm (term : Json → Option Term) (j : Json) : Option Term :=
  match readVec term j with
  | some ts => some (.list ts)
  | none => term j

/-- `Deserialize for TypeParamSer`, hugr-core/src/types/serialize.rs:71-84, then `From<TermSer> for
Term` (lines 158-184). -/
def readParam (term : Json → Option Term) (elem : Json → Option RTy) (ms : List (String × Json)) :
    Option Term :=
  match strField "tp" ms with
  | none => none
  | some tag =>
    if tag = "Type" then (boundField "b" ms).map .runtimeType
    else if tag = "BoundedNat" then (ubField "bound" ms).map .boundedNatType
    else if tag = "String" then some .stringType
    else if tag = "Bytes" then some .bytesType
    else if tag = "Float" then some .floatType
    else if tag = "StaticType" then some .staticType
    else if tag = "List" then (readField term "param" ms).map .listType
    else if tag = "Tuple" then (readField (readArrayOrTerm term) "params" ms).map .tupleType
    else if tag = "ConstType" then
      (readField (fun j => RTy.asTy (elem j)) "ty" ms).map .constType
    else none

mutual
/-- `Deserialize for Term`: the untagged `TermSer` tries the argument form, then the parameter
form, hugr-core/src/types/serialize.rs:125-130.  The first argument bounds the recursion; see
`Json.toTerm`. -/
def readTerm : Nat → Json → Option Term
  | n + 1, .obj ms =>
    match readArg (readTerm n) (readElem n) ms with
    | some t => some t
    | none => readParam (readTerm n) (readElem n) ms
  | _, _ => none
/-- `Deserialize for TypeBase<RowVariable>`, hugr-core/src/types.rs:376-381. -/
def readElem : Nat → Json → Option RTy
  | n + 1, .obj ms => readSer (readTerm n) (readElem n) ms
  | _, _ => none
end

/-- `serde_json::from_value::<Term>`: the depth of the document is enough recursion
(`readTerm_stable`). -/
def Json.toTerm (j : Json) : Option Term := readTerm j.depth j
/-- `serde_json::from_value::<TypeRV>`. -/
def Json.toElem (j : Json) : Option RTy := readElem j.depth j
/-- `serde_json::from_value::<Type>`. -/
def Json.toTy (j : Json) : Option Ty := RTy.asTy j.toElem

/-- Reading the text of a document: `serde_json` keeps `remaining_depth`, 128 at first, and refuses
the text when it drops to 0 on entering an array or object.  No caller disables the limit
(`serde_json::from_reader` in hugr-core/src/envelope/reader.rs:181). -/
def readDoc {α : Type} (read : Json → Option α) (j : Json) : Option α :=
  if j.depth < 128 then read j else none

/-! ## Signatures -/

/-- `Serialize for FuncTypeBase`, hugr-core/src/types/signature.rs:24-43, for function types with
row variables. -/
def sigToJson (i o : List RTy) : Json :=
  .obj [("input", .arr (rowToJson i)), ("output", .arr (rowToJson o))]

/-- `Deserialize for FuncTypeBase<RowVariable>`, hugr-core/src/types/signature.rs:24-43. -/
def readSig (n : Nat) : Json → Option (List RTy × List RTy)
  | .obj ms =>
    match readField (readVec (readElem n)) "input" ms,
      readField (readVec (readElem n)) "output" ms with
    | some i, some o => some (i, o)
    | _, _ => none
  | _ => none

/-- `Serialize for PolyFuncTypeBase`, hugr-core/src/types/poly_func.rs:26-40. -/
def polyToJson (params : List Term) (i o : List RTy) : Json :=
  .obj [("params", .arr (termsToJson params)), ("body", sigToJson i o)]

/-- `Deserialize for PolyFuncTypeRV`, hugr-core/src/types/poly_func.rs:26-40. -/
def readPoly (n : Nat) : Json → Option (List Term × List RTy × List RTy)
  | .obj ms =>
    match readField (readVec (readTerm n)) "params" ms, readField (readSig n) "body" ms with
    | some ps, some b => some (ps, b)
    | _, _ => none
  | _ => none

/-- `serde_json::from_value::<PolyFuncTypeRV>`. -/
def Json.toPoly (j : Json) : Option (List Term × List RTy × List RTy) := readPoly j.depth j

end Verif.Types
