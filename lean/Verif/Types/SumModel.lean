import Verif.Types.Built
/-
Equality, hashing and views of sum types, whose compact (`Unit`) and general representations are
identified by the code.  Models `hugr-core/src/types.rs:180-330, 412-437`.
-/
namespace Verif.Types

/-! ## Views of a sum type -/

/-- `SumType::num_variants`, hugr-core/src/types.rs:267-272 (0 for types that are not sums). -/
def Ty.numVariants : Ty → Nat
  | .sumUnit n => n
  | .sumGen rows _ => rows.length
  | _ => 0

/-- `SumType::get_variant`, hugr-core/src/types.rs:256-262. -/
def Ty.getVariant : Ty → Nat → Option (List RTy)
  | .sumUnit n, tag => if tag < n then some [] else none
  | .sumGen rows _, tag => rows[tag]?
  | _, _ => none

/-- `SumType::variants`, hugr-core/src/types.rs:301-309. -/
def Ty.variants : Ty → List (List RTy)
  | .sumUnit n => List.replicate n []
  | .sumGen rows _ => rows
  | _ => []

/-- `SumType::as_tuple`, hugr-core/src/types.rs:276-282. -/
def Ty.asTuple : Ty → Option (List RTy)
  | .sumUnit n => if n = 1 then some [] else none
  | .sumGen rows _ => if rows.length = 1 then rows[0]? else none
  | _ => none

/-- `SumType::as_option`, hugr-core/src/types.rs:286-292. -/
def Ty.asOption : Ty → Option (List RTy)
  | .sumUnit n => if n = 2 then some [] else none
  | .sumGen rows _ => if rows.length = 2 ∧ rows[0]? = some [] then rows[1]? else none
  | _ => none

/-- `SumType::as_unary_option`, hugr-core/src/types.rs:295-298. -/
def Ty.asUnaryOption (t : Ty) : Option RTy :=
  match t.asOption with
  | some [x] => some x
  | _ => none

/-! ## Equality as implemented -/

mutual
/-- `PartialEq for Term` (derived, type_param.rs:61). -/
def Term.rustEq : Term → Term → Bool
  | .runtimeType b, .runtimeType b' => b == b'
  | .staticType, .staticType => true
  | .boundedNatType u, .boundedNatType u' => u == u'
  | .stringType, .stringType => true
  | .bytesType, .bytesType => true
  | .floatType, .floatType => true
  | .listType t, .listType t' => t.rustEq t'
  | .tupleType t, .tupleType t' => t.rustEq t'
  | .runtime t, .runtime t' => t.rustEq t'
  | .boundedNat n, .boundedNat n' => n == n'
  | .string s, .string s' => s == s'
  | .bytes s, .bytes s' => s == s'
  | .float s, .float s' => s == s'
  | .list ts, .list ts' => rustEqTerms ts ts'
  | .listConcat ts, .listConcat ts' => rustEqTerms ts ts'
  | .tuple ts, .tuple ts' => rustEqTerms ts ts'
  | .tupleConcat ts, .tupleConcat ts' => rustEqTerms ts ts'
  | .variable i d, .variable i' d' => i == i' && d.rustEq d'
  | .constType t, .constType t' => t.rustEq t'
  | _, _ => false
termination_by structural t => t
/-- `PartialEq for Vec<Term>`. -/
def rustEqTerms : List Term → List Term → Bool
  | [], [] => true
  | t :: ts, t' :: ts' => t.rustEq t' && rustEqTerms ts ts'
  | _, _ => false
termination_by structural t => t
/-- `PartialEq for TypeBase`/`TypeEnum`/`CustomType`/`SumType`, hugr-core/src/types.rs:195-199,
412-432, types/custom.rs:46-53: sums are compared by number of variants and rows, whatever the
representation. The cached bounds are compared too. -/
def Ty.rustEq : Ty → Ty → Bool
  | .ext e i a b, .ext e' i' a' b' => e == e' && i == i' && rustEqTerms a a' && b == b'
  | .alias n b, .alias n' b' => n == n' && b == b'
  | .function i o, .function i' o' => rustEqRow i i' && rustEqRow o o'
  | .variable i b, .variable i' b' => i == i' && b == b'
  | .sumUnit n, .sumUnit n' => n == n'
  | .sumUnit n, .sumGen r' b' => n == r'.length && r'.all List.isEmpty && b' == .copyable
  | .sumGen r b, .sumUnit n' => r.length == n' && r.all List.isEmpty && b == .copyable
  | .sumGen r b, .sumGen r' b' => rustEqRows r r' && b == b'
  | _, _ => false
termination_by structural t => t
def RTy.rustEq : RTy → RTy → Bool
  | .ty t, .ty t' => t.rustEq t'
  | .rowVar i b, .rowVar i' b' => i == i' && b == b'
  | _, _ => false
termination_by structural t => t
/-- `PartialEq for TypeRowBase`, types/type_row.rs:36-45. -/
def rustEqRow : List RTy → List RTy → Bool
  | [], [] => true
  | t :: ts, t' :: ts' => t.rustEq t' && rustEqRow ts ts'
  | _, _ => false
termination_by structural t => t
def rustEqRows : List (List RTy) → List (List RTy) → Bool
  | [], [] => true
  | t :: ts, t' :: ts' => rustEqRow t t' && rustEqRows ts ts'
  | _, _ => false
termination_by structural t => t
end

/-! ## Hashing as implemented: the sequence of values fed to the hasher -/

/-- A value written to the hasher: an enum discriminant, an integer (also lengths and bounds), or
a string. -/
inductive Tok
  | disc (n : Nat)
  | num (n : Nat)
  | str (s : String)
  deriving DecidableEq

def Bound.tok : Bound → Tok
  | .copyable => .disc 0
  | .linear => .disc 1

mutual
/-- `Hash for Term` (derived). -/
def Term.trace : Term → List Tok
  | .runtimeType b => [.disc 0, b.tok]
  | .staticType => [.disc 1]
  | .boundedNatType none => [.disc 2, .disc 0]
  | .boundedNatType (some n) => [.disc 2, .disc 1, .num n]
  | .stringType => [.disc 3]
  | .bytesType => [.disc 4]
  | .floatType => [.disc 5]
  | .listType t => .disc 6 :: t.trace
  | .tupleType t => .disc 7 :: t.trace
  | .runtime t => .disc 8 :: t.trace
  | .boundedNat n => [.disc 9, .num n]
  | .string s => [.disc 10, .str s]
  | .bytes s => .disc 11 :: .num s.length :: s.map .num
  | .float s => [.disc 12, .num s]
  | .list ts => .disc 13 :: .num ts.length :: traceTerms ts
  | .listConcat ts => .disc 14 :: .num ts.length :: traceTerms ts
  | .tuple ts => .disc 15 :: .num ts.length :: traceTerms ts
  | .tupleConcat ts => .disc 16 :: .num ts.length :: traceTerms ts
  | .variable i d => .disc 17 :: .num i :: d.trace
  | .constType t => .disc 18 :: t.trace
def traceTerms : List Term → List Tok
  | [] => []
  | t :: ts => t.trace ++ traceTerms ts
/-- `Hash for TypeBase` (derived: the enum, then the bound), `CustomType` (types/custom.rs:37-44)
and `SumType` (types.rs:189-193: every variant row, no discriminant). -/
def Ty.trace : Ty → List Tok
  | .ext e i a b =>
    .disc 0 :: .str e :: .str i :: .num a.length :: (traceTerms a ++ [b.tok, b.tok])
  | .alias n b => [.disc 1, .str n, b.tok, b.tok]
  | .function i o =>
    .disc 2 :: .num i.length :: (traceRow i ++ .num o.length :: (traceRow o ++ [.disc 0]))
  | .variable i b => [.disc 3, .num i, b.tok, b.tok]
  | .sumUnit n => .disc 5 :: (List.replicate n (Tok.num 0) ++ [.disc 0])
  | .sumGen r b => .disc 5 :: (traceRows r ++ [b.tok])
def RTy.trace : RTy → List Tok
  | .ty t => t.trace
  | .rowVar i b => [.disc 4, .num i, b.tok, b.tok]
def traceRow : List RTy → List Tok
  | [] => []
  | t :: ts => t.trace ++ traceRow ts
/-- Every row is hashed as a slice: length, then elements. -/
def traceRows : List (List RTy) → List Tok
  | [] => []
  | r :: rs => .num r.length :: (traceRow r ++ traceRows rs)
end

end Verif.Types
