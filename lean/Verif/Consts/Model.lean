import Verif.Types.SumModel
/-!
# Constant values

Model of `hugr-core/src/ops/constant.rs`, `ops/constant/serialize.rs`, `types/check.rs` and of the
constant constructors of `extension/prelude.rs:322-447`.

What is abstract: extension constants other than `ConstUsize` and `ListValue` (a type `κ` together
with what the trait `CustomConst` lets the rest of the code ask about them), and the Hugrs inside
function constants (a type `φ` together with their monomorphic signature, if they have one).
-/
namespace Verif.Consts

open Verif.Types

/-- A Rust computation returning a `Result`: it panics, returns an error or a value. -/
inductive Out (ε α : Type)
  | panic
  | err (e : ε)
  | ok (a : α)
  deriving DecidableEq

/-! ## Sum types -/

/-- `SumType`, hugr-core/src/types.rs:172-187. The size of a compact sum is a `u8`. -/
inductive SumTy
  | unit (size : Nat)
  | general (rows : List (List RTy))

/-- `SumType::new`, hugr-core/src/types.rs:223-237. -/
def SumTy.new (rows : List (List RTy)) : SumTy :=
  if rows.length < 256 ∧ rows.all List.isEmpty then .unit rows.length else .general rows

/-- `SumType::new_tuple`, hugr-core/src/types.rs:245-248. -/
def SumTy.newTuple (row : List Ty) : SumTy := .new [row.map .ty]

/-- `SumType::new_option`, hugr-core/src/types.rs:250-253. -/
def SumTy.newOption (row : List Ty) : SumTy := .new [[], row.map .ty]

/-- `SumType::get_variant`, hugr-core/src/types.rs:255-263. -/
def SumTy.getVariant : SumTy → Nat → Option (List RTy)
  | .unit n, tag => if tag < n then some [] else none
  | .general rows, tag => rows[tag]?

/-- `SumType::num_variants`, hugr-core/src/types.rs:265-272. -/
def SumTy.numVariants : SumTy → Nat
  | .unit n => n
  | .general rows => rows.length

/-- `SumType::as_tuple`, hugr-core/src/types.rs:274-282. -/
def SumTy.asTuple : SumTy → Option (List RTy)
  | .unit n => if n = 1 then some [] else none
  | .general rows => if rows.length = 1 then rows[0]? else none

/-- `SumType::variants`, hugr-core/src/types.rs:300-309. -/
def SumTy.variants : SumTy → List (List RTy)
  | .unit n => List.replicate n []
  | .general rows => rows

/-- `PartialEq for SumType`, hugr-core/src/types.rs:195-199. -/
def SumTy.rustEq (a b : SumTy) : Bool :=
  a.numVariants == b.numVariants && rustEqRows a.variants b.variants

/-- `Hash for SumType`, hugr-core/src/types.rs:189-193: every row, no discriminant. -/
def SumTy.trace (a : SumTy) : List Tok := traceRows a.variants

/-- `From<SumType> for TypeBase`, hugr-core/src/types.rs:321-328 (`new_sum` normalises again). -/
def SumTy.toTy : SumTy → Ty
  | .unit n => .sumUnit n
  | .general rows => .newSum rows

/-! ## Values -/

/-- What the code can ask about extension constants (`trait CustomConst`,
hugr-core/src/ops/constant/custom.rs:36-104) and about the Hugr of a function constant
(`mono_fn_type`, ops/constant.rs:322-336, and `PartialEq for Hugr`). `hash` is what `try_hash`
feeds to the hasher, `none` when the constant is not hashable. -/
structure Lib (κ φ : Type) where
  typeOf : κ → Ty
  valid : κ → Bool
  eq : κ → κ → Bool
  hash : κ → Option (List Tok)
  sig : φ → Option (List Ty × List Ty)
  eqF : φ → φ → Bool

/-- `Value`, hugr-core/src/ops/constant.rs:153-178. `usize` and `list` are the `Value::Extension`s
holding a `ConstUsize` (extension/prelude.rs:449-480) and a `ListValue`
(std_extensions/collections/list.rs:45-47); `ext` is any other `Value::Extension`. -/
inductive Value (κ φ : Type)
  | ext (c : κ)
  | usize (n : Nat)
  | list (elem : Ty) (vs : List (Value κ φ))
  | func (f : φ)
  | sum (tag : Nat) (vs : List (Value κ φ)) (ty : SumTy)

/-- `usize_t`, hugr-core/src/extension/prelude.rs:164-172, 200-203. -/
def usizeTy : Ty := .ext "prelude" "usize" [] .copyable

/-- `list_type`, hugr-core/src/std_extensions/collections/list.rs:336-346; the bound of a list type
is that of its element type (`TypeDefBound::from_params(vec![0])`, list.rs:301). -/
def listTy (elem : Ty) : Ty := .ext "collections.list" "List" [.runtime elem] elem.bound

variable {κ φ : Type}

/-- `Value::get_type`, hugr-core/src/ops/constant.rs:340-350; `none` is the panic on a function
constant whose Hugr is not a monomorphic function. -/
def Value.getType (L : Lib κ φ) : Value κ φ → Option Ty
  | .ext c => some (L.typeOf c)
  | .usize _ => some usizeTy
  | .list elem _ => some (listTy elem)
  | .func f => (L.sig f).map fun s => .function (s.1.map .ty) (s.2.map .ty)
  | .sum _ _ ty => some ty.toTy

/-- `Value::get_type` on every element; `none` if one of them panics. -/
def getTypes (L : Lib κ φ) : List (Value κ φ) → Option (List Ty)
  | [] => some []
  | v :: vs =>
    match v.getType L with
    | none => none
    | some t =>
      match getTypes L vs with
      | none => none
      | some ts => some (t :: ts)

/-! ## Checking -/

/-- `SumTypeError`, hugr-core/src/types/check.rs:8-51 (without the offending types and values), and
the other errors of `ConstTypeError`, ops/constant.rs:295-318. -/
inductive CheckError
  | invalidValueType (tag index : Nat)
  | variantNotConcrete (tag var : Nat)
  | wrongVariantLength (tag expected found : Nat)
  | invalidTag (tag numVariants : Nat)
  | notMonomorphicFunction
  | custom
  deriving DecidableEq

/-- `TryFrom<TypeRowRV> for TypeRow`, hugr-core/src/types/type_row.rs:130-143: the error is the
first row variable. -/
def toTypeRow : List RTy → Except Nat (List Ty)
  | [] => .ok []
  | .rowVar i _ :: _ => .error i
  | .ty t :: r =>
    match toTypeRow r with
    | .error i => .error i
    | .ok ts => .ok (t :: ts)

/-- The loop over the elements in `SumType::check_type`, hugr-core/src/types/check.rs:84-94. -/
def checkItems (L : Lib κ φ) (tag : Nat) : Nat → List Ty → List (Value κ φ) → Out CheckError Unit
  | i, t :: ts, v :: vs =>
    match v.getType L with
    | none => .panic
    | some t' => if t'.rustEq t then checkItems L tag (i + 1) ts vs else .err (.invalidValueType tag i)
  | _, _, _ => .ok ()

/-- `SumType::check_type`, hugr-core/src/types/check.rs:63-97. -/
def SumTy.checkType (L : Lib κ φ) (ty : SumTy) (tag : Nat) (vs : List (Value κ φ)) :
    Out CheckError Unit :=
  match ty.getVariant tag with
  | none => .err (.invalidTag tag ty.numVariants)
  | some row =>
    match toTypeRow row with
    | .error i => .err (.variantNotConcrete tag i)
    | .ok ts =>
      if ts.length = vs.length then checkItems L tag 0 ts vs
      else .err (.wrongVariantLength tag ts.length vs.length)

/-- The loop over the elements in `ListValue::validate`,
hugr-core/src/std_extensions/collections/list.rs:119-124. -/
def checkElems (L : Lib κ φ) (elem : Ty) : List (Value κ φ) → Out CheckError Unit
  | [] => .ok ()
  | v :: vs =>
    match v.getType L with
    | none => .panic
    | some t => if t.rustEq elem then checkElems L elem vs else .err .custom

/-- `Value::validate`, hugr-core/src/ops/constant.rs:484-503. For a `ListValue` the check of the
list type itself (list.rs:106-111) is left out: it always succeeds on the type that
`ListValue::custom_type` has just instantiated. -/
def Value.validate (L : Lib κ φ) : Value κ φ → Out CheckError Unit
  | .ext c => if L.valid c then .ok () else .err .custom
  | .usize _ => .ok ()
  | .list elem vs => checkElems L elem vs
  | .func f =>
    match L.sig f with
    | none => .err .notMonomorphicFunction
    | some _ => .ok ()
  | .sum tag vs ty => ty.checkType L tag vs

/-! ## Constructors -/

/-- `Value::sum`, hugr-core/src/ops/constant.rs:355-367. -/
def Value.mkSum (L : Lib κ φ) (tag : Nat) (items : List (Value κ φ)) (ty : SumTy) :
    Out CheckError (Value κ φ) :=
  match ty.checkType L tag items with
  | .panic => .panic
  | .err e => .err e
  | .ok () => .ok (.sum tag items ty)

/-- `.unwrap()` or `.expect(..)` on a `Result`: an error is a panic (here: `none`). -/
def Out.unwrap {ε α : Type} : Out ε α → Option α
  | .ok a => some a
  | _ => none

/-- `Value::tuple`, hugr-core/src/ops/constant.rs:370-375; `none` is a panic. -/
def Value.mkTuple (L : Lib κ φ) (items : List (Value κ φ)) : Option (Value κ φ) :=
  match getTypes L items with
  | none => none
  | some tys => (Value.mkSum L 0 items (.newTuple tys)).unwrap

/-- `Value::function`, hugr-core/src/ops/constant.rs:382-388. -/
def Value.mkFunction (L : Lib κ φ) (f : φ) : Out CheckError (Value κ φ) :=
  match L.sig f with
  | none => .err .notMonomorphicFunction
  | some _ => .ok (.func f)

/-- `Value::unit`, hugr-core/src/ops/constant.rs:392-398. -/
def Value.mkUnit : Value κ φ := .sum 0 [] (.unit 1)

/-- `Value::unit_sum`, hugr-core/src/ops/constant.rs:401-403. -/
def Value.mkUnitSum (L : Lib κ φ) (tag size : Nat) : Out CheckError (Value κ φ) :=
  Value.mkSum L tag [] (.unit size)

/-- `Value::true_val`/`false_val`/`from_bool`, hugr-core/src/ops/constant.rs:412-421, 442-448;
`none` is the panic of `expect`. -/
def Value.mkBool (L : Lib κ φ) (b : Bool) : Option (Value κ φ) :=
  if b then (Value.mkUnitSum L 1 2).unwrap else (Value.mkUnitSum L 0 2).unwrap

/-- `Value::some`, hugr-core/src/ops/constant.rs:425-430; `none` is a panic. -/
def Value.mkSome (L : Lib κ φ) (values : List (Value κ φ)) : Option (Value κ φ) :=
  match getTypes L values with
  | none => none
  | some tys => (Value.mkSum L 1 values (.newOption tys)).unwrap

/-- `Value::none`, hugr-core/src/ops/constant.rs:434-436; `none` is a panic. -/
def Value.mkNone (L : Lib κ φ) (tys : List Ty) : Option (Value κ φ) :=
  (Value.mkSum L 0 [] (.newOption tys)).unwrap

/-- `const_left_tuple` (also `const_none`, `const_left`, `const_fail`, `const_fail_tuple`),
hugr-core/src/extension/prelude.rs:355-385, 435-447; `none` is a panic. -/
def constLeft (L : Lib κ φ) (values : List (Value κ φ)) (right : List RTy) : Option (Value κ φ) :=
  match getTypes L values with
  | none => none
  | some tys => (Value.mkSum L 0 values (.new [tys.map .ty, right])).unwrap

/-- `const_right_tuple` (also `const_some`, `const_some_tuple`, `const_right`, `const_ok`,
`const_ok_tuple`), hugr-core/src/extension/prelude.rs:339-350, 392-430; `none` is a panic. -/
def constRight (L : Lib κ φ) (left : List RTy) (values : List (Value κ φ)) : Option (Value κ φ) :=
  match getTypes L values with
  | none => none
  | some tys => (Value.mkSum L 1 values (.new [left, tys.map .ty])).unwrap

/-- `Value::as_tuple`, hugr-core/src/ops/constant.rs:507-513, `Sum::as_tuple`, 128-131. -/
def Value.asTuple : Value κ φ → Option (List (Value κ φ))
  | .sum _ vs ty => ty.asTuple.map fun _ => vs
  | _ => none

/-! ## Equality and hashing -/

mutual
/-- `PartialEq for Value` and `Sum` (derived, hugr-core/src/ops/constant.rs:112, 154), for
`OpaqueValue` (ops/constant.rs:271-275) and, through `downcast_equal_consts`
(ops/constant/custom.rs:107-117: different implementations are never equal), for `ConstUsize` and
`ListValue`. -/
def Value.rustEq (L : Lib κ φ) : Value κ φ → Value κ φ → Bool
  | .ext c, .ext c' => L.eq c c'
  | .usize n, .usize n' => n == n'
  | .list t vs, .list t' vs' => rustEqValues L vs vs' && t.rustEq t'
  | .func f, .func f' => L.eqF f f'
  | .sum tag vs ty, .sum tag' vs' ty' => tag == tag' && rustEqValues L vs vs' && ty.rustEq ty'
  | _, _ => false
termination_by structural v => v
/-- `PartialEq for Vec<Value>`. -/
def rustEqValues (L : Lib κ φ) : List (Value κ φ) → List (Value κ φ) → Bool
  | [], [] => true
  | v :: vs, v' :: vs' => v.rustEq L v' && rustEqValues L vs vs'
  | _, _ => false
termination_by structural vs => vs
end

mutual
/-- `Value::try_hash`, hugr-core/src/ops/constant.rs:518-525, `Sum::try_hash`, 133-139,
`ListValue::try_hash`, std_extensions/collections/list.rs:80-87, and the blanket `TryHash` for
`ConstUsize`, ops/constant/custom.rs:28-34. The state of the hasher is what was fed to it so far;
`finish` is `DefaultHasher::finish`. -/
def Value.tryHash (L : Lib κ φ) (finish : List Tok → Nat) :
    Value κ φ → List Tok → List Tok × Bool
  | .ext c, st =>
    match L.hash c with
    | none => (st, false)
    | some h => (st ++ h, true)
  | .usize n, st => (st ++ [.num n], true)
  | .list t vs, st =>
    match hashAll L finish vs [] with
    | (inner, true) => (st ++ [.num (finish inner)] ++ t.trace, true)
    | (_, false) => (st, false)
  | .func _, st => (st, false)
  | .sum tag vs ty, st =>
    match hashAll L finish vs [] with
    | (inner, true) => (st ++ [.num (finish inner)] ++ [.num tag] ++ ty.trace, true)
    | (_, false) => (st, false)
termination_by structural v => v
/-- The loop of `maybe_hash_values` over its own hasher, hugr-core/src/ops/constant.rs:142-150;
`all` stops at the first value that is not hashable. -/
def hashAll (L : Lib κ φ) (finish : List Tok → Nat) :
    List (Value κ φ) → List Tok → List Tok × Bool
  | [], st => (st, true)
  | v :: vs, st =>
    match v.tryHash L finish st with
    | (st', true) => hashAll L finish vs st'
    | (st', false) => (st', false)
termination_by structural vs => vs
end

/-! ## Reading and writing sums -/

/-- `SerialSum`, hugr-core/src/ops/constant/serialize.rs:12-24: the tag (0 when absent), the values
and the optional field `typ`, which holds any type. -/
structure SerialSum (κ φ : Type) where
  tag : Nat
  values : List (Value κ φ)
  typ : Option (SumTy ⊕ Ty)

/-- `From<Sum> for SerialSum`, hugr-core/src/ops/constant/serialize.rs:26-34. -/
def writeSum (tag : Nat) (vs : List (Value κ φ)) (ty : SumTy) : SerialSum κ φ :=
  ⟨tag, vs, some (.inl ty)⟩

/-- `TryFrom<SerialSum> for Sum`, hugr-core/src/ops/constant/serialize.rs:36-62. The error is the
message about the missing type. No check of the values against the type is made. -/
def readSum (L : Lib κ φ) (s : SerialSum κ φ) : Out Unit (Value κ φ) :=
  match s.typ with
  | some (.inl ty) => .ok (.sum s.tag s.values ty)
  | _ =>
    if s.tag ≠ 0 then .err ()
    else
      match getTypes L s.values with
      | none => .panic
      | some tys => .ok (.sum s.tag s.values (.newTuple tys))

end Verif.Consts
