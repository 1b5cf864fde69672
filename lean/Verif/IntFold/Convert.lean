import Verif.IntFold.Model
import Mathlib.Data.Rat.Init
/-!
# Constant folding of conversions

Model of `hugr-core/src/std_extensions/arithmetic/conversions/const_fold.rs`. A finite `f64` is the
rational number it denotes (the sign of zero is not kept); casts between `f64` and 64-bit integers
are as in the Rust reference: from floats they saturate, to floats they round to the nearest
representable number, ties to even.
-/
namespace Verif.IntFold

/-- A `f64`: finite, or an infinity or NaN. -/
inductive F64
  | finite (q : Rat)
  | nonFinite

/-- `f.trunc()` of a finite float: rounding towards zero. -/
def truncRat (q : Rat) : Int := q.num.tdiv q.den

/-- `x as u64` for a float with integral value `z`: saturating. -/
def satU64 (z : Int) : Nat := if z < 0 then 0 else if z < 2 ^ 64 then z.toNat else 2 ^ 64 - 1

/-- `x as i64` for a float with integral value `z`: saturating. -/
def satI64 (z : Int) : Int :=
  if z < -2 ^ 63 then -2 ^ 63 else if z < 2 ^ 63 then z else 2 ^ 63 - 1

/-- The natural number nearest to `n` with at most 53 significant bits, ties to even. -/
def roundNat (n : Nat) : Nat :=
  if n < 2 ^ 53 then n
  else
    let s := Nat.log2 n - 52
    let q := n / 2 ^ s
    let r := n % 2 ^ s
    let up := 2 ^ s < 2 * r ∨ (2 * r = 2 ^ s ∧ q % 2 = 1)
    (if up then q + 1 else q) * 2 ^ s

/-- `x as f64` for a 64-bit integer `z`. -/
def roundInt (z : Int) : Int := if z < 0 then -(roundNat z.natAbs : Int) else roundNat z.natAbs

/-- The constants that occur in the conversions: integers, booleans, `usize`, strings, floats, the
two variants of `sum_with_error(int<w>)`, and any constant of some other kind (for instance an
external symbol, which may have any type). -/
inductive CVal
  | int (c : ConstInt)
  | bool (b : Bool)
  | usize (n : Nat)
  | str (s : String)
  | float (f : F64)
  | err (logWidth : Nat)
  | okInt (c : ConstInt)
  | other

/-- The result of a folder. -/
abbrev CFold := Run (Option (List (Nat × CVal)))

/-- `Some(vec![(0.into(), v)])`. -/
def cOut (v : CVal) : CFold := .ok (some [(0, v)])

/-- `ConvertOpDef`, hugr-core/src/std_extensions/arithmetic/conversions.rs:30-43, without the two
bytecasts, which have no folder. -/
inductive ConvertOp
  | trunc_u | trunc_s | convert_u | convert_s
  | itobool | ifrombool | itostring_u | itostring_s | itousize | ifromusize
  deriving DecidableEq, Repr

/-- `get_single_input_value::<ConstInt>`, hugr-core/src/ops/constant/custom.rs:345-350. -/
def singleInt : List (Nat × CVal) → Option ConstInt
  | [(_, .int c)] => some c
  | _ => none

/-- `fold_trunc`, conversions/const_fold.rs:39-70. `convert` may fail (`none`). -/
def foldTrunc (args : List TArg) (cs : List (Nat × CVal))
    (convert : Int → Nat → Run (Option ConstInt)) : CFold :=
  match cs with
  | [(_, .float f)] =>
    match args with
    | [arg] =>
      match getLogWidth arg with
      | none => .ok none
      | some w =>
        match f with
        | .nonFinite => cOut (.err w)
        | .finite q =>
          (convert (truncRat q) w).andThen fun
            | none => cOut (.err w)
            | some c => cOut (.okInt c)
    | _ => .ok none
  | _ => .ok none

/-- The folders of `conversions/const_fold.rs`. -/
def ConvertOp.fold (m : Mode) (op : ConvertOp) (args : List TArg) (cs : List (Nat × CVal)) : CFold :=
  match op with
  -- `TruncU`, l.72-84
  | .trunc_u => foldTrunc args cs fun z w => newU m w (satU64 z)
  -- `TruncS`, l.86-98
  | .trunc_s => foldTrunc args cs fun z w => newS m w (satI64 z)
  -- `ConvertU`, l.100-112
  | .convert_u =>
    match singleInt cs with
    | none => .ok none
    | some c => cOut (.float (.finite (roundInt (valueU c))))
  -- `ConvertS`, l.114-126
  | .convert_s =>
    match singleInt cs with
    | none => .ok none
    | some c => (valueS m c).andThen fun z => cOut (.float (.finite (roundInt z)))
  -- `IToBool`, l.128-146
  | .itobool =>
    if args ≠ [] then .ok none
    else
      match singleInt cs with
      | none => .ok none
      | some c => if c.logWidth ≠ 0 then .ok none else cOut (.bool (valueU c == 1))
  -- `IFromBool`, l.148-169: any constant that is not equal to `true` counts as `false`
  | .ifrombool =>
    if args ≠ [] then .ok none
    else
      match cs with
      | [(_, b0)] =>
        let n := match b0 with
          | .bool true => 1
          | _ => 0
        (newU m 0 n).andThen fun
          | none => .panic
          | some c => cOut (.int c)
      | _ => .ok none
  -- `IToStringU`, l.171-193
  | .itostring_u =>
    match args with
    | [arg] =>
      match getLogWidth arg, singleInt cs with
      | some w, some c => if c.logWidth = w then cOut (.str (toString (valueU c))) else .ok none
      | _, _ => .ok none
    | _ => .ok none
  -- `IToStringS`, l.195-217
  | .itostring_s =>
    match args with
    | [arg] =>
      match getLogWidth arg, singleInt cs with
      | some w, some c =>
        if c.logWidth = w then (valueS m c).andThen fun z => cOut (.str (toString z)) else .ok none
      | _, _ => .ok none
    | _ => .ok none
  -- `IToUsize`, l.219-240
  | .itousize =>
    if args ≠ [] then .ok none
    else
      match singleInt cs with
      | none => .ok none
      | some c => if c.logWidth = 6 then cOut (.usize (valueU c)) else .ok none
  -- `IFromUsize`, l.242-259
  | .ifromusize =>
    if args ≠ [] then .ok none
    else
      match cs with
      | [(_, .usize n)] =>
        (newU m 6 n).andThen fun
          | none => .panic
          | some c => cOut (.int c)
      | _ => .ok none

end Verif.IntFold
