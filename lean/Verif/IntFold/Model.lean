/-!
# Integer constants and integer constant folding

Model of `hugr-core/src/std_extensions/arithmetic/int_types.rs` (`ConstInt`) and of every folder in
`hugr-core/src/std_extensions/arithmetic/int_ops/const_fold.rs`.

A Rust `u64` is a `Nat` (below `2^64`), an `i64` an `Int` (between `-2^63` and `2^63`). Every Rust
operation that can overflow is written through a helper below, which either panics or wraps
according to the build profile.
-/

namespace Verif.IntFold

/-- The two Rust build profiles: `debug` (overflow checks on, overflow panics) and `release`
(overflow wraps, shift amounts are taken modulo the bit width). The code does not choose; every
theorem is stated for both or names the one it needs. -/
inductive Mode
  | debug
  | release
  deriving DecidableEq, Repr

/-- A Rust computation: it panics or returns a value. -/
inductive Run (α : Type)
  | panic
  | ok (a : α)
  deriving DecidableEq, Repr

/-- Sequencing of Rust statements: a panic aborts everything. -/
def Run.andThen {α β : Type} : Run α → (α → Run β) → Run β
  | .panic, _ => .panic
  | .ok a, f => f a

/-- `x as i64` for a `u64` (Rust reference, numeric casts: same-size casts keep the bits). -/
def asI64 (n : Nat) : Int := if n < 2 ^ 63 then n else (n : Int) - 2 ^ 64

/-- `x as u64` for an `i64` (same-size casts keep the bits). -/
def asU64 (z : Int) : Nat := (z % 2 ^ 64).toNat

/-- The result of an `i64` arithmetic operation whose exact value is `z`. -/
def i64 (m : Mode) (z : Int) : Run Int :=
  if -2 ^ 63 ≤ z ∧ z < 2 ^ 63 then .ok z
  else match m with
    | .debug => .panic
    | .release => .ok (asI64 (asU64 z))

/-- The amount by which a 64-bit value is really shifted by `<< k` and `>> k`. -/
def shiftAmount (m : Mode) (k : Nat) : Run Nat :=
  if k < 64 then .ok k
  else match m with
    | .debug => .panic
    | .release => .ok (k % 64)

/-- `x << k` on `u64`. -/
def shlU64 (m : Mode) (x k : Nat) : Run Nat :=
  (shiftAmount m k).andThen fun k => .ok (x <<< k % 2 ^ 64)

/-- `x >> k` on `u64`. -/
def shrU64 (m : Mode) (x k : Nat) : Run Nat :=
  (shiftAmount m k).andThen fun k => .ok (x >>> k)

/-- `1i64 << k`. -/
def oneShlI64 (m : Mode) (k : Nat) : Run Int :=
  (shlU64 m 1 k).andThen fun x => .ok (asI64 x)

/-- `1u8 << k`. -/
def oneShlU8 (m : Mode) (k : Nat) : Run Nat :=
  if k < 8 then .ok (2 ^ k)
  else match m with
    | .debug => .panic
    | .release => .ok (2 ^ (k % 8))

/-- `!x` on `u64`. -/
def notU64 (x : Nat) : Nat := 2 ^ 64 - 1 - x

/-- `x.overflowing_add(y).0` on `u64`. -/
def wrapAdd (x y : Nat) : Nat := (x + y) % 2 ^ 64
/-- `x.overflowing_sub(y).0` on `u64`. -/
def wrapSub (x y : Nat) : Nat := (x + (2 ^ 64 - y)) % 2 ^ 64
/-- `x.overflowing_neg().0` on `u64`. -/
def wrapNeg (x : Nat) : Nat := (2 ^ 64 - x) % 2 ^ 64
/-- `x.overflowing_mul(y).0` on `u64`. -/
def wrapMul (x y : Nat) : Nat := (x * y) % 2 ^ 64
/-- `x.overflowing_pow(e).0` on `u64` (the standard library's square-and-multiply loop is not
modelled, only its documented result). -/
def wrapPow (x e : Nat) : Nat := x ^ e % 2 ^ 64

/-- `n.try_into().unwrap_or(u32::MAX)` from `u64` to `u32` (const_fold.rs:562). -/
def clampU32 (n : Nat) : Nat := if n < 2 ^ 32 then n else 2 ^ 32 - 1

/-! ## `ConstInt` -/

/-- `is_valid_log_width` (int_types.rs:59-61, `LOG_WIDTH_BOUND` is 7, l.64-67). -/
def isValidLogWidth (n : Nat) : Bool := n < 7

/-- `ConstInt` (int_types.rs:93-101); `logWidth` is a `u8`, `value` a `u64`. -/
structure ConstInt where
  logWidth : Nat
  value : Nat
  deriving DecidableEq, Repr

/-- `ConstInt::new_u` (int_types.rs:108-123). `none` is the `Err` result (which of the two messages
is not kept). -/
def newU (m : Mode) (logWidth value : Nat) : Run (Option ConstInt) :=
  if ¬ isValidLogWidth logWidth then .ok none
  else if logWidth ≤ 5 then
    (oneShlU8 m logWidth).andThen fun width =>
    (shlU64 m 1 width).andThen fun bound =>
    if value ≥ bound then .ok none else .ok (some ⟨logWidth, value⟩)
  else .ok (some ⟨logWidth, value⟩)

/-- `ConstInt::new_s` (int_types.rs:126-150). The two copies of `1i64 << (width - 1)` are evaluated
once. -/
def newS (m : Mode) (logWidth : Nat) (value : Int) : Run (Option ConstInt) :=
  if ¬ isValidLogWidth logWidth then .ok none
  else
    (oneShlU8 m logWidth).andThen fun width =>
    let store : Run (Option ConstInt) :=
      if value ≥ 0 ∨ logWidth = 6 then .ok (some ⟨logWidth, asU64 value⟩)
      else
        (oneShlI64 m width).andThen fun p =>
        (i64 m (value + p)).andThen fun v => .ok (some ⟨logWidth, asU64 v⟩)
    if logWidth ≤ 5 then
      (oneShlI64 m (width - 1)).andThen fun h =>
      if value ≥ h then .ok none
      else (i64 m (-h)).andThen fun l => if value < l then .ok none else store
    else store

/-- `ConstInt::value_u` (int_types.rs:159-162). -/
def valueU (c : ConstInt) : Nat := c.value

/-- `ConstInt::value_s` (int_types.rs:165-177). -/
def valueS (m : Mode) (c : ConstInt) : Run Int :=
  if c.logWidth = 6 then .ok (asI64 c.value)
  else
    (oneShlU8 m c.logWidth).andThen fun width =>
    (shlU64 m c.value 1).andThen fun dbl =>
    (shrU64 m dbl width).andThen fun top =>
    if top = 0 then .ok (asI64 c.value)
    else (oneShlI64 m width).andThen fun p => i64 m (asI64 c.value - p)

/-! ## Values and types that occur in folding -/

/-- The types that occur in the declared signatures of integer operations (int_ops.rs:113-161):
`int<w>`, `bool`, a tuple, and `sum_with_error(t)` (prelude.rs:316-318). -/
inductive ITy
  | int (logWidth : Nat)
  | bool
  | tuple (ts : List ITy)
  | sumErr (t : ITy)

/-- The constants that occur in folding. `err t` is the first variant of `sum_with_error(t)` holding
a `ConstError`, `okSum t v` its second variant holding `v`; `other` stands for any other constant.
The message inside an error is not kept. -/
inductive IVal
  | int (c : ConstInt)
  | bool (b : Bool)
  | tuple (vs : List IVal)
  | err (t : ITy)
  | okSum (t : ITy) (v : IVal)
  | other

/-- The type reported by a constant: `ConstInt::get_type` (int_types.rs:189-191),
`Value::from_bool`/`Value::tuple`/`Value::sum` carry the types they are built with
(ops/constant.rs, `Value::get_type`). -/
def IVal.ty : IVal → Option ITy
  | .int c => some (.int c.logWidth)
  | .bool _ => some .bool
  | .tuple vs => (tys vs).map .tuple
  | .err t => some (.sumErr t)
  | .okSum t _ => some (.sumErr t)
  | .other => none
where
  /-- Types of a row of constants. -/
  tys : List IVal → Option (List ITy)
    | [] => some []
    | v :: vs => match v.ty, tys vs with
      | some t, some ts => some (t :: ts)
      | _, _ => none

/-- A type argument: a bounded natural (`u64`) or anything else. -/
inductive TArg
  | nat (n : Nat)
  | other
  deriving DecidableEq, Repr

/-- `get_log_width` (int_types.rs:78-86), with its cast `*n as u8`. -/
def getLogWidth : TArg → Option Nat
  | .nat n => if isValidLogWidth (n % 256) then some (n % 256) else none
  | .other => none

/-- The integer operations (`IntOpDef`, int_ops.rs:52-101). -/
inductive IntOp
  | iwiden_u | iwiden_s | inarrow_u | inarrow_s
  | ieq | ine | ilt_u | ilt_s | igt_u | igt_s | ile_u | ile_s | ige_u | ige_s
  | imax_u | imax_s | imin_u | imin_s
  | iadd | isub | ineg | imul
  | idivmod_checked_u | idivmod_u | idivmod_checked_s | idivmod_s
  | idiv_checked_u | idiv_u | imod_checked_u | imod_u
  | idiv_checked_s | idiv_s | imod_checked_s | imod_s
  | ipow | iabs | iand | ior | ixor | inot | ishl | ishr | irotl | irotr | iu_to_s | is_to_u
  deriving DecidableEq, Repr

/-- Declared output types of an operation applied to log-width arguments (int_ops.rs:113-161):
`w0`, `w1` are the values of the type variables 0 and 1. -/
def declaredOutputs (w0 w1 : Nat) : IntOp → List ITy
  | .iwiden_u | .iwiden_s => [.int w1]
  | .inarrow_u | .inarrow_s => [.sumErr (.int w1)]
  | .ieq | .ine | .ilt_u | .ilt_s | .igt_u | .igt_s | .ile_u | .ile_s | .ige_u | .ige_s => [.bool]
  | .idivmod_checked_u | .idivmod_checked_s => [.sumErr (.tuple [.int w0, .int w0])]
  | .idivmod_u | .idivmod_s => [.int w0, .int w0]
  | .idiv_checked_u | .idiv_checked_s | .imod_checked_u | .imod_checked_s => [.sumErr (.int w0)]
  | _ => [.int w0]

/-- The inputs of a folder: pairs of an incoming port and a constant. -/
abbrev Consts := List (Nat × IVal)

/-- `ConstFoldResult`: `None`, or the constants for some output ports. -/
abbrev FoldResult := Run (Option (List (Nat × IVal)))

/-- `get_single_input_value::<ConstInt>` (ops/constant/custom.rs:345-350). -/
def getSingle : Consts → Option ConstInt
  | [(_, .int c)] => some c
  | _ => none

/-- `get_pair_of_input_values::<ConstInt>` (ops/constant/custom.rs:354-361). -/
def getPair : Consts → Option (ConstInt × ConstInt)
  | [(_, .int c0), (_, .int c1)] => some (c0, c1)
  | _ => none

/-- `bitmask_from_width` (const_fold.rs:30-37). The `debug_assert!` holds at every call and is left
out. -/
def bitmaskFromWidth (m : Mode) (width : Nat) : Run Nat :=
  if width = 64 then .ok (2 ^ 64 - 1)
  else (shlU64 m 1 width).andThen fun x => .ok (x - 1)

/-- `bitmask_from_logwidth` (const_fold.rs:39-41). -/
def bitmaskFromLogwidth (m : Mode) (logWidth : Nat) : Run Nat :=
  (shlU64 m 1 logWidth).andThen (bitmaskFromWidth m)

/-- `divmod_s` (const_fold.rs:44-71). Truncated `/` and `%` on `i64` are `Int.tdiv` and `Int.tmod`.
The divisor is not zero at any call. -/
def divmodS (m : Mode) (n : Int) (d : Nat) : Run (Int × Nat) :=
  if n ≥ 0 then .ok (asI64 (asU64 n / d), asU64 n % d)
  else if n ≠ -2 ^ 63 then
    (i64 m (-n)).andThen fun nn =>
    let q := asI64 (asU64 nn / d)
    let r := asU64 nn % d
    if r = 0 then (i64 m (-q)).andThen fun q' => .ok (q', 0)
    else (i64 m (-q)).andThen fun q' => (i64 m (q' - 1)).andThen fun q'' => .ok (q'', d - r)
  else if d = 1 then .ok (n, 0)
  else if d < 2 ^ 63 then
    let ds := asI64 d
    let q := n.tdiv ds
    let r := n.tmod ds
    if r = 0 then .ok (q, 0)
    else
      (i64 m (q - 1)).andThen fun q' =>
      (i64 m (ds - r)).andThen fun r' => .ok (q', asU64 r')
  else .ok (-1, d - 2 ^ 63)

/-- `result.unwrap()` on a `Result<ConstInt, _>` and conversion to a value. -/
def unwrapInt (r : Run (Option ConstInt)) : Run IVal :=
  r.andThen fun
    | none => .panic
    | some c => .ok (.int c)

/-- `Some(vec![(0.into(), v)])`. -/
def out1 (v : Run IVal) : FoldResult := v.andThen fun v => .ok (some [(0, v)])

/-- `Some(vec![(0.into(), v0), (1.into(), v1)])`. -/
def out2 (v0 v1 : Run IVal) : FoldResult :=
  v0.andThen fun v0 => v1.andThen fun v1 => .ok (some [(0, v0), (1, v1)])

/-- The prologue shared by the one-input folders with one type argument (for instance
const_fold.rs:497-503). -/
def withOne (args : List TArg) (cs : Consts) (k : Nat → ConstInt → FoldResult) : FoldResult :=
  match args with
  | [arg] =>
    match getLogWidth arg with
    | none => .ok none
    | some w =>
      match getSingle cs with
      | none => .ok none
      | some n0 => k w n0
  | _ => .ok none

/-- The prologue of the two-input folders (for instance const_fold.rs:171-176). -/
def withPair (args : List TArg) (cs : Consts) (k : Nat → ConstInt → ConstInt → FoldResult) :
    FoldResult :=
  match args with
  | [arg] =>
    match getLogWidth arg with
    | none => .ok none
    | some w =>
      match getPair cs with
      | none => .ok none
      | some (n0, n1) => k w n0 n1
  | _ => .ok none

/-- The prologue of the width-changing folders (for instance const_fold.rs:79-84). -/
def withWiden (args : List TArg) (cs : Consts) (k : Nat → Nat → ConstInt → FoldResult) :
    FoldResult :=
  match args with
  | [arg0, arg1] =>
    match getLogWidth arg0, getLogWidth arg1 with
    | some w0, some w1 =>
      match getSingle cs with
      | none => .ok none
      | some n0 => k w0 w1 n0
    | _, _ => .ok none
  | _ => .ok none

/-- `if n0.log_width() != logwidth || n1.log_width() != logwidth { None } else { .. }` (for instance
const_fold.rs:177-179). -/
def sameWidth (w : Nat) (n0 n1 : ConstInt) (k : FoldResult) : FoldResult :=
  if n0.logWidth ≠ w ∨ n1.logWidth ≠ w then .ok none else k

/-- A folder comparing unsigned values (const_fold.rs:168-340, the `_u` ones and `ieq`, `ine`). -/
def cmpU (args : List TArg) (cs : Consts) (p : Nat → Nat → Bool) : FoldResult :=
  withPair args cs fun w n0 n1 => sameWidth w n0 n1 <|
    out1 (.ok (.bool (p (valueU n0) (valueU n1))))

/-- A folder comparing signed values (const_fold.rs:225-357, the `_s` ones). -/
def cmpS (m : Mode) (args : List TArg) (cs : Consts) (p : Int → Int → Bool) : FoldResult :=
  withPair args cs fun w n0 n1 => sameWidth w n0 n1 <|
    (valueS m n0).andThen fun a => (valueS m n1).andThen fun b => out1 (.ok (.bool (p a b)))

/-- A folder building its result with `ConstInt::new_u(logwidth, f(n0, n1)).unwrap()`. -/
def binU (m : Mode) (args : List TArg) (cs : Consts) (f : Nat → Nat → Nat → Run Nat) : FoldResult :=
  withPair args cs fun w n0 n1 => sameWidth w n0 n1 <|
    (f w (valueU n0) (valueU n1)).andThen fun v => out1 (unwrapInt (newU m w v))

/-- A folder building its result with `ConstInt::new_s(logwidth, f(n0, n1)).unwrap()`. -/
def binS (m : Mode) (args : List TArg) (cs : Consts) (f : Int → Int → Int) : FoldResult :=
  withPair args cs fun w n0 n1 => sameWidth w n0 n1 <|
    (valueS m n0).andThen fun a => (valueS m n1).andThen fun b =>
    out1 (unwrapInt (newS m w (f a b)))

/-- A folder of one input building its result with `ConstInt::new_u(logwidth, f(n0)).unwrap()`. -/
def unU (m : Mode) (args : List TArg) (cs : Consts) (f : Nat → Nat → Run Nat) : FoldResult :=
  withOne args cs fun w n0 =>
    if n0.logWidth = w then
      (f w (valueU n0)).andThen fun v => out1 (unwrapInt (newU m w v))
    else .ok none

/-- `x & bitmask_from_logwidth(w)`. -/
def masked (m : Mode) (w x : Nat) : Run Nat :=
  (bitmaskFromLogwidth m w).andThen fun b => .ok (x &&& b)

/-- `mk_out_const(1, ..)` of the narrowing folders (const_fold.rs:124-127): the constant is put in
the second variant of the sum; `panic!` if it could not be built. -/
def mkOk (t : ITy) (r : Run (Option ConstInt)) : Run IVal :=
  r.andThen fun
    | none => .panic
    | some c => .ok (.okSum t (.int c))

/-- The folder installed for each operation (const_fold.rs:73-1174). -/
def fold (m : Mode) (op : IntOp) (args : List TArg) (cs : Consts) : FoldResult :=
  match op with
  -- const_fold.rs:76-93
  | .iwiden_u => withWiden args cs fun w0 w1 n0 =>
      if w0 > w1 ∨ n0.logWidth ≠ w0 then .ok none
      else (newU m w1 (valueU n0)).andThen fun
        | none => .ok none
        | some c => out1 (.ok (.int c))
  -- const_fold.rs:94-111
  | .iwiden_s => withWiden args cs fun w0 w1 n0 =>
      if w0 > w1 ∨ n0.logWidth ≠ w0 then .ok none
      else (valueS m n0).andThen fun v => (newS m w1 v).andThen fun
        | none => .ok none
        | some c => out1 (.ok (.int c))
  -- const_fold.rs:112-139
  | .inarrow_u => withWiden args cs fun w0 w1 n0 =>
      if w0 ≥ w1 ∧ n0.logWidth = w0 then
        (shrU64 m (valueU n0) (2 ^ w1)).andThen fun top =>
        if top ≠ 0 then out1 (.ok (.err (.int w1)))
        else out1 (mkOk (.int w1) (newU m w1 (valueU n0)))
      else .ok none
  -- const_fold.rs:140-167; `||` does not evaluate `-ub` if `n0val >= ub`
  | .inarrow_s => withWiden args cs fun w0 w1 n0 =>
      if w0 ≥ w1 ∧ n0.logWidth = w0 then
        (valueS m n0).andThen fun v =>
        (oneShlI64 m (2 ^ w1 - 1)).andThen fun ub =>
        if v ≥ ub then out1 (.ok (.err (.int w1)))
        else (i64 m (-ub)).andThen fun lb =>
          if v < lb then out1 (.ok (.err (.int w1)))
          else out1 (mkOk (.int w1) (newS m w1 v))
      else .ok none
  -- const_fold.rs:168-357
  | .ieq => cmpU args cs fun a b => a == b
  | .ine => cmpU args cs fun a b => a != b
  | .ilt_u => cmpU args cs fun a b => decide (a < b)
  | .ilt_s => cmpS m args cs fun a b => decide (a < b)
  | .igt_u => cmpU args cs fun a b => decide (a > b)
  | .igt_s => cmpS m args cs fun a b => decide (a > b)
  | .ile_u => cmpU args cs fun a b => decide (a ≤ b)
  | .ile_s => cmpS m args cs fun a b => decide (a ≤ b)
  | .ige_u => cmpU args cs fun a b => decide (a ≥ b)
  | .ige_s => cmpS m args cs fun a b => decide (a ≥ b)
  -- const_fold.rs:358-441
  | .imax_u => binU m args cs fun _ a b => .ok (max a b)
  | .imax_s => binS m args cs max
  | .imin_u => binU m args cs fun _ a b => .ok (min a b)
  | .imin_s => binS m args cs min
  -- const_fold.rs:442-575
  | .iadd => binU m args cs fun w a b => masked m w (wrapAdd a b)
  | .isub => binU m args cs fun w a b => masked m w (wrapSub a b)
  | .ineg => unU m args cs fun w a => masked m w (wrapNeg a)
  | .imul => binU m args cs fun w a b => masked m w (wrapMul a b)
  | .ipow => binU m args cs fun w a b => masked m w (wrapPow a (clampU32 b))
  -- const_fold.rs:576-613
  | .idivmod_checked_u => withPair args cs fun w n d => sameWidth w n d <|
      if valueU d = 0 then out1 (.ok (.err (.tuple [.int w, .int w])))
      else
        (unwrapInt (newU m w (valueU n / valueU d))).andThen fun q =>
        (unwrapInt (newU m w (valueU n % valueU d))).andThen fun r => out1 (.ok (.tuple [q, r]))
  -- const_fold.rs:614-635
  | .idivmod_u => withPair args cs fun w n d =>
      if n.logWidth ≠ w ∨ d.logWidth ≠ w ∨ valueU d = 0 then .ok none
      else out2 (unwrapInt (newU m w (valueU n / valueU d)))
        (unwrapInt (newU m w (valueU n % valueU d)))
  -- const_fold.rs:636-673
  | .idivmod_checked_s => withPair args cs fun w n d => sameWidth w n d <|
      (valueS m n).andThen fun nv =>
      if valueU d = 0 then out1 (.ok (.err (.tuple [.int w, .int w])))
      else
        (divmodS m nv (valueU d)).andThen fun qr =>
        (unwrapInt (newS m w qr.1)).andThen fun q =>
        (unwrapInt (newU m w qr.2)).andThen fun r => out1 (.ok (.tuple [q, r]))
  -- const_fold.rs:674-695
  | .idivmod_s => withPair args cs fun w n d =>
      (valueS m n).andThen fun nv =>
      if n.logWidth ≠ w ∨ d.logWidth ≠ w ∨ valueU d = 0 then .ok none
      else (divmodS m nv (valueU d)).andThen fun qr =>
        out2 (unwrapInt (newS m w qr.1)) (unwrapInt (newU m w qr.2))
  -- const_fold.rs:696-727
  | .idiv_checked_u => withPair args cs fun w n d => sameWidth w n d <|
      if valueU d = 0 then out1 (.ok (.err (.int w)))
      else out1 (unwrapInt (newU m w (valueU n / valueU d)))
  -- const_fold.rs:728-747
  | .idiv_u => withPair args cs fun w n d =>
      if n.logWidth ≠ w ∨ d.logWidth ≠ w ∨ valueU d = 0 then .ok none
      else out1 (unwrapInt (newU m w (valueU n / valueU d)))
  -- const_fold.rs:748-779
  | .imod_checked_u => withPair args cs fun w n d => sameWidth w n d <|
      if valueU d = 0 then out1 (.ok (.err (.int w)))
      else out1 (unwrapInt (newU m w (valueU n % valueU d)))
  -- const_fold.rs:780-799
  | .imod_u => withPair args cs fun w n d =>
      if n.logWidth ≠ w ∨ d.logWidth ≠ w ∨ valueU d = 0 then .ok none
      else out1 (unwrapInt (newU m w (valueU n % valueU d)))
  -- const_fold.rs:800-832
  | .idiv_checked_s => withPair args cs fun w n d => sameWidth w n d <|
      (valueS m n).andThen fun nv =>
      if valueU d = 0 then out1 (.ok (.err (.int w)))
      else (divmodS m nv (valueU d)).andThen fun qr => out1 (unwrapInt (newS m w qr.1))
  -- const_fold.rs:833-853
  | .idiv_s => withPair args cs fun w n d =>
      (valueS m n).andThen fun nv =>
      if n.logWidth ≠ w ∨ d.logWidth ≠ w ∨ valueU d = 0 then .ok none
      else (divmodS m nv (valueU d)).andThen fun qr => out1 (unwrapInt (newS m w qr.1))
  -- const_fold.rs:854-886
  | .imod_checked_s => withPair args cs fun w n d => sameWidth w n d <|
      (valueS m n).andThen fun nv =>
      if valueU d = 0 then out1 (.ok (.err (.int w)))
      else (divmodS m nv (valueU d)).andThen fun qr => out1 (unwrapInt (newU m w qr.2))
  -- const_fold.rs:887-907
  | .imod_s => withPair args cs fun w n d =>
      (valueS m n).andThen fun nv =>
      if n.logWidth ≠ w ∨ d.logWidth ≠ w ∨ valueU d = 0 then .ok none
      else (divmodS m nv (valueU d)).andThen fun qr => out1 (unwrapInt (newU m w qr.2))
  -- const_fold.rs:908-935
  | .iabs => withOne args cs fun w n0 =>
      (valueS m n0).andThen fun v =>
      if n0.logWidth = w then
        if v = -2 ^ 63 then
          if m = .debug ∧ w ≠ 6 then .panic else out1 (unwrapInt (newU m 6 (2 ^ 63)))
        else out1 (unwrapInt (newS m w (Int.natAbs v)))
      else .ok none
  -- const_fold.rs:936-998
  | .iand => binU m args cs fun _ a b => .ok (a &&& b)
  | .ior => binU m args cs fun _ a b => .ok (a ||| b)
  | .ixor => binU m args cs fun _ a b => .ok (a ^^^ b)
  -- const_fold.rs:999-1023
  | .inot => unU m args cs fun w a =>
      (bitmaskFromLogwidth m w).andThen fun b => .ok (b &&& notU64 a)
  -- const_fold.rs:1024-1050
  | .ishl => binU m args cs fun w a b => (shlU64 m a b).andThen fun x => masked m w x
  -- const_fold.rs:1051-1072
  | .ishr => binU m args cs fun _ a b => shrU64 m a b
  -- const_fold.rs:1073-1101; `w - k` does not overflow since `k < w`
  | .irotl => binU m args cs fun w a b =>
      let k := b % 2 ^ w
      (shlU64 m a k).andThen fun hi =>
      (bitmaskFromWidth m (2 ^ w)).andThen fun mask =>
      (shrU64 m a (2 ^ w - k)).andThen fun lo => .ok ((hi &&& mask) ||| lo)
  -- const_fold.rs:1102-1130
  | .irotr => binU m args cs fun w a b =>
      let k := b % 2 ^ w
      (shlU64 m a (2 ^ w - k)).andThen fun hi =>
      (bitmaskFromWidth m (2 ^ w)).andThen fun mask =>
      (shrU64 m a k).andThen fun lo => .ok ((hi &&& mask) ||| lo)
  -- const_fold.rs:1131-1173; `assert!` panics in every build
  | .is_to_u | .iu_to_s => withOne args cs fun w n0 =>
      if n0.logWidth = w then
        (valueS m n0).andThen fun v =>
        if v ≥ 0 then out1 (.ok (.int n0)) else .panic
      else .ok none

end Verif.IntFold
