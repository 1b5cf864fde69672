import Verif.IntFold.Convert
import Verif.IntFold.Spec
/-! # Specification of conversions -/
namespace Verif.IntFold

/-- `z` is the rational number `q` rounded towards zero. -/
def IsTrunc (q : Rat) (z : Int) : Prop :=
  (0 ≤ q → (z : Rat) ≤ q ∧ q < z + 1) ∧ (q ≤ 0 → (z : Rat) - 1 < q ∧ q ≤ z)

/-- Natural numbers that a `f64` can hold: at most 53 significant bits. (The exponent of a `f64` is
large enough for everything below `2 ^ 64`.) -/
def InF64 (r : Nat) : Prop := ∃ m s, m ≤ 2 ^ 53 ∧ r = m * 2 ^ s

/-- The distance of two natural numbers. -/
def dist (a b : Nat) : Nat := ((a : Int) - b).natAbs

/-- `r` is the number nearest to `n` that a `f64` can hold; when another is as near as `r`, the last
significant bit of `r` is zero. -/
def IsRounded (n r : Nat) : Prop :=
  InF64 r ∧ (∀ r', InF64 r' → dist n r ≤ dist n r') ∧
    ∀ r', InF64 r' → r' ≠ r → dist n r' = dist n r → 2 * dist r r' ∣ r

/-- The constants that each conversion takes, for the type arguments `args` of the operation. A width is
read from a type argument modulo 256, as `get_log_width` does. `ifrombool` does not look at its constant. -/
def Takes : ConvertOp → List TArg → CVal → Prop
  | .trunc_u, args, v | .trunc_s, args, v => ∃ n f, args = [.nat n] ∧ n % 256 ≤ 6 ∧ v = .float f
  | .convert_u, _, v | .convert_s, _, v => ∃ c, v = .int c
  | .itobool, args, v => args = [] ∧ ∃ c, v = .int c ∧ c.logWidth = 0
  | .ifrombool, args, _ => args = []
  | .itostring_u, args, v | .itostring_s, args, v =>
    ∃ n c, args = [.nat n] ∧ n % 256 ≤ 6 ∧ v = .int c ∧ c.logWidth = n % 256
  | .itousize, args, v => args = [] ∧ ∃ c, v = .int c ∧ c.logWidth = 6
  | .ifromusize, args, v => args = [] ∧ ∃ n, v = .usize n

end Verif.IntFold
