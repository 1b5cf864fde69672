import Verif.IntFold.Model
/-!
# Specification vocabulary for integer constants

An `N`-bit integer constant with `N = 2^w` is stored as a natural number below `2^N`. It denotes that
number when read as unsigned, and its two's-complement reading when read as signed.
-/

namespace Verif.IntFold

/-- The number `2^N` of values of an integer of log-width `w`, `N = 2^w`. -/
def card (w : Nat) : Nat := 2 ^ 2 ^ w

/-- Half of it: `2^(N-1)`. -/
def half (w : Nat) : Nat := 2 ^ (2 ^ w - 1)

/-- The signed integer denoted by the bits `v` (two's complement). -/
def signedOf (w v : Nat) : Int := if v < half w then v else (v : Int) - card w

/-- The bits denoting the integer `z` modulo `2^N`. -/
def encode (w : Nat) (z : Int) : Nat := (z % card w).toNat

/-- A constant the API can build: log-width at most 6 and a value of that many bits. -/
def ConstInt.Valid (c : ConstInt) : Prop := c.logWidth ≤ 6 ∧ c.value < card c.logWidth

/-- The operation's type arguments and constants, in port order, for one input. -/
def fold1 (m : Mode) (op : IntOp) (w a : Nat) : FoldResult :=
  fold m op [.nat w] [(0, .int ⟨w, a⟩)]

/-- The same for two inputs. -/
def fold2 (m : Mode) (op : IntOp) (w a b : Nat) : FoldResult :=
  fold m op [.nat w] [(0, .int ⟨w, a⟩), (1, .int ⟨w, b⟩)]

/-- The same for a conversion from log-width `w0` to `w1`. -/
def foldConv (m : Mode) (op : IntOp) (w0 w1 a : Nat) : FoldResult :=
  fold m op [.nat w0, .nat w1] [(0, .int ⟨w0, a⟩)]

/-- The folder returned exactly one integer constant, of log-width `w` with bits `v`, on output 0. -/
def ReturnsInt (r : FoldResult) (w v : Nat) : Prop := r = .ok (some [(0, .int ⟨w, v⟩)])

/-- The folder returned exactly one Boolean on output 0. -/
def ReturnsBool (r : FoldResult) (b : Bool) : Prop := r = .ok (some [(0, .bool b)])

/-- The folder declined to fold. -/
def Declines (r : FoldResult) : Prop := r = .ok none

end Verif.IntFold
