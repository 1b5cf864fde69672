import Verif.Scope.VarTable
/-!
# Specification of scoped variables

A stack of open nodes, innermost first, each with the list of the variable
names declared in it, in declaration order. Only the innermost node is visible.
-/
namespace Verif.Scope

/-- Open nodes, innermost first, with their declared names in order. -/
abbrev VarStack := List (Nat × List String)

/-- What each call must do on the stack of open nodes. -/
def VarSpec.step : VarStack → VarOp → Option (VarStack × VarOut)
  | st, .enter n => some ((n, []) :: st, .unit)
  | [], .exit => none
  | _ :: st, .exit => some (st, .unit)
  | [], .insert _ => none
  | (n, names) :: st, .insert s =>
    if s ∈ names then some ((n, names) :: st, .duplicate n s)
    -- a node has at most 65535 variables
    else if names.length < 65535 then some ((n, names ++ [s]) :: st, .var n names.length)
    else none
  | [], .resolve s => some ([], .unknownRoot s)
  | (n, names) :: st, .resolve s =>
    if s ∈ names then some ((n, names) :: st, .var n (names.findIdx (· = s)))
    else some ((n, names) :: st, .unknownInNode n s)
  | [], .isVisible _ _ => some ([], .bool false)
  | (n, names) :: st, .isVisible m i =>
    some ((n, names) :: st, .bool (n == m && decide (i < names.length)))

/-- The client contract: a node that is already open is not entered again
(every node introduces its own isolated scope, vars.rs:14-15). -/
def VarSpec.ok : VarStack → VarOp → Prop
  | st, .enter n => n ∉ st.map Prod.fst
  | _, _ => True

end Verif.Scope
