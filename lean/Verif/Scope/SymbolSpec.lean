import Verif.Scope.SymbolTable
/-!
# Specification of lexically scoped symbols

A stack of open regions, innermost first, each with its own bindings from names
to nodes.
-/
namespace Verif.Scope

/-- An open region with the bindings made in it, oldest first. -/
structure Frame where
  region : Nat
  binds : List (String × Nat)

/-- The binding of a name in one region. -/
def Frame.find (f : Frame) (name : String) : Option Nat :=
  (f.binds.find? (·.1 = name)).map (·.2)

/-- Lexical scoping: the innermost region that binds the name wins. -/
def SymSpec.lookup : List Frame → String → Option Nat
  | [], _ => none
  | f :: st, name =>
    match f.find name with
    | some n => some n
    | none => SymSpec.lookup st name

/-- A node is visible when looking up a name leads to it. -/
def SymSpec.Visible (st : List Frame) (node : Nat) : Prop :=
  ∃ name, SymSpec.lookup st name = some node

/-- Decides `Visible` by trying all bound names. -/
def SymSpec.visible (st : List Frame) (node : Nat) : Bool :=
  (st.flatMap (·.binds)).any fun p => SymSpec.lookup st p.1 == some node

/-- What each call must do on the stack of open regions. -/
def SymSpec.step : List Frame → SymOp → Option (List Frame × SymOut)
  | st, .enter r => some (⟨r, []⟩ :: st, .unit)
  | [], .exit => none
  | _ :: st, .exit => some (st, .unit)
  | [], .insert _ _ => none
  | f :: st, .insert s n =>
    match f.find s with
    | some previous => some (f :: st, .duplicate s n previous)
    | none => some (⟨f.region, f.binds ++ [(s, n)]⟩ :: st, .unit)
  | st, .resolve s =>
    match SymSpec.lookup st s with
    | some n => some (st, .node n)
    | none => some (st, .unknown s)
  | st, .regionToDepth r =>
    some (st, .depth ((st.reverse.map (·.region)).idxOf? r))
  | st, .depthToRegion d => some (st, .region ((st.reverse.map (·.region))[d]?))
  | st, .isVisible n => some (st, .bool (SymSpec.visible st n))

/-- The client contract: open regions are distinct, fewer than 65536 of them are
open, and a node is bound at most once among the open regions. -/
def SymSpec.okBase : List Frame → SymOp → Prop
  | st, .enter r => r ∉ st.map Frame.region ∧ st.length < 65535
  | st, .insert _ n => n ∉ (st.flatMap (·.binds)).map Prod.snd
  | _, _ => True

/-- The contract together with the restriction that `is_visible` is not called. -/
def SymSpec.okNoVisible (st : List Frame) (op : SymOp) : Prop :=
  SymSpec.okBase st op ∧ ∀ n, op ≠ .isVisible n

end Verif.Scope
