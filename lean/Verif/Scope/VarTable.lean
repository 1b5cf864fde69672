/-!
# Model of `hugr_model::v0::scope::VarTable`

Source: `/repo/hugr-model/src/v0/scope/vars.rs`.
-/
namespace Verif.Scope

/-- `VarScope`, vars.rs:128-135 (`var_count : u16`, modelled as a natural number
with the overflow made explicit in `VarTable.insert`). -/
structure VarScope where
  node : Nat
  varCount : Nat
  varStack : Nat
deriving DecidableEq, Repr

/-- `VarTable`, vars.rs:39-47. The `IndexSet` `vars` is the list of its elements
in insertion order; the `Vec` `scopes` is listed innermost scope first (the end
of the Rust vector is the head of the list). -/
structure VarTable where
  vars : List (Nat × String)
  scopes : List VarScope
deriving DecidableEq, Repr

/-- `UnknownVarError` and `DuplicateVarError`, vars.rs:137-153, and the
successful results, as one output type for histories. -/
inductive VarOut where
  | unit
  | var (node index : Nat)
  | bool (b : Bool)
  | duplicate (node : Nat) (name : String)
  | unknownInNode (node : Nat) (name : String)
  | unknownRoot (name : String)
deriving DecidableEq, Repr

/-- The position of an element in an index set, as `IndexSet::get_index_of`. -/
def idxOf? {α : Type} [DecidableEq α] : List α → α → Option Nat
  | [], _ => none
  | a :: as, x => if a = x then some 0 else (idxOf? as x).map (· + 1)

namespace VarTable

/-- `VarTable::new`, vars.rs:51-54. -/
def new : VarTable := ⟨[], []⟩

/-- `VarTable::enter`, vars.rs:57-63. -/
def enter (t : VarTable) (node : Nat) : VarTable :=
  { t with scopes := ⟨node, 0, t.vars.length⟩ :: t.scopes }

/-- `VarTable::exit`, vars.rs:70-73: panics when no scope is open, otherwise
drains `vars` from the recorded length on. `drain(k..)` panics when `k` exceeds
the length. -/
def exit (t : VarTable) : Option VarTable :=
  match t.scopes with
  | [] => none
  | sc :: rest => if sc.varStack ≤ t.vars.length then some ⟨t.vars.take sc.varStack, rest⟩ else none

/-- `VarTable::resolve`, vars.rs:80-88. The subtraction of `usize`s panics on
underflow; the cast `as u16` truncates. -/
def resolve (t : VarTable) (name : String) : Option VarOut :=
  match t.scopes with
  | [] => some (.unknownRoot name)
  | sc :: _ =>
    match idxOf? t.vars (sc.node, name) with
    | none => some (.unknownInNode sc.node name)
    | some i => if sc.varStack ≤ i then some (.var sc.node ((i - sc.varStack) % 65536)) else none

/-- `VarTable::is_visible`, vars.rs:92-98. -/
def isVisible (t : VarTable) (node index : Nat) : Bool :=
  match t.scopes with
  | [] => false
  | sc :: _ => sc.node == node && decide (index < sc.varCount)

/-- `VarTable::insert`, vars.rs:109-120. Panics without an open scope. The
increment of the `u16` counter panics when it would exceed 65535 (debug build;
a release build would wrap). -/
def insert (t : VarTable) (name : String) : Option (VarTable × VarOut) :=
  match t.scopes with
  | [] => none
  | sc :: rest =>
    if (sc.node, name) ∈ t.vars then some (t, .duplicate sc.node name)
    else if sc.varCount + 1 < 65536 then
      some (⟨t.vars ++ [(sc.node, name)], { sc with varCount := sc.varCount + 1 } :: rest⟩,
        .var sc.node sc.varCount)
    else none

end VarTable

/-- Calls on a variable table. -/
inductive VarOp where
  | enter (node : Nat)
  | exit
  | insert (name : String)
  | resolve (name : String)
  | isVisible (node index : Nat)

/-- One call on the modelled table; `none` is a panic. -/
def VarTable.step (t : VarTable) : VarOp → Option (VarTable × VarOut)
  | .enter n => some (t.enter n, .unit)
  | .exit => t.exit.map (·, .unit)
  | .insert s => t.insert s
  | .resolve s => (t.resolve s).map (t, ·)
  | .isVisible n i => some (t, .bool (t.isVisible n i))

end Verif.Scope
