import Verif.Scope.VarTable
/-!
# Model of `hugr_model::v0::scope::LinkTable`

Source: `/repo/hugr-model/src/v0/scope/link.rs`.
-/
namespace Verif.Scope

/-- `LinkScope`, link.rs:116-126. The two `u32` counters are natural numbers with
the overflow made explicit in `LinkTable.useLink`. -/
structure LinkScope where
  linkStack : Nat
  linkCount : Nat
  portCount : Nat
  region : Nat
deriving DecidableEq, Repr

/-- `LinkTable<K>`, link.rs:40-50, for string keys. The `IndexSet` `links` is the
list of its elements in insertion order; `scopes` is listed innermost first. -/
structure LinkTable where
  links : List (Nat × String)
  scopes : List LinkScope
deriving DecidableEq, Repr

/-- Results of calls on a link table. -/
inductive LinkOut where
  | unit
  | link (index : Nat)
  | counts (links ports : Nat)
deriving DecidableEq, Repr

namespace LinkTable

/-- `LinkTable::new`, link.rs:58-63. -/
def new : LinkTable := ⟨[], []⟩

/-- `LinkTable::enter`, link.rs:66-73. -/
def enter (t : LinkTable) (region : Nat) : LinkTable :=
  { t with scopes := ⟨t.links.length, 0, 0, region⟩ :: t.scopes }

/-- `LinkTable::exit`, link.rs:76-81. -/
def exit (t : LinkTable) : Option (LinkTable × LinkOut) :=
  match t.scopes with
  | [] => none
  | sc :: rest =>
    if sc.linkStack ≤ t.links.length then
      some (⟨t.links.take sc.linkStack, rest⟩, .counts sc.linkCount sc.portCount)
    else none

/-- `IndexSet::insert_full`: the position of the element and whether it is new. -/
def insertFull (l : List (Nat × String)) (x : Nat × String) : List (Nat × String) × Nat × Bool :=
  match idxOf? l x with
  | some i => (l, i, false)
  | none => (l ++ [x], l.length, true)

/-- `LinkTable::use_link`, link.rs:90-100. Panics without an open scope; the
`u32` counters panic on overflow (debug build), and the `usize` subtraction
panics on underflow. -/
def useLink (t : LinkTable) (key : String) : Option (LinkTable × LinkOut) :=
  match t.scopes with
  | [] => none
  | sc :: rest =>
    let (links, mapIndex, inserted) := insertFull t.links (sc.region, key)
    let linkCount := if inserted then sc.linkCount + 1 else sc.linkCount
    let portCount := sc.portCount + 1
    if linkCount < 2 ^ 32 ∧ portCount < 2 ^ 32 ∧ sc.linkStack ≤ mapIndex then
      some (⟨links, { sc with linkCount := linkCount, portCount := portCount } :: rest⟩,
        .link (mapIndex - sc.linkStack))
    else none

end LinkTable

/-- Calls on a link table. -/
inductive LinkOp where
  | enter (region : Nat)
  | exit
  | useLink (key : String)

/-- One call on the modelled table; `none` is a panic. -/
def LinkTable.step (t : LinkTable) : LinkOp → Option (LinkTable × LinkOut)
  | .enter r => some (t.enter r, .unit)
  | .exit => t.exit
  | .useLink k => t.useLink k

end Verif.Scope
