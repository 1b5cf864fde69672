/-!
# Model of `OpTag`

Source: `/repo/hugr-core/src/ops/tag.rs`.
-/
namespace Verif.Ops

/-- `OpTag`, tag.rs:14-75. -/
inductive OpTag where
  | any | none
  | moduleOp | moduleRoot | function | alias | const | funcDefn
  | controlFlowChild | dataflowChild | dataflowParent
  | dfg | cfg | input | output | staticInput | staticOutput | fnCall | loadConst | loadFunc
  | scopedDefn | tailLoop | conditional | case | leaf
  | dataflowBlock | basicBlockExit
deriving DecidableEq, Repr

namespace OpTag

/-- `OpTag::immediate_supersets`, tag.rs:107-142. -/
def immediateSupersets : OpTag → List OpTag
  | any => []
  | none => [any]
  | moduleOp => [any]
  | controlFlowChild => [any]
  | dataflowChild => [any]
  | input => [dataflowChild]
  | output => [dataflowChild]
  | function => [moduleOp, staticOutput]
  | alias => [moduleOp]
  | funcDefn => [function, dataflowParent]
  | dataflowBlock => [controlFlowChild, dataflowParent]
  | basicBlockExit => [controlFlowChild]
  | case => [any, dataflowParent]
  | moduleRoot => [any]
  | const => [scopedDefn, staticOutput]
  | dfg => [dataflowChild, dataflowParent]
  | cfg => [dataflowChild]
  | scopedDefn => [dataflowChild, controlFlowChild, moduleOp]
  | tailLoop => [dataflowChild, dataflowParent]
  | conditional => [dataflowChild]
  | staticInput => [any]
  | staticOutput => [any]
  | fnCall => [staticInput, dataflowChild]
  | loadConst => [staticInput, dataflowChild]
  | loadFunc => [staticInput, dataflowChild]
  | leaf => [dataflowChild]
  | dataflowParent => [any]

/-- The recursion of `OpTag::is_superset`, tag.rs:82-98, with a bound on its depth. -/
def isSupersetFuel : Nat → OpTag → OpTag → Bool
  | 0, self, other => self == other
  | n + 1, self, other =>
    self == other || (immediateSupersets other).any fun p => isSupersetFuel n self p

/-- `OpTag::is_superset`, tag.rs:82-98. The bound on the depth is not a
simplification: `C09_is_superset_unfolds` shows that this function satisfies the
unbounded recursion. -/
def isSuperset (self other : OpTag) : Bool := isSupersetFuel 27 self other

/-- `OpTag::is_empty`, tag.rs:180-182. -/
def isEmpty (t : OpTag) : Bool := t == none

/-- `PartialOrd::partial_cmp`, tag.rs:199-209. -/
def partialCmp (self other : OpTag) : Option Ordering :=
  if self = other then some .eq
  else if isSuperset self other then some .gt
  else if isSuperset other self then some .lt
  else Option.none

end OpTag
end Verif.Ops
