import Verif.Ops.Tag
/-!
# C09: operation tags are partially ordered by inclusion
-/
namespace Verif.Ops

/-- Specification: `Contains a b` when `a` is reached from `b` by following
immediate supersets any number of times. -/
inductive Contains (a : OpTag) : OpTag → Prop
  | refl : Contains a a
  | step {p b} : p ∈ b.immediateSupersets → Contains a p → Contains a b

theorem Contains.trans {a b c : OpTag} (h : Contains a b) (h' : Contains b c) : Contains a c := by
  induction h' with
  | refl => exact h
  | step hp _ ih => exact .step hp ih

namespace OpTag

/-- All tags. -/
def all : List OpTag :=
  [any, none, moduleOp, moduleRoot, function, alias, const, funcDefn, controlFlowChild,
    dataflowChild, dataflowParent, dfg, cfg, input, output, staticInput, staticOutput, fnCall,
    loadConst, loadFunc, scopedDefn, tailLoop, conditional, case, leaf, dataflowBlock,
    basicBlockExit]

theorem mem_all (t : OpTag) : t ∈ all := by cases t <;> decide

theorem forall₁ {p : OpTag → Prop} (h : ∀ a ∈ all, p a) (a : OpTag) : p a := h a (mem_all a)

theorem forall₂ {p : OpTag → OpTag → Prop} (h : ∀ a ∈ all, ∀ b ∈ all, p a b) (a b : OpTag) :
    p a b := h a (mem_all a) b (mem_all b)

/-- **C09, recursion.** The function satisfies the recursion written in the source. -/
theorem C09_is_superset_unfolds (a b : OpTag) :
    a.isSuperset b = (a == b || b.immediateSupersets.any fun p => a.isSuperset p) := by
  revert a b
  apply forall₂
  decide +kernel

theorem fuel_sound (n : Nat) (a b : OpTag) (h : isSupersetFuel n a b = true) : Contains a b := by
  induction n generalizing b with
  | zero =>
    simp only [isSupersetFuel, beq_iff_eq] at h
    subst h; exact .refl
  | succ n ih =>
    simp only [isSupersetFuel, Bool.or_eq_true, beq_iff_eq, List.any_eq_true] at h
    rcases h with rfl | ⟨p, hp, h⟩
    · exact .refl
    · exact .step hp (ih p h)

/-- **C09, reachability.** One tag is a superset of another exactly when it is reached
by following immediate supersets. -/
theorem C09_is_superset_iff_contains (a b : OpTag) : a.isSuperset b = true ↔ Contains a b := by
  constructor
  · exact fuel_sound 27 a b
  · intro h
    induction h with
    | refl => rw [C09_is_superset_unfolds]; simp
    | @step p b hp _ ih =>
      rw [C09_is_superset_unfolds]
      simp only [Bool.or_eq_true, List.any_eq_true]
      exact Or.inr ⟨p, hp, ih⟩

/-- The length of a longest chain of strict supersets. -/
def height : OpTag → Nat
  | any => 0
  | none | moduleOp | controlFlowChild | dataflowChild | moduleRoot | staticInput | staticOutput
  | dataflowParent => 1
  | input | output | function | alias | dataflowBlock | basicBlockExit | case | dfg | cfg
  | scopedDefn | tailLoop | conditional | fnCall | loadConst | loadFunc | leaf => 2
  | funcDefn | const => 3

theorem height_lt {p b : OpTag} (h : p ∈ b.immediateSupersets) : p.height < b.height := by
  cases b <;> simp [immediateSupersets] at h <;> (try rcases h with rfl | rfl | rfl) <;>
    (try rcases h with rfl | rfl) <;> (try subst h) <;> decide

theorem contains_height {a b : OpTag} (h : Contains a b) : a = b ∨ a.height < b.height := by
  induction h with
  | refl => exact Or.inl rfl
  | step hp _ ih =>
    right
    rcases ih with rfl | ih
    · exact height_lt hp
    · exact Nat.lt_trans ih (height_lt hp)

/-- **C09, partial order.** Superset is reflexive, antisymmetric and transitive, and
`Any` is above everything. -/
theorem C09_is_superset_partial_order :
    (∀ a : OpTag, a.isSuperset a = true) ∧
    (∀ a b : OpTag, a.isSuperset b = true → b.isSuperset a = true → a = b) ∧
    (∀ a b c : OpTag, a.isSuperset b = true → b.isSuperset c = true → a.isSuperset c = true) ∧
    (∀ a : OpTag, any.isSuperset a = true) := by
  refine ⟨?_, ?_, ?_, ?_⟩
  · intro a
    exact (C09_is_superset_iff_contains a a).2 .refl
  · intro a b h1 h2
    rcases contains_height ((C09_is_superset_iff_contains a b).1 h1) with h | h
    · exact h
    · rcases contains_height ((C09_is_superset_iff_contains b a).1 h2) with h' | h'
      · exact h'.symm
      · omega
  · intro a b c h1 h2
    exact (C09_is_superset_iff_contains a c).2
      (((C09_is_superset_iff_contains a b).1 h1).trans ((C09_is_superset_iff_contains b c).1 h2))
  · apply forall₁; decide +kernel

/-- **C09, comparison.** The `PartialOrd` instance agrees with set inclusion. -/
theorem C09_partial_cmp_agrees (a b : OpTag) :
    (a.partialCmp b = some .eq ↔ a = b) ∧
    (a.partialCmp b = some .gt ↔ Contains a b ∧ a ≠ b) ∧
    (a.partialCmp b = some .lt ↔ Contains b a ∧ a ≠ b) ∧
    (a.partialCmp b = Option.none ↔ ¬ Contains a b ∧ ¬ Contains b a) := by
  rw [← C09_is_superset_iff_contains a b, ← C09_is_superset_iff_contains b a]
  have hanti := C09_is_superset_partial_order.2.1 a b
  have hrefl := C09_is_superset_partial_order.1 a
  unfold partialCmp
  by_cases h : a = b
  · subst h; simp [hrefl]
  · by_cases h1 : a.isSuperset b = true
    · by_cases h2 : b.isSuperset a = true
      · exact absurd (hanti h1 h2) h
      · simp [h, h1, h2]
    · by_cases h2 : b.isSuperset a = true <;> simp [h, h1, h2]

/-- **C09, refuted for `None`.** `None` is documented as the empty set of operations,
but it is contained only in itself and in `Any`. -/
theorem C09_none_below_all_refuted :
    none.isEmpty = true ∧ ¬ (∀ a : OpTag, a.isSuperset none = true) ∧
    ∀ a : OpTag, a.isSuperset none = true ↔ a = any ∨ a = none := by
  refine ⟨by decide, fun h => absurd (h leaf) (by decide), ?_⟩
  apply forall₁; decide +kernel

/-- A pair ordered through an intermediate tag, and two unordered pairs. -/
example : moduleOp.isSuperset funcDefn = true ∧ dataflowParent.isSuperset cfg = false ∧
    funcDefn.partialCmp moduleOp = some .lt ∧ dfg.partialCmp cfg = Option.none := by decide +kernel

end OpTag
end Verif.Ops
