import Verif.Dataflow.PartialValue

/-!
# Specification of the lattice of abstract values

Written without reference to `join`, `meet` or any helper of the model: the order of abstract
values, the concrete values they describe, and what is expected of the leaf values.
-/
namespace Verif.Dataflow

variable {V N A W : Type}

/-- Concrete runtime values: leaves, functions, and sums with a tag and a row of elements. -/
inductive Conc (W N A : Type) where
  | val (w : W)
  | func (node : N) (args : A)
  | sum (tag : Nat) (elems : List (Conc W N A))

namespace PV

section Order
variable (vle : V → V → Prop)
mutual
/-- The lattice order: `bottom` is below and `top` above everything, a loaded function is only
comparable with itself, leaves are ordered by `vle`, and one sum is below another if each of its
rows is elementwise below the row of the other with the same tag. -/
def Le : PV V N A → PV V N A → Prop
  | bottom, _ => True
  | top, b => b = top
  | func n x, b => b = top ∨ b = func n x
  | value v, b => b = top ∨ ∃ w, b = value w ∧ vle v w
  | psum r, b => b = top ∨ ∃ s, b = psum s ∧ LeRows r s
/-- Each row has a row above it with the same tag. -/
def LeRows : List (Nat × List (PV V N A)) → List (Nat × List (PV V N A)) → Prop
  | [], _ => True
  | (tag, row) :: r, s => (∃ row', bmGet s tag = some row' ∧ LeRow row row') ∧ LeRows r s
/-- Elementwise, and of the same length. -/
def LeRow : List (PV V N A) → List (PV V N A) → Prop
  | [], ys => ys = []
  | x :: xs, ys => ∃ y ys', ys = y :: ys' ∧ Le x y ∧ LeRow xs ys'
end
end Order

section Describes
variable (vd : V → W → Prop)
mutual
/-- The concrete values described by an abstract one, when the leaf `v` describes the leaves `w`
with `vd v w`. -/
def Describes : PV V N A → Conc W N A → Prop
  | bottom, _ => False
  | top, _ => True
  | func n x, c => c = .func n x
  | value v, c => ∃ w, c = .val w ∧ vd v w
  | psum r, c => ∃ tag xs, c = .sum tag xs ∧ DescribesRows r tag xs
/-- Some row has the tag and describes the elements. -/
def DescribesRows : List (Nat × List (PV V N A)) → Nat → List (Conc W N A) → Prop
  | [], _, _ => False
  | (k, row) :: r, tag, xs => (k = tag ∧ DescribesRow row xs) ∨ DescribesRows r tag xs
/-- Elementwise, and of the same length. -/
def DescribesRow : List (PV V N A) → List (Conc W N A) → Prop
  | [], xs => xs = []
  | p :: ps, xs => ∃ x xs', xs = x :: xs' ∧ Describes p x ∧ DescribesRow ps xs'
end
end Describes

mutual
/-- The invariant of the type: every sum has at least one tag (partial_value.rs:76-88 asserts it),
and its map has one entry per tag (here: sorted by tag). -/
def WF : PV V N A → Prop
  | psum r => r ≠ [] ∧ BmSorted r ∧ WFRows r
  | _ => True
/-- All rows. -/
def WFRows : List (Nat × List (PV V N A)) → Prop
  | [] => True
  | (_, row) :: r => WFRow row ∧ WFRows r
/-- All elements. -/
def WFRow : List (PV V N A) → Prop
  | [] => True
  | x :: xs => WF x ∧ WFRow xs
end

section Args
variable (φ : N → A)
mutual
/-- Every loaded function carries the arguments `φ` gives for its node: the program loads each
function with one list of type arguments. -/
def ArgsBy : PV V N A → Prop
  | func n x => x = φ n
  | psum r => ArgsByRows r
  | _ => True
/-- All rows. -/
def ArgsByRows : List (Nat × List (PV V N A)) → Prop
  | [] => True
  | (_, row) :: r => ArgsByRow row ∧ ArgsByRows r
/-- All elements. -/
def ArgsByRow : List (PV V N A) → Prop
  | [] => True
  | x :: xs => ArgsBy x ∧ ArgsByRow xs
end
end Args

section Leaves
variable (P : V → Prop)
mutual
/-- All leaves satisfy `P`. -/
def AllLeaves : PV V N A → Prop
  | value v => P v
  | psum r => AllLeavesRows r
  | _ => True
/-- All rows. -/
def AllLeavesRows : List (Nat × List (PV V N A)) → Prop
  | [] => True
  | (_, row) :: r => AllLeavesRow row ∧ AllLeavesRows r
/-- All elements. -/
def AllLeavesRow : List (PV V N A) → Prop
  | [] => True
  | x :: xs => AllLeaves x ∧ AllLeavesRow xs
end
end Leaves

/-- The part of a type that matters here: a sum with the rows of its variants, or anything else. -/
inductive Shape where
  | leaf
  | sum (variants : List (List Shape))

mutual
/-- The abstract value is one for the given type: every tag of a sum is one of the variants, and
its row has that variant's length and types. -/
def Fits : PV V N A → Shape → Prop
  | psum r, t => ∃ vs, t = .sum vs ∧ FitsRows r vs
  | func _ _, t => t = .leaf
  | value _, t => t = .leaf
  | _, _ => True
/-- All rows. -/
def FitsRows : List (Nat × List (PV V N A)) → List (List Shape) → Prop
  | [], _ => True
  | (tag, row) :: r, vs => (∃ ts, vs[tag]? = some ts ∧ FitsRow row ts) ∧ FitsRows r vs
/-- All elements. -/
def FitsRow : List (PV V N A) → List Shape → Prop
  | [], ts => ts = []
  | x :: xs, ts => ∃ t ts', ts = t :: ts' ∧ Fits x t ∧ FitsRow xs ts'
end

end PV

/-- What an implementation of `AbstractValue` promises (partial_value.rs:16-37): with respect to
some order of the leaves, `try_join` gives the least upper bound, or nothing if there is no upper
bound, with a flag telling exactly whether the first argument changed; `try_meet` dually. Leaves that
are below each other need not be equal: that is `LawfulAbs`. -/
structure AbsLaws (V : Type) [AbsVal V] (vle : V → V → Prop) : Prop where
  refl : ∀ a, vle a a
  trans : ∀ a b c, vle a b → vle b c → vle a c
  join_some : ∀ a b c f, AbsVal.tryJoin a b = some (c, f) →
    vle a c ∧ vle b c ∧ (∀ d, vle a d → vle b d → vle c d) ∧ (f = true ↔ c ≠ a)
  join_none : ∀ a b : V, AbsVal.tryJoin a b = none → ¬ ∃ d, vle a d ∧ vle b d
  meet_some : ∀ a b c f, AbsVal.tryMeet a b = some (c, f) →
    vle c a ∧ vle c b ∧ (∀ d, vle d a → vle d b → vle d c) ∧ (f = true ↔ c ≠ a)
  meet_none : ∀ a b : V, AbsVal.tryMeet a b = none → ¬ ∃ d, vle d a ∧ vle d b

/-- ... and the order is antisymmetric. -/
structure LawfulAbs (V : Type) [AbsVal V] (vle : V → V → Prop) : Prop extends AbsLaws V vle where
  antisymm : ∀ a b, vle a b → vle b a → a = b

instance [AbsVal V] (vle : V → V → Prop) : Coe (LawfulAbs V vle) (AbsLaws V vle) := ⟨fun L => L.toAbsLaws⟩

/-- The description of leaves agrees with their order and their meets. -/
structure LawfulDesc (V : Type) [AbsVal V] (vle : V → V → Prop) (vd : V → W → Prop) : Prop where
  mono : ∀ a b w, vle a b → vd a w → vd b w
  meet_some : ∀ a b c f w, AbsVal.tryMeet a b = some (c, f) → vd a w → vd b w → vd c w
  meet_none : ∀ (a b : V) w, AbsVal.tryMeet a b = none → vd a w → ¬ vd b w

/-- The default implementation of `AbstractValue` (equality only) keeps the promise, for the
discrete order. -/
theorem lawful_default (V : Type) [DecidableEq V] :
    @LawfulAbs V (AbsVal.default V) (· = ·) := by
  letI := AbsVal.default V
  refine ⟨⟨fun _ => rfl, fun _ _ _ h h' => h.trans h', ?_, ?_, ?_, ?_⟩, fun _ _ h _ => h⟩
  · intro a b c f h
    have h' : (if a = b then some (a, false) else none) = some (c, f) := h
    by_cases hab : a = b
    · rw [if_pos hab] at h'
      simp only [Option.some.injEq, Prod.mk.injEq] at h'
      obtain ⟨h1, h2⟩ := h'
      subst hab; subst h1; subst h2
      exact ⟨rfl, rfl, fun d h _ => h, by simp⟩
    · rw [if_neg hab] at h'; simp at h'
  · intro a b h ⟨d, h1, h2⟩
    have h' : (if a = b then some (a, false) else none) = none := h
    rw [if_pos (h1.trans h2.symm)] at h'; simp at h'
  · intro a b c f h
    have h' : (if a = b then some (a, false) else none) = some (c, f) := h
    by_cases hab : a = b
    · rw [if_pos hab] at h'
      simp only [Option.some.injEq, Prod.mk.injEq] at h'
      obtain ⟨h1, h2⟩ := h'
      subst hab; subst h1; subst h2
      exact ⟨rfl, rfl, fun d h _ => h, by simp⟩
    · rw [if_neg hab] at h'; simp at h'
  · intro a b h ⟨d, h1, h2⟩
    have h' : (if a = b then some (a, false) else none) = none := h
    rw [if_pos (h1.symm.trans h2)] at h'; simp at h'

/-- ... and any description of distinct leaves by distinct values agrees with it. -/
theorem lawful_desc_default (V W : Type) [DecidableEq V] (f : V → W)
    (hf : ∀ a b, f a = f b → a = b) :
    @LawfulDesc W V (AbsVal.default V) (· = ·) (fun v w => w = f v) := by
  letI := AbsVal.default V
  refine ⟨fun a b w h h' => h ▸ h', ?_, ?_⟩
  · intro a b c g w h h1 _
    have h' : (if a = b then some (a, false) else none) = some (c, g) := h
    by_cases hab : a = b
    · rw [if_pos hab] at h'
      simp only [Option.some.injEq, Prod.mk.injEq] at h'
      rw [← h'.1]; exact h1
    · rw [if_neg hab] at h'; simp at h'
  · intro a b w h h1 h2
    have h' : (if a = b then some (a, false) else none) = none := h
    rw [if_pos (hf a b (h1.symm.trans h2))] at h'; simp at h'

end Verif.Dataflow
