import Verif.Types.Model
/-
Specification of the copyability of a type (independent of the bounds cached by the code) and the
invariant kept by every constructor of types: cached bounds are right and sums are normalised.
-/
namespace Verif.Types

/-! ## Specification: which types are copyable -/

mutual
/-- Specification: a type is copyable when everything a value of it may contain is copyable.  The
bounds cached in sums are ignored. -/
def Ty.IsCopyable : Ty → Prop
  | .ext _ _ _ b => b = .copyable
  | .alias _ b => b = .copyable
  | .function _ _ => True
  | .variable _ b => b = .copyable
  | .sumUnit _ => True
  | .sumGen rows _ => RowsCopyable rows
def RTy.IsCopyable : RTy → Prop
  | .ty t => t.IsCopyable
  | .rowVar _ b => b = .copyable
def RowCopyable : List RTy → Prop
  | [] => True
  | t :: ts => t.IsCopyable ∧ RowCopyable ts
def RowsCopyable : List (List RTy) → Prop
  | [] => True
  | r :: rs => RowCopyable r ∧ RowsCopyable rs
end

/-! ## Invariant of constructed types -/

mutual
/-- Every general sum inside caches the right bound and could not be written as a unit sum; unit
sums have at most 255 variants (`u8`). -/
def Term.built : Term → Bool
  | .listType t => t.built
  | .tupleType t => t.built
  | .runtime t => t.built
  | .list es => builtTerms es
  | .listConcat es => builtTerms es
  | .tuple es => builtTerms es
  | .tupleConcat es => builtTerms es
  | .variable _ d => d.built
  | .constType t => t.built
  | _ => true
def builtTerms : List Term → Bool
  | [] => true
  | t :: ts => t.built && builtTerms ts
def Ty.built : Ty → Bool
  | .ext _ _ args _ => builtTerms args
  | .alias _ _ => true
  | .function i o => builtRow i && builtRow o
  | .variable _ _ => true
  | .sumUnit n => decide (n < 256)
  | .sumGen rows b => builtRows rows && decide (b = leastUpperBound (rows.flatten.map RTy.bound))
      && !(decide (rows.length < 256) && rows.all List.isEmpty)
def RTy.built : RTy → Bool
  | .ty t => t.built
  | .rowVar _ _ => true
def builtRow : List RTy → Bool
  | [] => true
  | t :: ts => t.built && builtRow ts
def builtRows : List (List RTy) → Bool
  | [] => true
  | r :: rs => builtRow r && builtRows rs
end

theorem builtTerms_iff (ts : List Term) : builtTerms ts = true ↔ ∀ t ∈ ts, t.built = true := by
  induction ts with
  | nil => simp [builtTerms]
  | cons t ts ih => simp [builtTerms, ih]
theorem builtRow_iff (ts : List RTy) : builtRow ts = true ↔ ∀ t ∈ ts, t.built = true := by
  induction ts with
  | nil => simp [builtRow]
  | cons t ts ih => simp [builtRow, ih]
theorem builtRows_iff (ts : List (List RTy)) :
    builtRows ts = true ↔ ∀ r ∈ ts, ∀ t ∈ r, t.built = true := by
  induction ts with
  | nil => simp [builtRows]
  | cons t ts ih => simp [builtRows, ih, builtRow_iff]

theorem rowCopyable_iff (ts : List RTy) : RowCopyable ts ↔ ∀ t ∈ ts, t.IsCopyable := by
  induction ts with
  | nil => simp [RowCopyable]
  | cons t ts ih => simp [RowCopyable, ih]
theorem rowsCopyable_iff (ts : List (List RTy)) :
    RowsCopyable ts ↔ ∀ r ∈ ts, ∀ t ∈ r, t.IsCopyable := by
  induction ts with
  | nil => simp [RowsCopyable]
  | cons t ts ih => simp [RowsCopyable, ih, rowCopyable_iff]

/-- `newSum` of built rows is built. -/
theorem built_newSum {rows : List (List RTy)} (h : builtRows rows = true) :
    (Ty.newSum rows).built = true := by
  unfold Ty.newSum
  split
  · next h1 => simp [Ty.built, h1.1]
  · next h1 =>
    simp only [Ty.general, Ty.built, h, Bool.true_and, decide_true]
    cases hd : (decide (rows.length < 256) && rows.all List.isEmpty)
    · rfl
    · exfalso
      apply h1
      simpa using hd

end Verif.Types
