import Verif.Types.Model
/-
The explicit stack machines that enumerate the parts of lists and tuples, and the specification of
what a list or tuple term denotes.
-/
namespace Verif.Types

/-! ## The iterators of the source -/

/-- Sum of the sizes of the terms on the stack: decreases at every step of the iterators. -/
noncomputable def stackSize : List SeqPart → Nat
  | [] => 0
  | .item t :: st => 1 + sizeOf t + stackSize st
  | .splice t :: st => 1 + 2 * sizeOf t + stackSize st

theorem stackSize_append (a b : List SeqPart) :
    stackSize (a ++ b) = stackSize a + stackSize b := by
  induction a with
  | nil => simp [stackSize]
  | cons x xs ih => cases x <;> simp [stackSize, ih] <;> omega

/-- Items pushed on the stack. -/
def asItems (ts : List Term) : List SeqPart := ts.map .item
/-- Splices pushed on the stack. -/
def asSplices (ts : List Term) : List SeqPart := ts.map .splice

theorem stackSize_items (ts : List Term) : stackSize (asItems ts) ≤ sizeOf ts := by
  unfold asItems
  induction ts with
  | nil => simp [stackSize]
  | cons t ts ih => simp [stackSize]; omega

theorem stackSize_splices (ts : List Term) : stackSize (asSplices ts) ≤ 2 * sizeOf ts := by
  unfold asSplices
  induction ts with
  | nil => simp [stackSize]
  | cons t ts ih => simp [stackSize]; omega

/-- Collecting `ListPartIter` from a given stack (`self.parts`, whose top is the end of the vector
in the source and the head of the list here), hugr-core/src/types/type_param.rs:781-797. -/
def drainList : List SeqPart → List SeqPart
  | [] => []
  | .splice (.list elems) :: st => drainList (asItems elems ++ st)
  | .splice (.listConcat lists) :: st => drainList (asSplices lists ++ st)
  | p :: st => p :: drainList st
termination_by st => stackSize st
decreasing_by
  · have := stackSize_items elems
    simp [stackSize_append, stackSize]; omega
  · have := stackSize_splices lists
    simp [stackSize_append, stackSize]; omega
  · cases p <;> simp [stackSize] <;> omega

/-- Collecting `TuplePartIter`, hugr-core/src/types/type_param.rs:814-830. -/
def drainTuple : List SeqPart → List SeqPart
  | [] => []
  | .splice (.tuple elems) :: st => drainTuple (asItems elems ++ st)
  | .splice (.tupleConcat tuples) :: st => drainTuple (asSplices tuples ++ st)
  | p :: st => p :: drainTuple st
termination_by st => stackSize st
decreasing_by
  · have := stackSize_items elems
    simp [stackSize_append, stackSize]; omega
  · have := stackSize_splices tuples
    simp [stackSize_append, stackSize]; omega
  · cases p <;> simp [stackSize] <;> omega

theorem listPartsAll_eq (ts : List Term) : listPartsAll ts = ts.flatMap Term.listParts := by
  induction ts with
  | nil => rfl
  | cons t ts ih => simp [listPartsAll, ih]
theorem tuplePartsAll_eq (ts : List Term) : tuplePartsAll ts = ts.flatMap Term.tupleParts := by
  induction ts with
  | nil => rfl
  | cons t ts ih => simp [tuplePartsAll, ih]

theorem flatMap_item_list (ts : List Term) :
    (ts.map SeqPart.item).flatMap SeqPart.listExpand = ts.map .item := by
  induction ts with
  | nil => rfl
  | cons t ts ih => simp [SeqPart.listExpand, ih]
theorem flatMap_item_tuple (ts : List Term) :
    (ts.map SeqPart.item).flatMap SeqPart.tupleExpand = ts.map .item := by
  induction ts with
  | nil => rfl
  | cons t ts ih => simp [SeqPart.tupleExpand, ih]
theorem flatMap_splice_list (ts : List Term) :
    (ts.map SeqPart.splice).flatMap SeqPart.listExpand = listPartsAll ts := by
  rw [listPartsAll_eq]
  induction ts with
  | nil => rfl
  | cons t ts ih => simp [SeqPart.listExpand, ih]
theorem flatMap_splice_tuple (ts : List Term) :
    (ts.map SeqPart.splice).flatMap SeqPart.tupleExpand = tuplePartsAll ts := by
  rw [tuplePartsAll_eq]
  induction ts with
  | nil => rfl
  | cons t ts ih => simp [SeqPart.tupleExpand, ih]

/-- The stack machine of the source produces the recursively defined parts. -/
theorem drainList_eq (st : List SeqPart) : drainList st = st.flatMap SeqPart.listExpand := by
  fun_induction drainList st with
  | case1 => rfl
  | case2 elems st ih =>
    rw [ih, List.flatMap_append, asItems, flatMap_item_list]
    simp [SeqPart.listExpand, Term.listParts]
  | case3 lists st ih =>
    rw [ih, List.flatMap_append, asSplices, flatMap_splice_list]
    simp [SeqPart.listExpand, Term.listParts]
  | case4 p st h1 h2 ih =>
    rw [ih]
    cases p with
    | item t => simp [SeqPart.listExpand]
    | splice t =>
      cases t with
      | list es => exact absurd rfl (h1 es)
      | listConcat es => exact absurd rfl (h2 es)
      | _ => simp [SeqPart.listExpand, Term.listParts]

theorem drainTuple_eq (st : List SeqPart) : drainTuple st = st.flatMap SeqPart.tupleExpand := by
  fun_induction drainTuple st with
  | case1 => rfl
  | case2 elems st ih =>
    rw [ih, List.flatMap_append, asItems, flatMap_item_tuple]
    simp [SeqPart.tupleExpand, Term.tupleParts]
  | case3 lists st ih =>
    rw [ih, List.flatMap_append, asSplices, flatMap_splice_tuple]
    simp [SeqPart.tupleExpand, Term.tupleParts]
  | case4 p st h1 h2 ih =>
    rw [ih]
    cases p with
    | item t => simp [SeqPart.tupleExpand]
    | splice t =>
      cases t with
      | tuple es => exact absurd rfl (h1 es)
      | tupleConcat es => exact absurd rfl (h2 es)
      | _ => simp [SeqPart.tupleExpand, Term.tupleParts]

/-- Is this a literal list or a concatenation of lists? -/
def Term.isListLit : Term → Bool
  | .list _ => true
  | .listConcat _ => true
  | _ => false
/-- Is this a literal tuple or a concatenation of tuples? -/
def Term.isTupleLit : Term → Bool
  | .tuple _ => true
  | .tupleConcat _ => true
  | _ => false

theorem list_induction {P : Term → Prop} (list : ∀ es, P (.list es))
    (concat : ∀ ts, (∀ t ∈ ts, P t) → P (.listConcat ts))
    (other : ∀ t, t.isListLit = false → P t) (t : Term) : P t := by
  refine (syntax_induction (P := P) (Q := fun _ => True) (R := fun _ => True) ?_ ?_ ?_ ?_ ?_ ?_ ?_ ?_
    ?_ ?_ ?_ ?_ ?_ ?_ ?_ ?_ ?_ ?_ ?_ ?_ ?_ ?_ ?_ ?_ ?_ ?_ ?_).1 t
  all_goals intros
  all_goals first | trivial | (apply other; rfl) | apply list | (apply concat; assumption)

theorem tuple_induction {P : Term → Prop} (tuple : ∀ es, P (.tuple es))
    (concat : ∀ ts, (∀ t ∈ ts, P t) → P (.tupleConcat ts))
    (other : ∀ t, t.isTupleLit = false → P t) (t : Term) : P t := by
  refine (syntax_induction (P := P) (Q := fun _ => True) (R := fun _ => True) ?_ ?_ ?_ ?_ ?_ ?_ ?_ ?_
    ?_ ?_ ?_ ?_ ?_ ?_ ?_ ?_ ?_ ?_ ?_ ?_ ?_ ?_ ?_ ?_ ?_ ?_ ?_).1 t
  all_goals intros
  all_goals first | trivial | (apply other; rfl) | apply tuple | (apply concat; assumption)

theorem listParts_other {t : Term} (h : t.isListLit = false) : t.listParts = [.splice t] := by
  cases t <;> first | rfl | cases h
theorem tupleParts_other {t : Term} (h : t.isTupleLit = false) : t.tupleParts = [.splice t] := by
  cases t <;> first | rfl | cases h

/-! ## Specification: what list and tuple terms denote -/

mutual
/-- The sequence denoted by a list term, given (`ρ`) the sequences denoted by the terms that are
not literal lists, such as variables. -/
def Term.listValue (ρ : Term → List Term) : Term → List Term
  | .list elems => elems
  | .listConcat lists => listValues ρ lists
  | t => ρ t
def listValues (ρ : Term → List Term) : List Term → List Term
  | [] => []
  | t :: ts => t.listValue ρ ++ listValues ρ ts
end

mutual
/-- The sequence denoted by a tuple term. -/
def Term.tupleValue (ρ : Term → List Term) : Term → List Term
  | .tuple elems => elems
  | .tupleConcat tuples => tupleValues ρ tuples
  | t => ρ t
def tupleValues (ρ : Term → List Term) : List Term → List Term
  | [] => []
  | t :: ts => t.tupleValue ρ ++ tupleValues ρ ts
end

/-- The sequence a part contributes to a list: an item itself, a splice what it denotes. -/
def SeqPart.listValue (ρ : Term → List Term) : SeqPart → List Term
  | .item t => [t]
  | .splice t => t.listValue ρ
/-- The sequence a part contributes to a tuple. -/
def SeqPart.tupleValue (ρ : Term → List Term) : SeqPart → List Term
  | .item t => [t]
  | .splice t => t.tupleValue ρ

mutual
/-- A closed list term: made of literal lists and concatenations only. -/
def Term.closedList : Term → Bool
  | .list _ => true
  | .listConcat ts => closedLists ts
  | _ => false
def closedLists : List Term → Bool
  | [] => true
  | t :: ts => t.closedList && closedLists ts
end
mutual
/-- A closed tuple term. -/
def Term.closedTuple : Term → Bool
  | .tuple _ => true
  | .tupleConcat ts => closedTuples ts
  | _ => false
def closedTuples : List Term → Bool
  | [] => true
  | t :: ts => t.closedTuple && closedTuples ts
end

theorem listValue_other (ρ : Term → List Term) {t : Term} (h : t.isListLit = false) :
    t.listValue ρ = ρ t := by
  cases t <;> first | rfl | cases h
theorem tupleValue_other (ρ : Term → List Term) {t : Term} (h : t.isTupleLit = false) :
    t.tupleValue ρ = ρ t := by
  cases t <;> first | rfl | cases h
theorem closedList_other {t : Term} (h : t.isListLit = false) : t.closedList = false := by
  cases t <;> first | rfl | cases h
theorem closedTuple_other {t : Term} (h : t.isTupleLit = false) : t.closedTuple = false := by
  cases t <;> first | rfl | cases h

end Verif.Types
