import Verif.Types.Built
/-
C01: copyability bounds form a lattice, and the reported bound of a type is Copyable exactly when
everything inside it is copyable.
-/
namespace Verif.Types

/-- C01 (order): `contains` is a partial order with `Copyable` at the bottom and `Linear` on
top. -/
theorem C01_contains_partial_order :
    (∀ a : Bound, a.contains a = true) ∧
    (∀ a b : Bound, a.contains b = true → b.contains a = true → a = b) ∧
    (∀ a b c : Bound, a.contains b = true → b.contains c = true → a.contains c = true) ∧
    (∀ a : Bound, Bound.contains .linear a = true) ∧
    (∀ a : Bound, a.contains .copyable = true) := by
  refine ⟨?_, ?_, ?_, ?_, ?_⟩
  · intro a; cases a <;> rfl
  · intro a b; cases a <;> cases b <;> simp [Bound.contains]
  · intro a b c; cases a <;> cases b <;> cases c <;> simp [Bound.contains]
  · intro a; rfl
  · intro a; cases a <;> rfl

/-- C01 (union): `union` is the least upper bound for `contains`; it is one of its arguments. -/
theorem C01_union_is_least_upper_bound (a b : Bound) :
    (∀ c : Bound, c.contains (a.union b) = true ↔ c.contains a = true ∧ c.contains b = true) ∧
    (a.union b = a ∨ a.union b = b) := by
  constructor
  · intro c; cases a <;> cases b <;> cases c <;> decide
  · cases a <;> cases b <;> decide

theorem leastUpperBoundFrom_copyable (acc : Bound) (bs : List Bound) :
    leastUpperBoundFrom acc bs = .copyable ↔ acc = .copyable ∧ ∀ b ∈ bs, b = .copyable := by
  induction bs generalizing acc with
  | nil => simp [leastUpperBoundFrom]
  | cons b bs ih =>
    unfold leastUpperBoundFrom
    split
    · next h =>
      rcases h with h | h
      · simp [h]
      · simp [h]
    · next h =>
      rw [ih]
      cases acc <;> cases b <;> simp_all [Bound.union, Bound.contains]

theorem leastUpperBound_copyable (bs : List Bound) :
    leastUpperBound bs = .copyable ↔ ∀ b ∈ bs, b = .copyable := by
  simp [leastUpperBound, leastUpperBoundFrom_copyable]

/-- C01 (lists): the least upper bound of a list of bounds is above exactly what is above all of
them. -/
theorem C01_least_upper_bound (bs : List Bound) (c : Bound) :
    c.contains (leastUpperBound bs) = true ↔ ∀ b ∈ bs, c.contains b = true := by
  have h := leastUpperBound_copyable bs
  cases c with
  | linear => simp [Bound.contains]
  | copyable =>
    have e : ∀ b : Bound, Bound.contains .copyable b = true ↔ b = .copyable := by
      intro b; cases b <;> simp [Bound.contains]
    simp only [e]
    exact h

theorem bound_copyable_iff :
    (∀ _t : Term, True) ∧
    (∀ t : Ty, t.built = true → (t.bound = .copyable ↔ t.IsCopyable)) ∧
    (∀ t : RTy, t.built = true → (t.bound = .copyable ↔ t.IsCopyable)) := by
  apply syntax_induction
  case sumGen =>
    intro rows b ih hb
    simp only [Ty.built, Bool.and_eq_true, decide_eq_true_eq, builtRows_iff] at hb
    simp only [Ty.bound, Ty.IsCopyable, rowsCopyable_iff]
    rw [hb.1.2, leastUpperBound_copyable]
    constructor
    · intro h r hr t ht
      exact (ih r hr t ht (hb.1.1 r hr t ht)).mp
        (h _ (List.mem_map.mpr ⟨t, List.mem_flatten.mpr ⟨r, hr, ht⟩, rfl⟩))
    · intro h b' hb'
      obtain ⟨t, ht, rfl⟩ := List.mem_map.mp hb'
      obtain ⟨r, hr, ht⟩ := List.mem_flatten.mp ht
      exact (ih r hr t ht (hb.1.1 r hr t ht)).mpr (h r hr t ht)
  case rty =>
    intro t ih hb
    simp only [RTy.built] at hb
    simpa [RTy.bound, RTy.IsCopyable] using ih hb
  all_goals (intros; first | trivial | simp [Ty.bound, Ty.IsCopyable, RTy.bound, RTy.IsCopyable])

/-- C01 (types): a type made with the type constructors reports the bound `Copyable` exactly when
every component of every variant is copyable, however deeply nested. -/
theorem C01_bound_is_copyability (t : Ty) (h : t.built = true) :
    (t.bound = .copyable ↔ t.IsCopyable) ∧ (t.copyable = true ↔ t.IsCopyable) := by
  have h1 := bound_copyable_iff.2.1 t h
  refine ⟨h1, ?_⟩
  rw [← h1]
  unfold Ty.copyable
  cases t.bound <;> simp [Bound.contains]

/-- C01 (constructors): all constructors of types keep the invariant needed by
`C01_bound_is_copyability`. -/
theorem C01_constructors_keep_invariant :
    (∀ e i args b, (∀ t ∈ args, Term.built t = true) → (Ty.ext e i args b).built = true) ∧
    (∀ n b, (Ty.alias n b).built = true) ∧
    (∀ i o, (∀ t ∈ i, RTy.built t = true) → (∀ t ∈ o, RTy.built t = true) →
      (Ty.function i o).built = true) ∧
    (∀ n b, (Ty.variable n b).built = true) ∧
    (∀ n, n < 256 → (Ty.sumUnit n).built = true) ∧
    (∀ rows, (∀ r ∈ rows, ∀ t ∈ r, RTy.built t = true) → (Ty.newSum rows).built = true) ∧
    (∀ row, (∀ t ∈ row, RTy.built t = true) → (Ty.newTuple row).built = true) := by
  refine ⟨?_, ?_, ?_, ?_, ?_, ?_, ?_⟩
  · intro e i args b h; simpa [Ty.built, builtTerms_iff] using h
  · intros; rfl
  · intro i o hi ho; simp only [Ty.built, Bool.and_eq_true, builtRow_iff]; exact ⟨hi, ho⟩
  · intros; rfl
  · intro n h; simpa [Ty.built] using h
  · intro rows h; exact built_newSum ((builtRows_iff rows).mpr h)
  · intro row h
    unfold Ty.newTuple
    split
    · rfl
    · exact built_newSum ((builtRows_iff _).mpr (by simpa using h))

/-- C01 (sums and rows): the bound of a sum is `Copyable` iff the bound of every element of every
row is, and function types are always `Copyable`. -/
theorem C01_sum_bound (rows : List (List RTy)) :
    ((Ty.newSum rows).bound = .copyable ↔ ∀ r ∈ rows, ∀ t ∈ r, RTy.bound t = .copyable) ∧
    (∀ i o, (Ty.function i o).bound = .copyable) := by
  refine ⟨?_, fun _ _ => rfl⟩
  unfold Ty.newSum
  split
  · next h =>
    simp only [Ty.bound, true_iff]
    intro r hr t ht
    have := List.all_eq_true.mp h.2 r hr
    simp at this
    simp [this] at ht
  · simp only [Ty.general, Ty.bound, leastUpperBound_copyable, List.mem_map, List.mem_flatten]
    constructor
    · intro h r hr t ht; exact h _ ⟨t, ⟨r, hr, ht⟩, rfl⟩
    · rintro h b ⟨t, ⟨r, hr, ht⟩, rfl⟩; exact h r hr t ht

/-! ### Non-vacuity -/

/-- A nested sum holding a linear alias deep inside: linear although its outer row looks plain. -/
def exampleNested : Ty :=
  .newSum [[], [.ty (.newSum [[.ty (.alias "q" .linear)], []]), .ty (.function [] [])]]

example : exampleNested.built = true := by decide
example : exampleNested.bound = .linear := by decide
example : ¬ exampleNested.IsCopyable := fun h =>
  absurd ((C01_bound_is_copyability exampleNested (by decide)).1.mpr h) (by decide)
example : (Ty.newSum [[.ty (.function [.ty (.alias "q" .linear)] [])], []]).bound = .copyable := by
  decide

end Verif.Types
