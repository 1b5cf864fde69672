import Verif.Dataflow.CmpProps
import Verif.Dataflow.Concrete

/-!
# C16–C19, C44: the lattice of abstract values

Source: `/repo/hugr-passes/src/dataflow/partial_value.rs`.
-/
namespace Verif.Dataflow
open PV
variable {V N A W : Type}

/-! ## Values used in the examples -/

/-- Leaves are numbers, nodes and arguments too. -/
abbrev P := PV Nat Nat Nat
/-- Tag 0 with elements 1 and ⊥, or tag 2 with a function. -/
def exA : P := psum [(0, [value 1, bottom]), (2, [func 7 8])]
/-- Tag 0 with elements 1 and ⊤, or tag 3 with an inner sum. -/
def exB : P := psum [(0, [value 1, top]), (3, [psum [(1, [])]])]

theorem exA_wf : WF exA := by simp [exA, WF, WFRows, WFRow, BmSorted]
theorem exB_wf : WF exB := by simp [exB, WF, WFRows, WFRow, BmSorted]
theorem exA_args : ArgsBy (fun n => n + 1) exA := by simp [exA, ArgsBy, ArgsByRows, ArgsByRow]
theorem exB_args : ArgsBy (fun n => n + 1) exB := by simp [exB, ArgsBy, ArgsByRows, ArgsByRow]
/-- A type for both. -/
def exT : Shape := .sum [[.leaf, .leaf], [], [.leaf], [.sum [[], []]]]
theorem exA_fits : Fits exA exT := by simp [exA, exT, Fits, FitsRows, FitsRow]
theorem exB_fits : Fits exB exT := by simp [exB, exT, Fits, FitsRows, FitsRow]

instance : AbsVal Nat := AbsVal.default Nat
theorem natLawful : LawfulAbs Nat (· = ·) := lawful_default Nat

/-! ## The order is a partial order -/

/-- The order of abstract values is reflexive, transitive and antisymmetric. -/
theorem C16_order [AbsVal V] {vle : V → V → Prop} (L : LawfulAbs V vle) :
    (∀ a : PV V N A, WF a → Le vle a a) ∧
    (∀ a b c : PV V N A, Le vle a b → Le vle b c → Le vle a c) ∧
    (∀ a b : PV V N A, WF a → WF b → Le vle a b → Le vle b a → a = b) :=
  ⟨le_refl L.toAbsLaws, le_trans L.toAbsLaws, le_antisymm L⟩

/-- A larger abstract value describes more. -/
theorem C16_describes_mono [AbsVal V] {vle : V → V → Prop} {vd : V → W → Prop}
    (D : LawfulDesc V vle vd) (a b : PV V N A) (h : Le vle a b) (c : Conc W N A)
    (hd : Describes vd a c) : Describes vd b c :=
  describes_mono D.mono a b c h hd

/-! ## C16: join -/

section C16
variable [AbsVal V] [DecidableEq N] {vle : V → V → Prop} (L : LawfulAbs V vle)

/-- **C16** The invariant that `join_mut` asserts (no sum without tags) holds again afterwards. -/
theorem C16_invariant_kept (a b : PV V N A) (ha : WF a) (hb : WF b) : WF (join a b).1 :=
  join_wf a b ha hb

include L

/-- **C16** Join is the least upper bound, if each function is loaded with one list of arguments. -/
theorem C16_join_lub_partial (φ : N → A) (a b : PV V N A) (ha : WF a) (hb : WF b)
    (haa : ArgsBy φ a) (hba : ArgsBy φ b) :
    Le vle a (join a b).1 ∧ Le vle b (join a b).1 ∧
      ∀ c, Le vle a c → Le vle b c → Le vle (join a b).1 c :=
  ⟨le_join_left L.toAbsLaws a b ha hb, le_join_right L.toAbsLaws a b ha hb haa hba,
    fun c h1 h2 => join_least L.toAbsLaws a b c ha hb h1 h2⟩

/-- **C16** Without that condition, it is still above its first argument, and below every upper
bound. -/
theorem C16_join_least (a b : PV V N A) (ha : WF a) (hb : WF b) :
    Le vle a (join a b).1 ∧ ∀ c, Le vle a c → Le vle b c → Le vle (join a b).1 c :=
  ⟨le_join_left L.toAbsLaws a b ha hb, fun c h1 h2 => join_least L.toAbsLaws a b c ha hb h1 h2⟩

/-- **C16** The join describes every concrete value described by either argument. -/
theorem C16_join_describes_partial {vd : V → W → Prop} (D : LawfulDesc V vle vd) (φ : N → A)
    (a b : PV V N A) (ha : WF a) (hb : WF b) (haa : ArgsBy φ a) (hba : ArgsBy φ b)
    (c : Conc W N A) (h : Describes vd a c ∨ Describes vd b c) : Describes vd (join a b).1 c := by
  rcases h with h | h
  · exact describes_mono D.mono _ _ c (le_join_left L.toAbsLaws a b ha hb) h
  · exact describes_mono D.mono _ _ c (le_join_right L.toAbsLaws a b ha hb haa hba) h

/-- **C16** Join is idempotent. -/
theorem C16_join_idempotent (a : PV V N A) (ha : WF a) : (join a a).1 = a :=
  le_antisymm L _ _ (join_wf a a ha ha) ha (join_least L.toAbsLaws a a a ha ha (le_refl L.toAbsLaws a ha) (le_refl L.toAbsLaws a ha))
    (le_join_left L.toAbsLaws a a ha ha)

/-- **C16** Join is commutative. -/
theorem C16_join_comm_partial (φ : N → A) (a b : PV V N A) (ha : WF a) (hb : WF b)
    (haa : ArgsBy φ a) (hba : ArgsBy φ b) : (join a b).1 = (join b a).1 :=
  le_antisymm L _ _ (join_wf a b ha hb) (join_wf b a hb ha)
    (join_least L.toAbsLaws a b _ ha hb (le_join_right L.toAbsLaws b a hb ha hba haa) (le_join_left L.toAbsLaws b a hb ha))
    (join_least L.toAbsLaws b a _ hb ha (le_join_right L.toAbsLaws a b ha hb haa hba) (le_join_left L.toAbsLaws a b ha hb))

/-- **C16** Join is associative. -/
theorem C16_join_assoc_partial (φ : N → A) (a b c : PV V N A) (ha : WF a) (hb : WF b) (hc : WF c)
    (haa : ArgsBy φ a) (hba : ArgsBy φ b) (hca : ArgsBy φ c) :
    (join (join a b).1 c).1 = (join a (join b c).1).1 := by
  have wab := join_wf a b ha hb
  have wbc := join_wf b c hb hc
  have aab := join_args a b ha hb haa hba
  have abc := join_args b c hb hc hba hca
  have l1 := le_join_left L.toAbsLaws (join a b).1 c wab hc
  have r1 := le_join_right L.toAbsLaws (join a b).1 c wab hc aab hca
  have l2 := le_join_left L.toAbsLaws a (join b c).1 ha wbc
  have r2 := le_join_right L.toAbsLaws a (join b c).1 ha wbc haa abc
  refine le_antisymm L _ _ (join_wf _ c wab hc) (join_wf a _ ha wbc) ?_ ?_
  · refine join_least L.toAbsLaws _ c _ wab hc (join_least L.toAbsLaws a b _ ha hb l2 ?_) ?_
    · exact le_trans L.toAbsLaws _ _ _ (le_join_left L.toAbsLaws b c hb hc) r2
    · exact le_trans L.toAbsLaws _ _ _ (le_join_right L.toAbsLaws b c hb hc hba hca) r2
  · refine join_least L.toAbsLaws a _ _ ha wbc ?_ (join_least L.toAbsLaws b c _ hb hc ?_ r1)
    · exact le_trans L.toAbsLaws _ _ _ (le_join_left L.toAbsLaws a b ha hb) l1
    · exact le_trans L.toAbsLaws _ _ _ (le_join_right L.toAbsLaws a b ha hb haa hba) l1

end C16

/-- The theorems apply to the two example values, which are joined to a third. -/
example : (join exA exB).1 =
    psum [(0, [value 1, top]), (2, [func 7 8]), (3, [psum [(1, [])]])] ∧
    (join exB exA).1 = (join exA exB).1 ∧
    Describes (fun v w => w = v) (join exA exB).1 (.sum 0 [.val 1, .func 5 5]) :=
  ⟨rfl, rfl, by
    have : (join exA exB).1 =
      psum [(0, [value 1, top]), (2, [func 7 8]), (3, [psum [(1, [])]])] := rfl
    rw [this]
    simp [Describes, DescribesRows, DescribesRow]⟩
example := C16_join_lub_partial natLawful _ exA exB exA_wf exB_wf exA_args exB_args

/-- **C16** The full property fails: joining one function loaded with two different argument lists
keeps the first and reports no change, so that the result does not describe the second, and join is
not commutative. -/
theorem C16_function_args_refuted :
    (join (func 0 1 : P) (func 0 2)) = (func 0 1, false) ∧
    (join (func 0 2 : P) (func 0 1)) = (func 0 2, false) ∧
    (∀ vd : Nat → Nat → Prop, Describes vd (func 0 2 : P) (.func 0 2) ∧
      ¬ Describes vd (join (func 0 1 : P) (func 0 2)).1 (.func 0 2)) := by
  refine ⟨rfl, rfl, fun vd => ⟨by simp [Describes], ?_⟩⟩
  have : (join (func 0 1 : P) (func 0 2)).1 = func 0 1 := rfl
  rw [this]; simp [Describes]

/-! ## C17: meet -/

section C17
variable [AbsVal V] [DecidableEq N] {vle : V → V → Prop} (L : LawfulAbs V vle)

/-- **C17** The invariant asserted by `meet_mut` holds again afterwards. -/
theorem C17_invariant_kept (a b : PV V N A) (ha : WF a) (hb : WF b) : WF (meet a b).1 :=
  meet_wf a b ha hb

/-- **C17** For two values of one type, the meet describes every value that both describe. -/
theorem C17_meet_describes_partial {vd : V → W → Prop} (D : LawfulDesc V vle vd) (t : Shape)
    (a b : PV V N A) (ha : WF a) (hb : WF b) (fa : Fits a t) (fb : Fits b t) (c : Conc W N A)
    (h1 : Describes vd a c) (h2 : Describes vd b c) : Describes vd (meet a b).1 c :=
  meet_describes D a b c t ha hb fa fb h1 h2

include L

/-- **C17** The meet is below its first argument, whatever the arguments. -/
theorem C17_meet_le_left (a b : PV V N A) (ha : WF a) (hb : WF b) : Le vle (meet a b).1 a :=
  meet_le_left L.toAbsLaws a b ha hb

/-- **C17** The meet is below its second argument too, if each function is loaded with one list of
arguments; and for two values of one type it is the greatest such value. -/
theorem C17_meet_glb_partial (φ : N → A) (a b : PV V N A) (ha : WF a) (hb : WF b)
    (haa : ArgsBy φ a) (hba : ArgsBy φ b) :
    Le vle (meet a b).1 a ∧ Le vle (meet a b).1 b ∧
      ∀ t, Fits a t → Fits b t → ∀ c, WF c → Le vle c a → Le vle c b → Le vle c (meet a b).1 :=
  ⟨meet_le_left L.toAbsLaws a b ha hb, meet_le_right L.toAbsLaws a b ha hb haa hba,
    fun t fa fb c hc h1 h2 => meet_greatest L.toAbsLaws a b c t ha hb hc fa fb h1 h2⟩

/-- **C17** Absorption: joining the meet back changes nothing, and so does meeting the join. -/
theorem C17_absorption_partial (φ : N → A) (t : Shape) (a b : PV V N A) (ha : WF a) (hb : WF b)
    (haa : ArgsBy φ a) (hba : ArgsBy φ b) :
    (join a (meet a b).1).1 = a ∧ (Fits a t → Fits (join a b).1 t → (meet a (join a b).1).1 = a) := by
  have wm := meet_wf a b ha hb
  have wj := join_wf a b ha hb
  constructor
  · exact le_antisymm L _ _ (join_wf a _ ha wm) ha
      (join_least L.toAbsLaws _ _ _ ha wm (le_refl L.toAbsLaws a ha) (meet_le_left L.toAbsLaws a b ha hb))
      (le_join_left L.toAbsLaws a _ ha wm)
  · intro fa fj
    exact le_antisymm L _ _ (meet_wf a _ ha wj) ha (meet_le_left L.toAbsLaws a _ ha wj)
      (meet_greatest L.toAbsLaws a _ a t ha wj ha fa fj (le_refl L.toAbsLaws a ha) (le_join_left L.toAbsLaws a b ha hb))

end C17

/-- The meet of the example values. -/
example : (meet exA exB).1 = psum [(0, [value 1, bottom])] := rfl
example := C17_meet_glb_partial natLawful _ exA exB exA_wf exB_wf exA_args exB_args
example : Fits exA exT ∧ Fits exB exT := ⟨exA_fits, exB_fits⟩
/-- A concrete value described by both of two sums of one type. -/
example : Describes (fun v w => w = v) (psum [(0, [top]), (1, [])] : P) (.sum 0 [.val 3]) ∧
    Describes (fun v w => w = v) (psum [(0, [value 3]), (2, [])] : P) (.sum 0 [.val 3]) := by
  simp [Describes, DescribesRows, DescribesRow]

/-- **C17** The full property fails for values of different types: if some common tag has rows of
different lengths, the meet is ⊥, although both describe a value with another tag. -/
theorem C17_length_mismatch_refuted :
    let a : P := psum [(0, []), (1, [])]
    let b : P := psum [(0, []), (1, [top])]
    (∀ vd : Nat → Nat → Prop, Describes vd a (.sum 0 []) ∧ Describes vd b (.sum 0 [])) ∧
    (meet a b).1 = bottom ∧ WF a ∧ WF b := by
  refine ⟨fun vd => ?_, rfl, ?_, ?_⟩ <;>
    simp [Describes, DescribesRows, DescribesRow, WF, WFRows, WFRow, BmSorted]

/-- **C17** ... and for one function loaded with different arguments: the meet is not below the
second. -/
theorem C17_function_args_refuted :
    (meet (func 0 1 : P) (func 0 2)) = (func 0 1, false) ∧
    ¬ Le (· = ·) (meet (func 0 1 : P) (func 0 2)).1 (func 0 2) := by
  refine ⟨rfl, ?_⟩
  have : (meet (func 0 1 : P) (func 0 2)).1 = func 0 1 := rfl
  rw [this]; simp [Le]

/-! ## C18: the change flags -/

section C18
variable [AbsVal V] [DecidableEq N] {vle : V → V → Prop} (L : LawfulAbs V vle)
include L

/-- **C18** `join_mut` returns true exactly if it changed the value. -/
theorem C18_join_flag (a b : PV V N A) (ha : WF a) (hb : WF b) :
    (join a b).2 = true ↔ (join a b).1 ≠ a :=
  join_flag L.toAbsLaws a b ha hb

/-- **C18** `meet_mut` returns true whenever it changed the value. -/
theorem C18_meet_flag_partial (a b : PV V N A) (ha : WF a) (hb : WF b)
    (h : (meet a b).1 ≠ a) : (meet a b).2 = true := by
  by_contra hf
  exact h (meet_unchanged L.toAbsLaws a b ha hb (by simpa using hf))

end C18

example : (join exA exB).2 = true ∧ (join exA exA).2 = false ∧ (meet exA exB).2 = true ∧
    (meet exA exA).2 = false := ⟨rfl, rfl, rfl, rfl⟩

/-- **C18** `meet_mut` also returns true if nothing changed, when the other value has tags this one
does not have. -/
theorem C18_meet_flag_refuted :
    meet (psum [(0, [])] : P) (psum [(0, []), (1, [])]) = (psum [(0, [])], true) := rfl

/-! ## C19: comparison -/

section C19
variable [DecidableEq V] [DecidableEq N] [DecidableEq A]

/-- Joining `a` into `b` leaves `b` unchanged exactly if `a` is below `b` in the lattice order. -/
theorem C19_unchanged_iff_le [AbsVal V] {vle : V → V → Prop} (L : LawfulAbs V vle) (φ : N → A)
    (a b : PV V N A) (ha : WF a) (hb : WF b) (haa : ArgsBy φ a) (hba : ArgsBy φ b) :
    (join b a).1 = b ↔ Le vle a b := by
  constructor
  · intro h
    have := le_join_right L.toAbsLaws b a hb ha hba haa
    rwa [h] at this
  · intro h
    exact le_antisymm L _ _ (join_wf b a hb ha) hb
      (join_least L.toAbsLaws b a b hb ha (le_refl L.toAbsLaws b hb) h) (le_join_left L.toAbsLaws b a hb ha)

/-- **C19** For leaves with the default (equality) operations: if joining `a` into `b` leaves `b`
unchanged then `a <= b`, whatever the order in which hash maps are iterated. Missing: the converse,
refuted below. -/
theorem C19_cmp_complete_partial
    (pick : List (Nat × Option Ordering) → List (Nat × Option Ordering))
    (hp : ∀ l, (pick l).Perm l) (φ : N → A) (a b : PV V N A) (ha : WF a) (hb : WF b)
    (haa : ArgsBy φ a) (hba : ArgsBy φ b) :
    (@join V N A (AbsVal.default V) _ b a).1 = b →
      partialCmp pick a b = some .lt ∨ partialCmp pick a b = some .eq := by
  intro h
  letI := AbsVal.default V
  exact cmp_of_le hp a b ha hb
    ((C19_unchanged_iff_le (lawful_default V) φ a b ha hb haa hba).1 h)

/-- **C19** Two values compare as equal exactly if they are equal. -/
theorem C19_cmp_equal (pick : List (Nat × Option Ordering) → List (Nat × Option Ordering))
    (hp : ∀ l, (pick l).Perm l) (a b : PV V N A) (ha : WF a) (hb : WF b) :
    partialCmp pick a b = some .eq ↔ a = b :=
  cmp_eq_iff hp a b ha hb

end C19

example : (join exA (psum [(0, [bottom, bottom])])).1 = exA ∧
    partialCmp id (psum [(0, [bottom, bottom])]) exA = some .lt := ⟨rfl, rfl⟩

/-- **C19** The comparison claims more than the lattice order: a sum with tag 1 only is "less" than
one with tag 0 only, and of two rows the first difference decides. -/
theorem C19_cmp_refuted :
    partialCmp id (psum [(1, [])] : P) (psum [(0, [])]) = some .lt ∧
    (join (psum [(0, [])] : P) (psum [(1, [])])).1 ≠ psum [(0, [])] ∧
    partialCmp id (psum [(0, [bottom, top])] : P) (psum [(0, [top, bottom])]) = some .lt ∧
    (join (psum [(0, [top, bottom])] : P) (psum [(0, [bottom, top])])).1
      ≠ psum [(0, [top, bottom])] := by
  refine ⟨rfl, ?_, rfl, ?_⟩
  · have : (join (psum [(0, [])] : P) (psum [(1, [])])).1 = psum [(0, []), (1, [])] := rfl
    rw [this]; simp
  · have : (join (psum [(0, [top, bottom])] : P) (psum [(0, [bottom, top])])).1 =
      psum [(0, [top, top])] := rfl
    rw [this]; simp

/-- **C19** The outcome depends on the order in which the hash map is iterated: the same two values
are "less" in one order and "greater" in the other. -/
theorem C19_cmp_order_refuted :
    let a : P := psum [(0, [bottom]), (1, [top])]
    let b : P := psum [(0, [top]), (1, [bottom])]
    partialCmp id a b = some .lt ∧ partialCmp List.reverse a b = some .gt := ⟨rfl, rfl⟩

/-! ## C44: what abstract values describe -/

/-- **C44** `contains_bottom` holds exactly if the abstract value describes no concrete value (when
every leaf describes something). -/
theorem C44_contains_bottom (vd : V → W → Prop) (hv : ∀ v, ∃ w, vd v w) (a : PV V N A) :
    a.containsBottom = true ↔ ∀ c : Conc W N A, ¬ Describes vd a c := by
  induction a using induct with
  | hbot => simp [containsBottom, Describes]
  | htop =>
    simp only [containsBottom, Describes, not_true_eq_false, Bool.false_eq_true, false_iff, not_forall]
    exact ⟨.sum 0 [], by simp⟩
  | hfunc n x => simp [containsBottom, Describes]
  | hval v =>
    obtain ⟨w, hw⟩ := hv v
    simp only [containsBottom, Describes, Bool.false_eq_true, false_iff, not_forall, not_not]
    exact ⟨.val w, w, rfl, hw⟩
  | hsum rows ih =>
    have hrow : ∀ k row, (k, row) ∈ rows → (rowContainsBottom row = true ↔
        ∀ xs : List (Conc W N A), ¬ List.Forall₂ (Describes vd) row xs) := by
      intro k row hm
      have hx := ih k row hm
      clear ih hm
      induction row with
      | nil =>
        simp only [rowContainsBottom, Bool.false_eq_true, false_iff, not_forall, not_not]
        exact ⟨[], .nil⟩
      | cons p ps ih2 =>
        have h1 := hx p (List.mem_cons_self ..)
        have h2 := ih2 (fun x hm => hx x (List.mem_cons_of_mem _ hm))
        simp only [rowContainsBottom, Bool.or_eq_true, h1, h2]
        constructor
        · rintro h xs hf
          cases hf with
          | cons hp hps =>
            rcases h with h | h
            · exact h _ hp
            · exact h _ hps
        · intro h
          by_contra hno
          simp only [not_or, not_forall, not_not] at hno
          obtain ⟨⟨c, hc⟩, xs, hxs⟩ := hno
          exact h (c :: xs) (.cons hc hxs)
    have hrows : ∀ rs : List (Nat × List (PV V N A)), (rowsContainBottom rs = true ↔
        ∀ k row, (k, row) ∈ rs → rowContainsBottom row = true) := by
      intro rs
      induction rs with
      | nil => simp [rowsContainBottom]
      | cons e rs ih2 =>
        obtain ⟨k, row⟩ := e
        simp only [rowsContainBottom, Bool.and_eq_true, ih2, List.mem_cons, Prod.mk.injEq]
        constructor
        · rintro ⟨h1, h2⟩ k' row' (⟨rfl, rfl⟩ | h)
          · exact h1
          · exact h2 k' row' h
        · intro h
          exact ⟨h k row (Or.inl ⟨rfl, rfl⟩), fun k' row' hm => h k' row' (Or.inr hm)⟩
    simp only [containsBottom, hrows, Describes, describesRows_iff]
    constructor
    · rintro h c ⟨tag, xs, rfl, row, hm, hf⟩
      exact (hrow tag row hm).1 (h tag row hm) xs hf
    · intro h k row hm
      rw [hrow k row hm]
      intro xs hf
      exact h (.sum k xs) ⟨k, xs, rfl, row, hm, hf⟩

example : containsBottom (psum [(0, [value 1, bottom]), (1, [psum [(4, [bottom])]])] : P) = true ∧
    containsBottom exA = false := ⟨rfl, rfl⟩

/-- **C44** A described sum value has a supported tag. -/
theorem C44_supports_tag (vd : V → W → Prop) (a : PV V N A) (ha : WF a) (tag : Nat)
    (xs : List (Conc W N A)) (h : Describes vd a (.sum tag xs)) : a.supportsTag tag = true := by
  cases a with
  | bottom => simp [Describes] at h
  | top => rfl
  | func => simp [Describes] at h
  | value => simp [Describes] at h
  | psum rows =>
    rw [wf_psum_iff] at ha
    simp only [Describes, describesRows_iff] at h
    obtain ⟨_, _, he, row, hm, _⟩ := h
    simp only [Conc.sum.injEq] at he
    obtain ⟨rfl, rfl⟩ := he
    simp [supportsTag, bmGet_of_mem ha.2.1 hm]

/-- **C44** `variant_values` describes the elements of every described value with that tag, and does
not panic when asked for the number of elements the value has. -/
theorem C44_variant_values (vd : V → W → Prop) (a : PV V N A) (ha : WF a) (tag : Nat)
    (xs : List (Conc W N A)) (h : Describes vd a (.sum tag xs)) :
    ∃ row, a.variantValues tag xs.length = .some row ∧ List.Forall₂ (Describes vd) row xs := by
  cases a with
  | bottom => simp [Describes] at h
  | top =>
    refine ⟨_, rfl, ?_⟩
    clear h
    induction xs with
    | nil => simp
    | cons x xs ih => exact .cons (by simp [Describes]) ih
  | func => simp [Describes] at h
  | value => simp [Describes] at h
  | psum rows =>
    rw [wf_psum_iff] at ha
    simp only [Describes, describesRows_iff] at h
    obtain ⟨_, _, he, row, hm, hf⟩ := h
    simp only [Conc.sum.injEq] at he
    obtain ⟨rfl, rfl⟩ := he
    exact ⟨row, by simp [variantValues, bmGet_of_mem ha.2.1 hm, hf.length_eq], hf⟩

/-- **C44** Conversely, a value described through `supports_tag` and `variant_values` is described. -/
theorem C44_variant_values_sound (vd : V → W → Prop) (a : PV V N A) (tag len : Nat)
    (row : List (PV V N A)) (h : a.variantValues tag len = .some row)
    (xs : List (Conc W N A)) (hf : List.Forall₂ (Describes vd) row xs) :
    xs.length = len ∧ a.supportsTag tag = true ∧ Describes vd a (.sum tag xs) := by
  cases a with
  | bottom => simp [variantValues] at h
  | top =>
    simp only [variantValues, Variant.some.injEq] at h
    subst h
    refine ⟨by simpa using hf.length_eq.symm, rfl, trivial⟩
  | func => simp [variantValues] at h
  | value => simp [variantValues] at h
  | psum rows =>
    simp only [variantValues] at h
    cases hg : bmGet rows tag with
    | none => rw [hg] at h; simp at h
    | some r =>
      rw [hg] at h
      simp only [] at h
      split at h
      · rename_i hl
        simp only [Variant.some.injEq] at h
        subst h
        refine ⟨by rw [← hf.length_eq, hl], by simp [supportsTag, hg], ?_⟩
        simp only [Describes, describesRows_iff]
        exact ⟨tag, xs, rfl, r, bmGet_mem hg, hf⟩
      · simp at h

example : variantValues 0 2 exA = .some [value 1, bottom] ∧ supportsTag 2 exA = true ∧
    supportsTag 1 exA = false := ⟨rfl, rfl, rfl⟩

mutual
/-- What converting a concrete value of the given type means: leaves and functions by the given
functions, sums by converting each element at its type in the variant. -/
def Conc.convert {Ty C : Type} (I : AsConcrete V N A Ty C) : Conc V N A → Ty → Option C
  | .val v, _ => I.fromValue v
  | .func n x, _ => I.fromFunc n x
  | .sum tag xs, t =>
    match I.getVariant t tag with
    | some ts =>
      match Conc.convertRow I xs ts with
      | some cs => I.fromSum tag cs t
      | none => none
    | none => none
/-- Elementwise; `none` if the lengths differ. -/
def Conc.convertRow {Ty C : Type} (I : AsConcrete V N A Ty C) :
    List (Conc V N A) → List Ty → Option (List C)
  | [], [] => some []
  | x :: xs, t :: ts =>
    match Conc.convert I x t, Conc.convertRow I xs ts with
    | some c, some cs => some (c :: cs)
    | _, _ => none
  | _, _ => none
end

/-- **C44** If `try_into_concrete` succeeds, the abstract value describes exactly one concrete value,
and the result is the conversion of that one (each leaf describing just itself). -/
theorem C44_try_into_concrete {Ty C : Type} (I : AsConcrete V N A Ty C) (a : PV V N A) (t : Ty)
    (c : C) (h : a.tryIntoConcrete I t = .ok c) :
    ∃ x : Conc V N A, (∀ y, Describes (fun v w => w = v) a y ↔ y = x) ∧ x.convert I t = some c := by
  induction a using induct generalizing t c with
  | hbot => simp [tryIntoConcrete] at h
  | htop => simp [tryIntoConcrete] at h
  | hfunc n x =>
    refine ⟨.func n x, fun y => by simp [Describes], ?_⟩
    simp only [tryIntoConcrete] at h
    cases hc : I.fromFunc n x <;> rw [hc] at h <;> simp at h
    simp [Conc.convert, hc, h]
  | hval v =>
    refine ⟨.val v, fun y => by simp [Describes], ?_⟩
    simp only [tryIntoConcrete] at h
    cases hc : I.fromValue v <;> rw [hc] at h <;> simp at h
    simp [Conc.convert, hc, h]
  | hsum rows ih =>
    simp only [tryIntoConcrete] at h
    cases rows with
    | nil => simp [tryIntoSum] at h
    | cons e rows =>
      obtain ⟨tag, row⟩ := e
      cases rows with
      | cons => simp [tryIntoSum] at h
      | nil =>
        simp only [tryIntoSum, List.isEmpty_nil, if_true] at h
        cases hv : I.getVariant t tag with
        | none => rw [hv] at h; simp at h
        | some ts =>
          rw [hv] at h
          simp only [] at h
          split at h
          · rename_i hl
            cases hr : tryIntoRow I row ts with
            | error => rw [hr] at h; simp at h
            | ok cs =>
              rw [hr] at h
              simp only [] at h
              cases hs : I.fromSum tag cs t with
              | none => rw [hs] at h; simp at h
              | some c' =>
                rw [hs] at h
                simp only [Except.ok.injEq] at h
                subst h
                have key : ∃ xs, (∀ ys, List.Forall₂ (Describes (fun v w => w = v)) row ys ↔ ys = xs) ∧
                    Conc.convertRow I xs ts = some cs := by
                  have hx := ih tag row (List.mem_cons_self ..)
                  clear ih hs hv
                  induction row generalizing ts cs with
                  | nil =>
                    cases ts with
                    | nil =>
                      simp only [tryIntoRow, Except.ok.injEq] at hr
                      subst hr
                      exact ⟨[], fun ys => by simp, rfl⟩
                    | cons => simp at hl
                  | cons p ps ih2 =>
                    cases ts with
                    | nil => simp at hl
                    | cons t' ts =>
                      simp only [tryIntoRow] at hr
                      cases hp : tryIntoConcrete I p t' with
                      | error => rw [hp] at hr; simp at hr
                      | ok c1 =>
                        rw [hp] at hr
                        simp only [] at hr
                        cases hps : tryIntoRow I ps ts with
                        | error => rw [hps] at hr; simp at hr
                        | ok cs1 =>
                          rw [hps] at hr
                          simp only [Except.ok.injEq] at hr
                          subst hr
                          obtain ⟨x, hx1, hx2⟩ := hx p (List.mem_cons_self ..) t' c1 hp
                          obtain ⟨xs, hxs1, hxs2⟩ := ih2 ts (by simpa using hl) cs1 hps
                            (fun y hm => hx y (List.mem_cons_of_mem _ hm))
                          refine ⟨x :: xs, fun ys => ?_, by simp [Conc.convertRow, hx2, hxs2]⟩
                          cases ys with
                          | nil => simp
                          | cons y ys => simp [hx1, hxs1]
                obtain ⟨xs, hxs, hcv⟩ := key
                refine ⟨.sum tag xs, fun y => ?_, by simp [Conc.convert, hv, hcv, hs]⟩
                simp only [Describes, describesRows_iff, List.mem_singleton, Prod.mk.injEq]
                constructor
                · rintro ⟨tag', ys, rfl, row', ⟨rfl, rfl⟩, hf⟩
                  rw [(hxs ys).1 hf]
                · rintro rfl
                  exact ⟨tag, xs, rfl, row, ⟨rfl, rfl⟩, (hxs xs).2 rfl⟩
          · simp at h

/-- A conversion that succeeds: sum types are numbers, whose only variant has that many elements
(of type 0), and concrete values count the leaves. -/
example : tryIntoConcrete (Ty := Nat) (C := Nat)
    ⟨fun v => some v, fun _ _ => none, fun tag cs _ => some (tag + cs.sum),
      fun t _ => some (List.replicate t 0)⟩
    (psum [(5, [value 1, value 2])] : P) 2 = .ok 8 := rfl

end Verif.Dataflow
