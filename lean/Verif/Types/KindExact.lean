import Mathlib.Data.List.Forall2
import Verif.Types.Kinds
import Verif.Types.BoundProps
/-
C07: what kind checking decides, for literal arguments, against an independent description of the
kinds; and the bound of an instantiated extension type (C01).
-/
namespace Verif.Types

/-! ## Specification: which literals have which kind -/

mutual
/-- The literal has the kind: a natural number below the bound, a type that is copyable if the kind
asks for it, a list all of whose elements have the item kind, a tuple whose elements have the kinds
listed, a kind itself for `Static`.  Variables and concatenations are not literals. -/
def HasKind : Term → Term → Prop
  | .runtime t, k => ∃ b, k = .runtimeType b ∧ (b = .copyable → t.bound = .copyable)
  | .boundedNat n, k => k = .boundedNatType none ∨ ∃ m, k = .boundedNatType (some m) ∧ (n < m ∨ n = 0)
  | .string _, k => k = .stringType
  | .bytes _, k => k = .bytesType
  | .float _, k => k = .floatType
  | .list es, k => ∃ item, k = .listType item ∧ AllHaveKind es item
  | .tuple es, k => ∃ ks, k = .tupleType (.list ks) ∧ HaveKinds es ks
  | .variable _ _, _ => False
  | .listConcat _, _ => False
  | .tupleConcat _, _ => False
  | .runtimeType _, k => k = .staticType
  | .staticType, k => k = .staticType
  | .boundedNatType _, k => k = .staticType
  | .stringType, k => k = .staticType
  | .bytesType, k => k = .staticType
  | .floatType, k => k = .staticType
  | .listType _, k => k = .staticType
  | .tupleType _, k => k = .staticType
  | .constType _, k => k = .staticType
/-- All have the same kind. -/
def AllHaveKind : List Term → Term → Prop
  | [], _ => True
  | t :: ts, k => HasKind t k ∧ AllHaveKind ts k
/-- As many as there are kinds, each of its kind. -/
def HaveKinds : List Term → List Term → Prop
  | [], ks => ks = []
  | t :: ts, ks => ∃ k ks', ks = k :: ks' ∧ HasKind t k ∧ HaveKinds ts ks'
end

mutual
/-- No variable and no concatenation, down to the elements of lists and tuples. -/
def Term.literal : Term → Bool
  | .variable _ _ => false
  | .listConcat _ => false
  | .tupleConcat _ => false
  | .list es => literals es
  | .tuple es => literals es
  | _ => true
/-- All literal. -/
def literals : List Term → Bool
  | [] => true
  | t :: ts => t.literal && literals ts
end

mutual
/-- A kind whose tuple kinds list their element kinds. -/
def Term.plainKind : Term → Bool
  | .tupleType t => t.kindList
  | .listType t => t.plainKind
  | _ => true
/-- A literal list of such kinds. -/
def Term.kindList : Term → Bool
  | .list ks => plainKinds ks
  | _ => false
/-- All plain. -/
def plainKinds : List Term → Bool
  | [] => true
  | t :: ts => t.plainKind && plainKinds ts
end

theorem checkTupleItems_map (es ks : List Term) (h : ∀ e ∈ es, ∀ k ∈ ks, (checkTerm e k = true ↔ HasKind e k)) :
    (checkTupleItems es (ks.map .item) = .rest [] ↔ HaveKinds es ks) ∧
    checkTupleItems es (ks.map .item) ≠ .done := by
  induction es generalizing ks with
  | nil => cases ks <;> simp [checkTupleItems, HaveKinds]
  | cons e es ih =>
    cases ks with
    | nil => simp [checkTupleItems, HaveKinds]
    | cons k ks =>
      have hek := h e (by simp) k (by simp)
      have := ih ks (fun e he k hk => h e (by simp [he]) k (by simp [hk]))
      simp only [List.map_cons, checkTupleItems, HaveKinds, List.cons.injEq]
      by_cases hc : checkTerm e k = true
      · simp only [hc, if_true, this.1]
        refine ⟨⟨fun h => ⟨k, ks, ⟨rfl, rfl⟩, hek.1 hc, h⟩, ?_⟩, this.2⟩
        rintro ⟨k', ks', ⟨rfl, rfl⟩, _, h⟩
        exact h
      · rw [if_neg hc]
        refine ⟨⟨fun h => by simp at h, ?_⟩, by simp⟩
        rintro ⟨k', ks', ⟨rfl, rfl⟩, h, _⟩
        exact absurd (hek.2 h) hc

theorem checkItems_all (es : List Term) (k : Term) (hl : literals es = true)
    (h : ∀ e ∈ es, (checkTerm e k = true ↔ HasKind e k)) :
    checkItems es k = true ↔ AllHaveKind es k := by
  induction es with
  | nil => simp [checkItems, AllHaveKind]
  | cons e es ih =>
    simp only [literals, Bool.and_eq_true] at hl
    have hrv : rowVarFits e k = false := by
      cases e <;> first | rfl | simp [Term.literal] at hl
    simp only [checkItems, AllHaveKind, Bool.and_eq_true, Bool.or_eq_true, hrv, Bool.false_eq_true,
      false_or, h e (by simp), ih hl.2 (fun e he => h e (by simp [he]))]

theorem plainKinds_iff (ks : List Term) : plainKinds ks = true ↔ ∀ k ∈ ks, k.plainKind = true := by
  induction ks with
  | nil => simp [plainKinds]
  | cons k ks ih => simp [plainKinds, ih]

theorem literals_iff (ks : List Term) : literals ks = true ↔ ∀ k ∈ ks, k.literal = true := by
  induction ks with
  | nil => simp [literals]
  | cons k ks ih => simp [literals, ih]

/-- **C07** (exactness, partial) A literal argument is accepted for a kind exactly if it has that
kind.  Missing: arguments with variables, whose acceptance is the supertype relation, and with
concatenations, which are misjudged (`C03_list_concat_misjudged`). -/
theorem C07_check_exact_partial (t k : Term) (ht : t.literal = true) (hk : k.plainKind = true) :
    checkTerm t k = true ↔ HasKind t k := by
  revert ht hk
  revert k
  suffices H : ∀ k : Term, k.plainKind = true → t.literal = true →
      (checkTerm t k = true ↔ HasKind t k) from fun k ht hk => H k hk ht
  refine (syntax_induction (P := fun t => ∀ k : Term, k.plainKind = true → t.literal = true →
    (checkTerm t k = true ↔ HasKind t k)) (Q := fun _ => True) (R := fun _ => True)
    ?_ ?_ ?_ ?_ ?_ ?_ ?_ ?_ ?_ ?_ ?_ ?_ ?_ ?_ ?_ ?_ ?_ ?_ ?_ ?_ ?_ ?_ ?_ ?_ ?_ ?_ ?_).1 t
  case refine_9 =>
    intro t _ k _ _
    cases k with
    | runtimeType b =>
      simp only [checkTerm, HasKind, Term.runtimeType.injEq, exists_eq_left']
      cases b <;> cases t.bound <;> simp [Bound.contains]
    | _ => simp [checkTerm, HasKind]
  case refine_10 =>
    intro n k _ _
    cases k with
    | boundedNatType ub =>
      cases ub with
      | none => simp [checkTerm, HasKind, ubValid]
      | some m =>
        simp only [checkTerm, HasKind, ubValid]
        by_cases h : n = 0
        · simp [h]
        · simp [h]
    | _ => simp [checkTerm, HasKind]
  case refine_14 =>
    intro es ih k hk hl
    simp only [Term.literal] at hl
    cases k with
    | listType item =>
      simp only [Term.plainKind] at hk
      simp only [checkTerm, HasKind, Term.listType.injEq, exists_eq_left']
      exact checkItems_all es item hl (fun e he => ih e he item hk ((literals_iff es).1 hl e he))
    | _ => simp [checkTerm, HasKind]
  case refine_16 =>
    intro es ih k hk hl
    simp only [Term.literal] at hl
    cases k with
    | tupleType items =>
      simp only [Term.plainKind] at hk
      cases items with
      | list ks =>
        simp only [Term.kindList] at hk
        have := checkTupleItems_map es ks (fun e he k hkm => ih e he k
          ((plainKinds_iff ks).1 hk k hkm) ((literals_iff es).1 hl e he))
        simp only [checkTerm, HasKind, Term.listParts, Term.tupleType.injEq, Term.list.injEq,
          exists_eq_left', Bool.or_eq_true, beq_iff_eq, this.1, this.2, or_false]
      | _ => simp [Term.kindList] at hk
    | _ => simp [checkTerm, HasKind]
  all_goals first
    | (intros; trivial)
    | (intros; rename_i k _ hl; simp [Term.literal] at hl; done)
    | (intros; rename_i k _ _; cases k <;> simp [checkTerm, HasKind])

/-- A list of pairs, accepted and rejected at the boundary. -/
example : HasKind (.list [.tuple [.runtime (.sumUnit 2), .boundedNat 6]])
      (.listType (.tupleType (.list [.runtimeType .copyable, .boundedNatType (some 7)]))) ∧
    ¬ HasKind (.list [.tuple [.runtime (.sumUnit 2), .boundedNat 7]])
      (.listType (.tupleType (.list [.runtimeType .copyable, .boundedNatType (some 7)]))) := by
  constructor
  · exact (C07_check_exact_partial _ _ (by decide) (by decide)).1 (by decide)
  · exact fun h => absurd ((C07_check_exact_partial _ _ (by decide) (by decide)).2 h) (by decide)

/-! ## Bounds of instantiated extension types -/

theorem argBounds_some (args : List Term) (is : List Nat) (bs : List Bound)
    (h : argBounds args is = some bs) :
    List.Forall₂ (fun i b => ∃ t, args[i]? = some (.runtime t) ∧ b = t.bound) is bs := by
  induction is generalizing bs with
  | nil => simp only [argBounds, Option.some.injEq] at h; subst h; exact .nil
  | cons i is ih =>
    simp only [argBounds] at h
    split at h
    · rename_i t ht
      split at h
      · rename_i bs' hb
        simp only [Option.some.injEq] at h
        subst h
        exact .cons ⟨t, ht, rfl⟩ (ih bs' hb)
      · simp at h
    · simp at h

/-- **C01** (extension types) A successful instantiation of a type definition has accepted all
arguments, and its bound is: the declared one; or, if the definition names parameters, copyable
exactly if all those arguments are copyable types; or linear if it names none. -/
theorem C01_instantiated_bound (d : TypeDef) (e i : String) (args : List Term) (t : Ty)
    (h : d.instantiate e i args = some t) :
    checkTerms args d.params = true ∧ (∃ b, t = .ext e i args b) ∧
    (∀ b, d.bound = .explicit b → t.bound = b) ∧
    (d.bound = .fromParams [] → t.bound = .linear) ∧
    (∀ is, d.bound = .fromParams is → is ≠ [] →
      (t.bound = .copyable ↔ ∀ j ∈ is, ∃ u : Ty, args[j]? = some (.runtime u) ∧ u.bound = .copyable)) := by
  unfold TypeDef.instantiate at h
  split at h
  · rename_i hc
    refine ⟨hc, ?_⟩
    cases hb : d.boundOf args with
    | none => rw [hb] at h; simp at h
    | some b =>
      rw [hb] at h
      simp only [Option.map_some, Option.some.injEq] at h
      subst h
      refine ⟨⟨b, rfl⟩, ?_, ?_, ?_⟩
      · intro b' hd
        simp only [TypeDef.boundOf, hd, Option.some.injEq] at hb
        simp [Ty.bound, hb]
      · intro hd
        simp only [TypeDef.boundOf, hd, Option.some.injEq] at hb
        simp [Ty.bound, hb]
      · intro is hd hne
        cases is with
        | nil => exact absurd rfl hne
        | cons j js =>
          simp only [TypeDef.boundOf, hd] at hb
          cases hab : argBounds args (j :: js) with
          | none => rw [hab] at hb; simp at hb
          | some bs =>
            rw [hab] at hb
            simp only [Option.map_some, Option.some.injEq] at hb
            subst hb
            simp only [Ty.bound, leastUpperBound_copyable]
            have hf := argBounds_some args _ _ hab
            clear hab hd hne
            generalize j :: js = is at hf
            induction hf with
            | nil => simp
            | cons h1 hs ih =>
              obtain ⟨t, ht, rfl⟩ := h1
              simp only [List.mem_cons, forall_eq_or_imp, ih]
              constructor
              · rintro ⟨h1, h2⟩; exact ⟨⟨t, ht, h1⟩, h2⟩
              · rintro ⟨⟨u, hu, h1⟩, h2⟩
                rw [ht] at hu
                simp only [Option.some.injEq, Term.runtime.injEq] at hu
                subst hu; exact ⟨h1, h2⟩
  · simp at h

example : ((TypeDef.mk [.runtimeType .linear, .boundedNatType none] (.fromParams [0])).instantiate
    "e" "i" [.runtime (.alias "q" .linear), .boundedNat 3]) =
      some (.ext "e" "i" [.runtime (.alias "q" .linear), .boundedNat 3] .linear) := by rfl

end Verif.Types
