import Mathlib.Data.List.Forall2
import Verif.Types.BoundProps
import Verif.Types.PartsProps
import Verif.Types.Kinds
/-
Lemmas on substitution: the fragment on which it behaves, preservation of bounds and of kinds.
-/
namespace Verif.Types

/-! ## The fragment -/

mutual
/-- Kinds that contain no list of lists of types.  `Term::substitute` takes a list whose first
element is a variable of kind list-of-types for a list of types and splices it
(hugr-core/src/types/type_param.rs:409-423), also when it is a list of lists of types. -/
def Term.kindOk : Term → Bool
  | .listType t => (rowVarBound t).isNone && t.kindOk
  | .tupleType t => t.kindOk
  | .list es => kindsOk es
  | .listConcat es => kindsOk es
  | _ => true
def kindsOk : List Term → Bool
  | [] => true
  | t :: ts => t.kindOk && kindsOk ts
end

mutual
/-- Terms without list and tuple concatenations, in which lists starting with a type contain only
types (and type-list variables), and in which variables are declared with kinds as above and are
never declared with a runtime-type kind (those are type variables). -/
def Term.plain : Term → Bool
  | .listType t => t.plain
  | .tupleType t => t.plain
  | .runtime t => t.plain
  | .list es => plainTerms es && (!areTypes es || es.all Term.isTypeElem)
  | .tuple es => plainTerms es
  | .listConcat _ => false
  | .tupleConcat _ => false
  | .variable _ d => !d.isRuntimeType && d.kindOk
  | .constType t => t.plain
  | _ => true
def plainTerms : List Term → Bool
  | [] => true
  | t :: ts => t.plain && plainTerms ts
def Ty.plain : Ty → Bool
  | .ext _ _ args _ => plainTerms args
  | .function i o => plainRow i && plainRow o
  | .sumGen rows _ => plainRows rows
  | _ => true
def RTy.plain : RTy → Bool
  | .ty t => t.plain
  | .rowVar _ _ => true
def plainRow : List RTy → Bool
  | [] => true
  | t :: ts => t.plain && plainRow ts
def plainRows : List (List RTy) → Bool
  | [] => true
  | r :: rs => plainRow r && plainRows rs
end

theorem kindsOk_iff (ts : List Term) : kindsOk ts = true ↔ ∀ t ∈ ts, t.kindOk = true := by
  induction ts with
  | nil => simp [kindsOk]
  | cons t ts ih => simp [kindsOk, ih]
theorem plainTerms_iff (ts : List Term) : plainTerms ts = true ↔ ∀ t ∈ ts, t.plain = true := by
  induction ts with
  | nil => simp [plainTerms]
  | cons t ts ih => simp [plainTerms, ih]
theorem plainRow_iff (ts : List RTy) : plainRow ts = true ↔ ∀ t ∈ ts, t.plain = true := by
  induction ts with
  | nil => simp [plainRow]
  | cons t ts ih => simp [plainRow, ih]
theorem plainRows_iff (ts : List (List RTy)) :
    plainRows ts = true ↔ ∀ r ∈ ts, ∀ t ∈ r, t.plain = true := by
  induction ts with
  | nil => simp [plainRows]
  | cons t ts ih => simp [plainRows, ih, plainRow_iff]

/-! ## Success of substitution on sequences -/

theorem substTerms_some {env : Env} {σ : List Term} {ts ts' : List Term} :
    substTerms env σ ts = some ts' ↔
      List.Forall₂ (fun t t' => t.subst env σ = some t') ts ts' := by
  induction ts generalizing ts' with
  | nil => cases ts' <;> simp [substTerms]
  | cons t ts ih =>
    simp only [substTerms]
    cases h1 : t.subst env σ with
    | none =>
      simp only [reduceCtorEq, false_iff]
      intro h; cases h with | cons h _ => simp [h1] at h
    | some a =>
      cases h2 : substTerms env σ ts with
      | none =>
        simp only [reduceCtorEq, false_iff]
        intro h
        cases h with
        | cons _ h => rw [← ih] at h; simp [h2] at h
      | some as =>
        simp only [Option.some.injEq]
        constructor
        · rintro rfl; exact .cons h1 (ih.mp h2)
        · intro h
          cases h with
          | cons ha hb =>
            rw [← ih, h2] at hb
            rw [h1] at ha
            simp_all

theorem substRow_some {env : Env} {σ : List Term} {r r' : List RTy} :
    substRow env σ r = some r' ↔
      ∃ rs, List.Forall₂ (fun t t' => t.subst env σ = some t') r rs ∧ r' = rs.flatten := by
  induction r generalizing r' with
  | nil =>
    simp only [substRow, Option.some.injEq, List.forall₂_nil_left_iff, exists_eq_left,
      List.flatten_nil]
    exact eq_comm
  | cons t ts ih =>
    simp only [substRow]
    cases h1 : t.subst env σ with
    | none =>
      simp only [reduceCtorEq, false_iff]
      rintro ⟨rs, h, _⟩
      cases h with
      | cons h _ => simp [h1] at h
    | some a =>
      cases h2 : substRow env σ ts with
      | none =>
        simp only [reduceCtorEq, false_iff]
        rintro ⟨rs, h, _⟩
        cases h with
        | cons _ h => have := ih.mpr ⟨_, h, rfl⟩; simp [h2] at this
      | some as =>
        simp only [Option.some.injEq]
        constructor
        · rintro rfl
          obtain ⟨rs, h3, h4⟩ := ih.mp h2
          exact ⟨a :: rs, .cons h1 h3, by simp [h4]⟩
        · rintro ⟨rs, h, rfl⟩
          cases h with
          | cons ha hb =>
            have h5 := ih.mpr ⟨_, hb, rfl⟩
            rw [h2] at h5
            rw [h1] at ha
            simp_all

theorem substRows_some {env : Env} {σ : List Term} {rs rs' : List (List RTy)} :
    substRows env σ rs = some rs' ↔
      List.Forall₂ (fun r r' => substRow env σ r = some r') rs rs' := by
  induction rs generalizing rs' with
  | nil => cases rs' <;> simp [substRows]
  | cons t ts ih =>
    simp only [substRows]
    cases h1 : substRow env σ t with
    | none =>
      simp only [reduceCtorEq, false_iff]
      intro h; cases h with | cons h _ => simp [h1] at h
    | some a =>
      cases h2 : substRows env σ ts with
      | none =>
        simp only [reduceCtorEq, false_iff]
        intro h
        cases h with
        | cons _ h => rw [← ih] at h; simp [h2] at h
      | some as =>
        simp only [Option.some.injEq]
        constructor
        · rintro rfl; exact .cons h1 (ih.mp h2)
        · intro h
          cases h with
          | cons ha hb =>
            rw [← ih, h2] at hb
            rw [h1] at ha
            simp_all

theorem applyVar_some {σ : List Term} {i : Nat} {d t : Term} (h : applyVar σ i d = some t) :
    σ[i]? = some t ∧ checkTerm t d = true := by
  unfold applyVar at h
  cases hs : σ[i]? with
  | none => simp [hs] at h
  | some a =>
    simp only [hs] at h
    split at h
    · cases h; exact ⟨rfl, by assumption⟩
    · cases h

theorem applyRowVar_some {σ : List Term} {i : Nat} {b : Bound} {r : List RTy}
    (h : applyRowVar σ i b = some r) :
    ∃ es, σ[i]? = some (.list es) ∧ checkTerm (.list es) (.listType (.runtimeType b)) = true ∧
      rowElems es = some r := by
  unfold applyRowVar at h
  cases hs : σ[i]? with
  | none => simp [hs] at h
  | some a =>
    simp only [hs] at h
    split at h
    · next hc => split at h <;> first | (cases h; done) | exact ⟨_, rfl, hc, h⟩
    · cases h

theorem rowElems_some {es : List Term} {r : List RTy} :
    rowElems es = some r ↔ List.Forall₂ (fun e x => rowElem e = some x) es r := by
  induction es generalizing r with
  | nil => cases r <;> simp [rowElems]
  | cons t ts ih =>
    simp only [rowElems]
    cases h1 : rowElem t with
    | none =>
      simp only [reduceCtorEq, false_iff]
      intro h; cases h with | cons h _ => simp [h1] at h
    | some a =>
      cases h2 : rowElems ts with
      | none =>
        simp only [reduceCtorEq, false_iff]
        intro h
        cases h with
        | cons _ h => rw [← ih] at h; simp [h2] at h
      | some as =>
        simp only [Option.some.injEq]
        constructor
        · rintro rfl; exact .cons h1 (ih.mp h2)
        · intro h
          cases h with
          | cons ha hb =>
            rw [← ih, h2] at hb
            rw [h1] at ha
            simp_all

theorem forall₂_mem_right {α β : Type} {R : α → β → Prop} {as : List α} {bs : List β}
    (h : List.Forall₂ R as bs) : ∀ b ∈ bs, ∃ a ∈ as, R a b := by
  induction h with
  | nil => simp
  | cons hr _ ih =>
    intro b hb
    rcases List.mem_cons.mp hb with rfl | hb
    · exact ⟨_, by simp, hr⟩
    · obtain ⟨a, ha, hr'⟩ := ih b hb; exact ⟨a, by simp [ha], hr'⟩

theorem checkItems_iff (es : List Term) (k : Term) :
    checkItems es k = true ↔ ∀ e ∈ es, rowVarFits e k = true ∨ checkTerm e k = true := by
  induction es with
  | nil => simp [checkItems]
  | cons e es ih => simp [checkItems, ih]

/-! ## What fits a kind of types -/

/-- `e` is a type within the bound, or a type-list variable within the bound. -/
def ElemFits (e : Term) (b : Bound) : Prop :=
  (∃ t : Ty, e = .runtime t ∧ b.contains t.bound = true) ∨
  (∃ j b', e = .variable j (.listType (.runtimeType b')) ∧ b.contains b' = true)

theorem rowVarBound_some {d : Term} {b : Bound} (h : rowVarBound d = some b) :
    d = .listType (.runtimeType b) := by
  unfold rowVarBound at h
  split at h
  · cases h; rfl
  · cases h

theorem rowVarFits_some {e : Term} {b : Bound} (h : rowVarFits e (.runtimeType b) = true) :
    ∃ j b', e = .variable j (.listType (.runtimeType b')) ∧ b.contains b' = true := by
  cases e <;> simp [rowVarFits] at h
  rename_i j d
  split at h
  · next b' hb => exact ⟨j, b', by rw [rowVarBound_some hb], h⟩
  · cases h

theorem isSupertype_runtimeType {b : Bound} {d : Term}
    (h : (Term.runtimeType b).isSupertype d = true) :
    ∃ b', d = .runtimeType b' ∧ b.contains b' = true := by
  cases d <;> simp [Term.isSupertype] at h
  exact ⟨_, rfl, h⟩

theorem elemFits_of_check {e : Term} {b : Bound} (hp : e.plain = true)
    (h : rowVarFits e (.runtimeType b) = true ∨ checkTerm e (.runtimeType b) = true) :
    ElemFits e b := by
  rcases h with h | h
  · exact .inr (rowVarFits_some h)
  · cases e with
    | runtime t => exact .inl ⟨t, rfl, by simpa [checkTerm] using h⟩
    | «variable» j d =>
      simp only [checkTerm] at h
      obtain ⟨b', rfl, _⟩ := isSupertype_runtimeType h
      simp [Term.plain, Term.isRuntimeType] at hp
    | _ => simp [checkTerm] at h

theorem check_of_elemFits {e : Term} {b : Bound} (h : ElemFits e b) :
    rowVarFits e (.runtimeType b) = true ∨ checkTerm e (.runtimeType b) = true := by
  rcases h with ⟨t, rfl, h⟩ | ⟨j, b', rfl, h⟩
  · exact .inr (by simpa [checkTerm] using h)
  · exact .inl (by simpa [rowVarFits, rowVarBound] using h)

theorem elemFits_isTypeElem {e : Term} {b : Bound} (h : ElemFits e b) : e.isTypeElem = true := by
  rcases h with ⟨t, rfl, h⟩ | ⟨j, b', rfl, h⟩ <;> simp [Term.isTypeElem, rowVarBound]

theorem elemFits_mono {e : Term} {b b' : Bound} (hb : b'.contains b = true) (h : ElemFits e b) :
    ElemFits e b' := by
  rcases h with ⟨t, rfl, h⟩ | ⟨j, c, rfl, h⟩
  · exact .inl ⟨t, rfl, contains_trans hb h⟩
  · exact .inr ⟨j, c, rfl, contains_trans hb h⟩

theorem plain_list {es : List Term} (h : (Term.list es).plain = true) :
    ∀ e ∈ es, e.plain = true := by
  simp only [Term.plain, Bool.and_eq_true] at h
  exact (plainTerms_iff es).mp h.1

/-- A plain argument accepted for a list of types is a list of types or a type-list variable. -/
theorem typeList_arg {t : Term} {b : Bound} (hp : t.plain = true)
    (h : checkTerm t (.listType (.runtimeType b)) = true) :
    (∃ es, t = .list es ∧ ∀ e ∈ es, ElemFits e b) ∨
    (∃ j b', t = .variable j (.listType (.runtimeType b')) ∧ b.contains b' = true) := by
  cases t with
  | list es =>
    refine .inl ⟨es, rfl, fun e he => ?_⟩
    simp only [checkTerm] at h
    exact elemFits_of_check (plain_list hp e he) ((checkItems_iff _ _).mp h e he)
  | «variable» j d =>
    refine .inr ?_
    simp only [checkTerm] at h
    cases d <;> simp [Term.isSupertype] at h
    obtain ⟨b', rfl, hb⟩ := isSupertype_runtimeType h
    exact ⟨j, b', rfl, hb⟩
  | listConcat _ => simp [Term.plain] at hp
  | _ => simp [checkTerm] at h

theorem isTypeElem_cases {e : Term} (h : e.isTypeElem = true) :
    (∃ t, e = .runtime t) ∨ (∃ j b, e = .variable j (.listType (.runtimeType b))) := by
  cases e <;> simp [Term.isTypeElem] at h
  · exact .inl ⟨_, rfl⟩
  · rename_i j d
    obtain ⟨b, hb⟩ := Option.isSome_iff_exists.mp h
    exact .inr ⟨j, b, by rw [rowVarBound_some hb]⟩

/-! ## Lists of substituted elements -/

/-- Splicing list elements into the list, if it is a list of types. -/
def spliceElem (types : Bool) : Term → List Term
  | .list es => if types then es else [.list es]
  | t => [t]

def spliceElems (types : Bool) (es : List Term) : List Term := es.flatMap (spliceElem types)

def Term.isListConcat : Term → Bool
  | .listConcat _ => true
  | _ => false

theorem newList_splice (types : Bool) (es : List Term)
    (h : ∀ e ∈ es, e.isListConcat = false) :
    newListFromParts (es.map (listElemPart types)) = .list (spliceElems types es) := by
  have e1 : (es.map (listElemPart types)).flatMap SeqPart.listExpand
      = (spliceElems types es).map .item := by
    induction es with
    | nil => rfl
    | cons e es ih =>
      have hx := ih (fun x hx => h x (by simp [hx]))
      have he := h e (by simp)
      simp only [List.map_cons, List.flatMap_cons, spliceElems, List.map_append] at hx ⊢
      rw [hx]
      congr 1
      cases e <;> first
        | (simp [Term.isListConcat] at he; done)
        | (cases types <;> simp [listElemPart, SeqPart.listExpand, spliceElem, Term.listParts])
  unfold newListFromParts
  rw [e1, newSeq_items]

theorem spliceElems_false (es : List Term) : spliceElems false es = es := by
  induction es with
  | nil => rfl
  | cons e es ih =>
    simp only [spliceElems, List.flatMap_cons] at ih ⊢
    rw [ih]
    cases e <;> simp [spliceElem]

theorem plain_not_concat {e : Term} (h : e.plain = true) : e.isListConcat = false := by
  cases e <;> simp [Term.plain] at h <;> rfl

theorem subst_list_plain {env : Env} {σ : List Term} {es : List Term} {t' : Term}
    (h : (Term.list es).subst env σ = some t')
    (hp : ∀ es', substTerms env σ es = some es' → ∀ e ∈ es', e.plain = true) :
    ∃ es', substTerms env σ es = some es' ∧ t' = .list (spliceElems (areTypes es) es') := by
  simp only [Term.subst] at h
  cases hs : substTerms env σ es with
  | none => simp [hs] at h
  | some es' =>
    simp only [hs, Option.some.injEq] at h
    refine ⟨es', rfl, ?_⟩
    rw [← h, newList_splice]
    intro e he
    exact plain_not_concat (hp es' hs e he)

/-! ## Substitution keeps terms plain -/

theorem subst_typeElem {env : Env} {σ : List Term} (hσ : ∀ s ∈ σ, s.plain = true) {e e' : Term}
    (he : e.isTypeElem = true) (h : e.subst env σ = some e') :
    (∃ t t' : Ty, e = .runtime t ∧ e' = .runtime t' ∧ t.subst env σ = some t') ∨
    (∃ j b, e = .variable j (.listType (.runtimeType b)) ∧ σ[j]? = some e' ∧
      ((∃ es, e' = .list es ∧ ∀ x ∈ es, ElemFits x b) ∨
       (∃ j' b', e' = .variable j' (.listType (.runtimeType b')) ∧ b.contains b' = true))) := by
  rcases isTypeElem_cases he with ⟨t, rfl⟩ | ⟨j, b, rfl⟩
  · refine .inl ?_
    simp only [Term.subst] at h
    cases ht : t.subst env σ with
    | none => simp [ht] at h
    | some t' => simp only [ht, Option.some.injEq] at h; exact ⟨t, t', rfl, h.symm, ht⟩
  · refine .inr ⟨j, b, rfl, ?_⟩
    simp only [Term.subst] at h
    obtain ⟨h1, h2⟩ := applyVar_some h
    exact ⟨h1, typeList_arg (hσ e' (List.mem_of_getElem? h1)) h2⟩

/-- The elements spliced from one substituted element of a list of types are types again. -/
theorem subst_typeElem_splice {env : Env} {σ : List Term} (hσ : ∀ s ∈ σ, s.plain = true)
    {e e' : Term} (he : e.isTypeElem = true) (h : e.subst env σ = some e') :
    ∀ x ∈ spliceElem true e', x.isTypeElem = true := by
  intro x hx
  rcases subst_typeElem hσ he h with ⟨t, t', rfl, rfl, _⟩ | ⟨j, b, rfl, _, ⟨es, rfl, hes⟩ | ⟨j', b', rfl, _⟩⟩
  · simp only [spliceElem, List.mem_singleton] at hx; subst hx; rfl
  · simp only [spliceElem, if_true] at hx
    exact elemFits_isTypeElem (hes x hx)
  · simp only [spliceElem, List.mem_singleton] at hx; subst hx; rfl

/-- A term that is not a type does not become one. -/
theorem subst_not_typeElem {env : Env} {σ : List Term} (hσ : ∀ s ∈ σ, s.plain = true)
    {e e' : Term} (hp : e.plain = true) (he : e.isTypeElem = false)
    (h : e.subst env σ = some e') : e'.isTypeElem = false := by
  cases e with
  | runtime t => simp [Term.isTypeElem] at he
  | «variable» j d =>
    simp only [Term.subst] at h
    obtain ⟨h1, h2⟩ := applyVar_some h
    have hp' := hσ e' (List.mem_of_getElem? h1)
    simp only [Term.isTypeElem] at he
    simp only [Term.plain, Bool.and_eq_true, Bool.not_eq_true'] at hp
    cases he' : e'.isTypeElem with
    | false => rfl
    | true =>
      exfalso
      rcases isTypeElem_cases he' with ⟨t, rfl⟩ | ⟨j', b, rfl⟩
      · cases d <;> simp [checkTerm] at h2
        simp [Term.isRuntimeType] at hp
      · simp only [checkTerm] at h2
        cases d <;> simp [Term.isSupertype] at h2
        rename_i d
        cases d <;> simp [Term.isSupertype] at h2
        simp [rowVarBound] at he
  | list es =>
    simp only [Term.subst] at h
    cases hs : substTerms env σ es with
    | none => simp [hs] at h
    | some es' =>
      simp only [hs, Option.some.injEq] at h
      subst h
      simp only [newListFromParts, newSeqFromParts]
      split
      · rfl
      · split <;> rfl
  | listConcat es => simp [Term.plain] at hp
  | tupleConcat es => simp [Term.plain] at hp
  | tuple es =>
    simp only [Term.subst] at h
    cases hs : substTerms env σ es with
    | none => simp [hs] at h
    | some es' => simp only [hs, Option.some.injEq] at h; subst h; rfl
  | listType t =>
    simp only [Term.subst] at h
    cases hs : t.subst env σ with
    | none => simp [hs] at h
    | some t' => simp only [hs, Option.some.injEq] at h; subst h; rfl
  | tupleType t =>
    simp only [Term.subst] at h
    cases hs : t.subst env σ with
    | none => simp [hs] at h
    | some t' => simp only [hs, Option.some.injEq] at h; subst h; rfl
  | constType t =>
    simp only [Term.subst] at h
    cases hs : t.subst env σ with
    | none => simp [hs] at h
    | some t' => simp only [hs, Option.some.injEq] at h; subst h; rfl
  | _ => simp only [Term.subst, Option.some.injEq] at h; subst h; rfl

theorem mem_spliceElems {types : Bool} {es : List Term} {x : Term}
    (h : x ∈ spliceElems types es) : ∃ e ∈ es, x ∈ spliceElem types e := by
  simpa [spliceElems] using h

theorem plain_spliceElem {types : Bool} {e x : Term} (he : e.plain = true)
    (h : x ∈ spliceElem types e) : x.plain = true := by
  cases e <;> simp only [spliceElem, List.mem_singleton] at h
  case list es =>
    cases types
    · simp at h; subst h; exact he
    · simp at h; exact plain_list he x h
  all_goals (subst h; exact he)

/-- The flattened list of substituted elements is well-formed again. -/
theorem plain_list_subst {env : Env} {σ : List Term} (hσ : ∀ s ∈ σ, s.plain = true)
    {es es' : List Term} (hp : (Term.list es).plain = true)
    (hs : substTerms env σ es = some es') (hp' : ∀ e ∈ es', e.plain = true) :
    (Term.list (spliceElems (areTypes es) es')).plain = true ∧
    (areTypes es = true → ∀ x ∈ spliceElems true es', x.isTypeElem = true) ∧
    (areTypes es = false → areTypes es' = false) := by
  rw [substTerms_some] at hs
  have hall : areTypes es = true → ∀ x ∈ spliceElems true es', x.isTypeElem = true := by
    intro ha x hx
    obtain ⟨e', he', hx⟩ := mem_spliceElems hx
    obtain ⟨e, he, hse⟩ := forall₂_mem_right hs e' he'
    have : e.isTypeElem = true := by
      simp only [Term.plain, ha, Bool.not_true, Bool.false_or, Bool.and_eq_true,
        List.all_eq_true] at hp
      exact hp.2 e he
    exact subst_typeElem_splice hσ this hse x hx
  have hnone : areTypes es = false → areTypes es' = false := by
    intro ha
    cases hs with
    | nil => rfl
    | @cons a b _ _ h _ =>
      simp only [areTypes] at ha ⊢
      exact subst_not_typeElem hσ (plain_list hp a (by simp)) ha h
  refine ⟨?_, hall, hnone⟩
  simp only [Term.plain, Bool.and_eq_true, plainTerms_iff]
  constructor
  · intro x hx
    obtain ⟨e', he', hx⟩ := mem_spliceElems hx
    exact plain_spliceElem (hp' e' he') hx
  · cases ha : areTypes es with
    | true =>
      simp only [Bool.or_eq_true, List.all_eq_true]
      exact .inr (hall ha)
    | false => rw [spliceElems_false, hnone ha]; rfl

theorem plain_rowElem {e : Term} {r : RTy} (hp : e.plain = true) (h : rowElem e = some r) :
    r.plain = true := by
  cases e <;> simp [rowElem] at h
  · subst h; simpa [Term.plain, RTy.plain] using hp
  · split at h
    · cases h; rfl
    · cases h

theorem plain_newSum {rows : List (List RTy)} (h : ∀ r ∈ rows, ∀ t ∈ r, t.plain = true) :
    (Ty.newSum rows).plain = true := by
  unfold Ty.newSum
  split
  · rfl
  · simp only [Ty.general, Ty.plain]; exact (plainRows_iff rows).mpr h

theorem subst_plain {env : Env} {σ : List Term} (hσ : ∀ s ∈ σ, s.plain = true) :
    (∀ t : Term, t.plain = true → ∀ t', t.subst env σ = some t' → t'.plain = true) ∧
    (∀ t : Ty, t.plain = true → ∀ t', t.subst env σ = some t' → t'.plain = true) ∧
    (∀ t : RTy, t.plain = true → ∀ r, t.subst env σ = some r → ∀ t' ∈ r, t'.plain = true) := by
  have hterms : ∀ (ts : List Term), (∀ t ∈ ts, t.plain = true → ∀ t', t.subst env σ = some t' →
      t'.plain = true) → (∀ t ∈ ts, t.plain = true) → ∀ ts', substTerms env σ ts = some ts' →
      ∀ e ∈ ts', e.plain = true := by
    intro ts ih hp ts' hs e he
    obtain ⟨a, ha, hr⟩ := forall₂_mem_right (substTerms_some.mp hs) e he
    exact ih a ha (hp a ha) e hr
  have hrow : ∀ (row : List RTy), (∀ t ∈ row, t.plain = true → ∀ r, t.subst env σ = some r →
      ∀ t' ∈ r, t'.plain = true) → (∀ t ∈ row, t.plain = true) → ∀ r, substRow env σ row = some r →
      ∀ e ∈ r, e.plain = true := by
    intro row ih hp r hs e he
    obtain ⟨rs, h1, rfl⟩ := substRow_some.mp hs
    obtain ⟨r, hr, he⟩ := List.mem_flatten.mp he
    obtain ⟨a, ha, hr⟩ := forall₂_mem_right h1 r hr
    exact ih a ha (hp a ha) r hr e he
  apply syntax_induction
  case list =>
    intro ts ih hp t' h
    have hp2 := hterms ts ih (plain_list hp)
    obtain ⟨es', hs, rfl⟩ := subst_list_plain h hp2
    exact (plain_list_subst hσ hp hs (hp2 es' hs)).1
  case listConcat => intro ts _ hp; simp [Term.plain] at hp
  case tupleConcat => intro ts _ hp; simp [Term.plain] at hp
  case tuple =>
    intro ts ih hp t' h
    simp only [Term.subst] at h
    cases hs : substTerms env σ ts with
    | none => simp [hs] at h
    | some es' =>
      simp only [hs, Option.some.injEq] at h
      subst h
      simp only [Term.plain, plainTerms_iff] at hp ⊢
      exact hterms ts ih hp es' hs
  case var =>
    intro i d _ hp t' h
    simp only [Term.subst] at h
    exact hσ t' (List.mem_of_getElem? (applyVar_some h).1)
  case listType =>
    intro t ih hp t' h
    simp only [Term.subst] at h
    cases hs : t.subst env σ with
    | none => simp [hs] at h
    | some t1 =>
      simp only [hs, Option.some.injEq] at h; subst h
      simp only [Term.plain] at hp ⊢; exact ih hp t1 hs
  case tupleType =>
    intro t ih hp t' h
    simp only [Term.subst] at h
    cases hs : t.subst env σ with
    | none => simp [hs] at h
    | some t1 =>
      simp only [hs, Option.some.injEq] at h; subst h
      simp only [Term.plain] at hp ⊢; exact ih hp t1 hs
  case constType =>
    intro t ih hp t' h
    simp only [Term.subst] at h
    cases hs : t.subst env σ with
    | none => simp [hs] at h
    | some t1 =>
      simp only [hs, Option.some.injEq] at h; subst h
      simp only [Term.plain] at hp ⊢; exact ih hp t1 hs
  case runtime =>
    intro t ih hp t' h
    simp only [Term.subst] at h
    cases hs : t.subst env σ with
    | none => simp [hs] at h
    | some t1 =>
      simp only [hs, Option.some.injEq] at h; subst h
      simp only [Term.plain] at hp ⊢; exact ih hp t1 hs
  case ext =>
    intro e i args b ih hp t' h
    simp only [Ty.subst] at h
    split at h
    · cases h
    · next args' hs =>
      split at h
      · cases h
      · split at h
        · cases h
        · split at h
          · cases h
            simp only [Ty.plain, plainTerms_iff] at hp ⊢
            exact hterms args ih hp args' hs
          · cases h
  case «alias» => intro n b _ t' h; simp only [Ty.subst, Option.some.injEq] at h; subst h; rfl
  case sumUnit => intro n _ t' h; simp only [Ty.subst, Option.some.injEq] at h; subst h; rfl
  case function =>
    intro i o ihi iho hp t' h
    simp only [Ty.subst] at h
    split at h
    · cases h
    · next i' hi =>
      split at h
      · cases h
      · next o' ho =>
        cases h
        simp only [Ty.plain, Bool.and_eq_true, plainRow_iff] at hp ⊢
        exact ⟨hrow i ihi hp.1 i' hi, hrow o iho hp.2 o' ho⟩
  case tyVar =>
    intro i b _ t' h
    simp only [Ty.subst] at h
    split at h
    · next t1 ha =>
      cases h
      have := hσ _ (List.mem_of_getElem? (applyVar_some ha).1)
      simpa [Term.plain] using this
    · cases h
  case sumGen =>
    intro rows b ih hp t' h
    simp only [Ty.subst] at h
    split at h
    · next rows' hs =>
      cases h
      apply plain_newSum
      intro r hr t ht
      obtain ⟨r0, hr0, hsr⟩ := forall₂_mem_right (substRows_some.mp hs) r hr
      simp only [Ty.plain, plainRows_iff] at hp
      exact hrow r0 (ih r0 hr0) (hp r0 hr0) r hsr t ht
    · cases h
  case rty =>
    intro t ih hp r h t' ht'
    simp only [RTy.subst] at h
    split at h
    · next t1 h1 =>
      cases h
      simp only [List.mem_singleton] at ht'; subst ht'
      simp only [RTy.plain] at hp ⊢
      exact ih hp t1 h1
    · cases h
  case rowVar =>
    intro i b _ r h t' ht'
    simp only [RTy.subst] at h
    obtain ⟨es, h1, _, h3⟩ := applyRowVar_some h
    obtain ⟨e, he, hr⟩ := forall₂_mem_right (rowElems_some.mp h3) t' ht'
    exact plain_rowElem (plain_list (hσ _ (List.mem_of_getElem? h1)) e he) hr
  all_goals (intros; rename_i h; simp only [Term.subst, Option.some.injEq] at h; subst h; rfl)


/-! ## Substitution does not make bounds worse -/

theorem lub_mono {bs bs' : List Bound}
    (h : ∀ b' ∈ bs', ∃ b ∈ bs, b.contains b' = true) :
    (leastUpperBound bs).contains (leastUpperBound bs') = true := by
  rw [C01_least_upper_bound]
  intro b' hb'
  obtain ⟨b, hb, hc⟩ := h b' hb'
  exact contains_trans ((C01_least_upper_bound bs (leastUpperBound bs)).mp
    (C01_contains_partial_order.1 _) b hb) hc

theorem newSum_bound (rows : List (List RTy)) :
    (Ty.newSum rows).bound = leastUpperBound (rows.flatten.map RTy.bound) := by
  unfold Ty.newSum
  split
  · next h =>
    have : rows.flatten = [] := by
      have h2 := h.2
      simp only [List.all_eq_true, List.isEmpty_iff] at h2
      rw [List.flatten_eq_nil_iff]
      exact h2
    rw [this]; rfl
  · rfl

theorem bound_rowElem {e : Term} {b : Bound} {r : RTy}
    (hc : rowVarFits e (.runtimeType b) = true ∨ checkTerm e (.runtimeType b) = true)
    (h : rowElem e = some r) : b.contains r.bound = true := by
  cases e <;> simp [rowElem] at h
  · subst h
    rcases hc with hc | hc
    · simp [rowVarFits] at hc
    · simpa [checkTerm, RTy.bound] using hc
  · rename_i j d
    split at h
    · next b' hb =>
      cases h
      have := rowVarBound_some hb
      subst this
      rcases hc with hc | hc
      · simpa [rowVarFits, rowVarBound, RTy.bound] using hc
      · simp [checkTerm, Term.isSupertype] at hc
    · cases h

theorem subst_bound {env : Env} {σ : List Term} :
    (∀ _t : Term, True) ∧
    (∀ t : Ty, t.built = true → ∀ t', t.subst env σ = some t' →
      t.bound.contains t'.bound = true) ∧
    (∀ t : RTy, t.built = true → ∀ r, t.subst env σ = some r →
      ∀ t' ∈ r, t.bound.contains t'.bound = true) := by
  apply syntax_induction
  case ext =>
    intro e i args b _ _ t' h
    simp only [Ty.subst] at h
    split at h
    · cases h
    · split at h
      · cases h
      · split at h
        · cases h
        · split at h
          · next hb => cases h; exact hb
          · cases h
  case «alias» =>
    intro n b _ t' h; simp only [Ty.subst, Option.some.injEq] at h; subst h
    exact C01_contains_partial_order.1 _
  case sumUnit =>
    intro n _ t' h; simp only [Ty.subst, Option.some.injEq] at h; subst h; rfl
  case function =>
    intro i o _ _ _ t' h
    simp only [Ty.subst] at h
    split at h
    · cases h
    · split at h
      · cases h
      · cases h; rfl
  case tyVar =>
    intro i b _ t' h
    simp only [Ty.subst] at h
    split at h
    · next t1 ha =>
      cases h
      have := (applyVar_some ha).2
      simpa [checkTerm, Ty.bound] using this
    · cases h
  case sumGen =>
    intro rows b ih hb t' h
    simp only [Ty.subst] at h
    split at h
    · next rows' hs =>
      cases h
      simp only [Ty.built, Bool.and_eq_true, decide_eq_true_eq] at hb
      rw [newSum_bound]
      simp only [Ty.bound]
      rw [hb.1.2]
      apply lub_mono
      intro b' hb'
      simp only [List.mem_map, List.mem_flatten] at hb'
      obtain ⟨t', ⟨r', hr', ht'⟩, rfl⟩ := hb'
      obtain ⟨r, hr, hsr⟩ := forall₂_mem_right (substRows_some.mp hs) r' hr'
      obtain ⟨rs, h1, rfl⟩ := substRow_some.mp hsr
      obtain ⟨x, hx, ht'⟩ := List.mem_flatten.mp ht'
      obtain ⟨a, ha, hax⟩ := forall₂_mem_right h1 x hx
      refine ⟨a.bound, ?_, ih r hr a ha ((builtRows_iff rows).mp hb.1.1 r hr a ha) x hax t' ht'⟩
      simp only [List.mem_map, List.mem_flatten]
      exact ⟨a, ⟨r, hr, ha⟩, rfl⟩
    · cases h
  case rty =>
    intro t ih hp r h t' ht'
    simp only [RTy.subst] at h
    split at h
    · next t1 h1 =>
      cases h
      simp only [List.mem_singleton] at ht'; subst ht'
      exact ih hp t1 h1
    · cases h
  case rowVar =>
    intro i b _ r h t' ht'
    simp only [RTy.subst] at h
    obtain ⟨es, h1, h2, h3⟩ := applyRowVar_some h
    obtain ⟨e, he, hr⟩ := forall₂_mem_right (rowElems_some.mp h3) t' ht'
    simp only [checkTerm] at h2
    exact bound_rowElem ((checkItems_iff _ _).mp h2 e he) hr
  all_goals (intros; trivial)

/-! ## Substitution keeps kinds -/

theorem mem_listParts_kindOk {k k' : Term} (h : k.kindOk = true)
    (hm : SeqPart.item k' ∈ k.listParts) : k'.kindOk = true := by
  induction k using list_induction with
  | list es =>
    simp only [Term.listParts, List.mem_map] at hm
    obtain ⟨a, ha, he⟩ := hm
    cases he
    simp only [Term.kindOk] at h
    exact (kindsOk_iff es).mp h _ ha
  | concat ts ih =>
    simp only [Term.listParts, listPartsAll_eq, List.mem_flatMap] at hm
    obtain ⟨a, ha, he⟩ := hm
    simp only [Term.kindOk] at h
    exact ih a ha ((kindsOk_iff ts).mp h a ha) he
  | other t ht => rw [listParts_other ht] at hm; simp at hm

theorem checkTupleItems_subst {env : Env} {σ : List Term} {es es' : List Term}
    (hf : List.Forall₂ (fun t t' => Term.subst env σ t = some t') es es')
    (ih : ∀ e ∈ es, ∀ e', e.subst env σ = some e' → ∀ k : Term, k.kindOk = true →
      checkTerm e k = true → checkTerm e' k = true) :
    ∀ qs, (∀ k, SeqPart.item k ∈ qs → k.kindOk = true) →
      checkTupleItems es qs ≠ .fail → checkTupleItems es' qs = checkTupleItems es qs := by
  induction hf with
  | nil => intro qs _ _; rfl
  | @cons e e' es es' h _ ihf =>
    intro qs hq hne
    cases qs with
    | nil => simp [checkTupleItems] at hne
    | cons q qs =>
      cases q with
      | splice k => rfl
      | item k =>
        simp only [checkTupleItems] at hne ⊢
        split at hne
        · next hc =>
          rw [if_pos hc, if_pos (ih e (by simp) e' h k (hq k (by simp)) hc)]
          exact ihf (fun x hx => ih x (by simp [hx])) qs (fun k hk => hq k (by simp [hk])) hne
        · exact absurd rfl hne

theorem subst_check {env : Env} {σ : List Term} (hσ : ∀ s ∈ σ, s.plain = true) (t : Term) :
    t.plain = true → t.built = true → ∀ t', t.subst env σ = some t' →
      ∀ k : Term, k.kindOk = true → checkTerm t k = true → checkTerm t' k = true := by
  refine (syntax_induction (P := fun t => t.plain = true → t.built = true →
    ∀ t', t.subst env σ = some t' →
      ∀ k : Term, k.kindOk = true → checkTerm t k = true → checkTerm t' k = true)
    (Q := fun _ => True) (R := fun _ => True)
    ?_ ?_ ?_ ?_ ?_ ?_ ?_ ?_ ?_ ?_ ?_ ?_ ?_ ?_ ?_ ?_ ?_ ?_ ?_ ?_ ?_ ?_ ?_ ?_ ?_ ?_ ?_).1 t
  case refine_7 =>
    intro t ih hp hb t' h k hk hc
    cases k <;> simp [checkTerm] at hc
    simp only [Term.subst] at h
    split at h <;> cases h
    rfl
  case refine_8 =>
    intro t ih hp hb t' h k hk hc
    cases k <;> simp [checkTerm] at hc
    simp only [Term.subst] at h
    split at h <;> cases h
    rfl
  case refine_9 =>
    intro t _ hp hb t' h k hk hc
    simp only [Term.subst] at h
    split at h
    · next t1 h1 =>
      cases h
      cases k <;> simp [checkTerm] at hc
      simp only [checkTerm]
      exact contains_trans hc (subst_bound.2.1 t (by simpa [Term.built] using hb) t1 h1)
    · cases h
  case refine_14 =>
    intro es ih hp hb t' h k hk hc
    have hpl := plain_list hp
    have hbl : ∀ e ∈ es, e.built = true := (builtTerms_iff es).mp (by simpa [Term.built] using hb)
    have hp2 : ∀ es', substTerms env σ es = some es' → ∀ e ∈ es', e.plain = true := by
      intro es' hs e he
      obtain ⟨a, ha, hr⟩ := forall₂_mem_right (substTerms_some.mp hs) e he
      exact (subst_plain hσ).1 a (hpl a ha) e hr
    obtain ⟨es', hs, rfl⟩ := subst_list_plain h hp2
    cases k <;> simp [checkTerm] at hc
    rename_i item
    rw [checkItems_iff] at hc
    simp only [checkTerm, checkItems_iff]
    have hs' := substTerms_some.mp hs
    by_cases hi : ∃ b, item = .runtimeType b
    · obtain ⟨b, rfl⟩ := hi
      have hfit : ∀ e ∈ es, ElemFits e b := fun e he => elemFits_of_check (hpl e he) (hc e he)
      have htypes : areTypes es = true ∨ es = [] := by
        cases es with
        | nil => exact .inr rfl
        | cons e es => exact .inl (elemFits_isTypeElem (hfit e (by simp)))
      rcases htypes with ht | rfl
      · intro x hx
        rw [ht] at hx
        obtain ⟨e', he', hx⟩ := mem_spliceElems hx
        obtain ⟨e, he, hse⟩ := forall₂_mem_right hs' e' he'
        apply check_of_elemFits
        rcases subst_typeElem hσ (elemFits_isTypeElem (hfit e he)) hse with
          ⟨t, t', rfl, rfl, hst⟩ | ⟨j, b', rfl, _, hcase⟩
        · simp only [spliceElem, List.mem_singleton] at hx; subst hx
          have h1 : b.contains t.bound = true := by
            rcases hfit _ he with ⟨t2, h2, h3⟩ | ⟨_, _, h2, _⟩
            · cases h2; exact h3
            · cases h2
          exact .inl ⟨t', rfl, contains_trans h1
            (subst_bound.2.1 t (by simpa [Term.built] using hbl _ he) t' hst)⟩
        · have h1 : b.contains b' = true := by
            rcases hfit _ he with ⟨_, h2, _⟩ | ⟨_, _, h2, h3⟩
            · cases h2
            · cases h2; exact h3
          rcases hcase with ⟨xs, rfl, hxs⟩ | ⟨j', b2, rfl, hb2⟩
          · simp only [spliceElem, if_true] at hx
            exact elemFits_mono h1 (hxs x hx)
          · simp only [spliceElem, List.mem_singleton] at hx; subst hx
            exact .inr ⟨j', b2, rfl, contains_trans h1 hb2⟩
      · cases hs'
        simp [spliceElems]
    · have hno : ∀ e, rowVarFits e item = false := by
        intro e
        cases e <;> try rfl
        cases item <;> first | rfl | exact absurd ⟨_, rfl⟩ hi
      have htypes : areTypes es = false := by
        cases es with
        | nil => rfl
        | cons e es =>
          simp only [areTypes]
          cases he : e.isTypeElem with
          | false => rfl
          | true =>
            exfalso
            have hce : checkTerm e item = true := by
              rcases hc e (by simp) with h1 | h1
              · rw [hno] at h1; cases h1
              · exact h1
            rcases isTypeElem_cases he with ⟨t, rfl⟩ | ⟨j, b, rfl⟩
            · cases item <;> simp [checkTerm] at hce
              exact hi ⟨_, rfl⟩
            · simp only [checkTerm] at hce
              cases item <;> simp [Term.isSupertype] at hce
              rename_i item
              cases item <;> simp [Term.isSupertype] at hce
              simp [Term.kindOk, rowVarBound] at hk
      rw [htypes, spliceElems_false]
      have hki : item.kindOk = true := by
        simp only [Term.kindOk, Bool.and_eq_true] at hk; exact hk.2
      intro x hx
      obtain ⟨e, he, hse⟩ := forall₂_mem_right hs' x hx
      refine .inr (ih e he (hpl e he) (hbl e he) x hse item hki ?_)
      rcases hc e he with h1 | h1
      · rw [hno] at h1; cases h1
      · exact h1
  case refine_15 => intro es _ hp; simp [Term.plain] at hp
  case refine_17 => intro es _ hp; simp [Term.plain] at hp
  case refine_16 =>
    intro es ih hp hb t' h k hk hc
    simp only [Term.plain, plainTerms_iff] at hp
    simp only [Term.built, builtTerms_iff] at hb
    simp only [Term.subst] at h
    split at h
    · next es' hs =>
      cases h
      cases k with
      | tupleType items =>
        simp only [checkTerm] at hc ⊢
        have := checkTupleItems_subst (substTerms_some.mp hs)
          (fun e he e' hse k hk hc => ih e he (hp e he) (hb e he) e' hse k hk hc)
          items.listParts (fun k' hm => mem_listParts_kindOk (by simpa [Term.kindOk] using hk) hm)
          (by intro hf; simp [hf] at hc)
        rw [this]; exact hc
      | _ => simp [checkTerm] at hc
    · cases h
  case refine_18 =>
    intro i d _ hp hb t' h k hk hc
    simp only [Term.subst] at h
    simp only [checkTerm] at hc
    exact C07_check_monotone t' d k hc (applyVar_some h).2
  case refine_19 =>
    intro t _ hp hb t' h k hk hc
    cases k <;> simp [checkTerm] at hc
    simp only [Term.subst] at h
    split at h <;> cases h
    rfl
  all_goals first
    | (intros; trivial)
    | (intros; rename_i h k hk hc
       simp only [Term.subst, Option.some.injEq] at h; subst h; exact hc)

theorem substTerms_check {env : Env} {σ : List Term} (hσ : ∀ s ∈ σ, s.plain = true)
    {ts ts' ks : List Term} (hp : ∀ t ∈ ts, t.plain = true) (hb : ∀ t ∈ ts, t.built = true)
    (hk : ∀ k ∈ ks, k.kindOk = true)
    (hs : substTerms env σ ts = some ts') (hc : checkTerms ts ks = true) :
    checkTerms ts' ks = true := by
  rw [substTerms_some] at hs
  induction hs generalizing ks with
  | nil => exact hc
  | @cons t t' ts ts' h _ ih =>
    cases ks with
    | nil => simp [checkTerms] at hc
    | cons k ks =>
      simp only [checkTerms, Bool.and_eq_true] at hc ⊢
      exact ⟨subst_check hσ t (hp t (by simp)) (hb t (by simp)) t' h k (hk k (by simp)) hc.1,
        ih (fun x hx => hp x (by simp [hx])) (fun x hx => hb x (by simp [hx]))
          (fun x hx => hk x (by simp [hx])) hc.2⟩

end Verif.Types
