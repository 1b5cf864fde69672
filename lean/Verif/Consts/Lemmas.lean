import Verif.Consts.Spec
import Verif.Types.SumProps
/-!
Helper lemmas about checking constants.
-/
namespace Verif.Consts

open Verif.Types

variable {κ φ : Type}

theorem tyEq_refl (t : Ty) : t.rustEq t = true := C02_equality_is_equivalence.1.1 t

theorem tyEq_symm {a b : Ty} (h : a.rustEq b = true) : b.rustEq a = true :=
  C02_equality_is_equivalence.1.2.1 a b h

theorem tyEq_trans {a b c : Ty} (h : a.rustEq b = true) (h' : b.rustEq c = true) :
    a.rustEq c = true := C02_equality_is_equivalence.1.2.2 a b c h h'

theorem getVariant_eq (ty : SumTy) (tag : Nat) : ty.getVariant tag = ty.variants[tag]? := by
  cases ty with
  | unit n => simp [SumTy.getVariant, SumTy.variants, List.getElem?_replicate]
  | general rows => rfl

theorem variants_new (rows : List (List RTy)) : (SumTy.new rows).variants = rows := by
  unfold SumTy.new
  by_cases h : rows.length < 256 ∧ rows.all List.isEmpty = true
  · rw [if_pos h]
    show List.replicate rows.length [] = rows
    symm
    rw [List.eq_replicate_iff]
    refine ⟨rfl, fun r hr => ?_⟩
    have := List.all_eq_true.mp h.2 r hr
    simpa using this
  · rw [if_neg h]; rfl

theorem toTypeRow_ok (r : List RTy) (ts : List Ty) : toTypeRow r = .ok ts ↔ r = ts.map .ty := by
  induction r generalizing ts with
  | nil => cases ts <;> simp [toTypeRow]
  | cons x r ih =>
    cases x with
    | rowVar i b => cases ts <;> simp [toTypeRow]
    | ty t =>
      unfold toTypeRow
      cases hr : toTypeRow r with
      | error i =>
        simp only [reduceCtorEq, false_iff]
        intro h
        cases ts with
        | nil => simp at h
        | cons t' ts =>
          simp at h
          rw [(ih ts).mpr h.2] at hr
          cases hr
      | ok us =>
        have hu := (ih us).mp hr
        constructor
        · intro h; cases h; simp [hu]
        · intro h
          cases ts with
          | nil => simp at h
          | cons t' ts =>
            simp at h
            have := (ih ts).mpr h.2
            rw [hr] at this
            cases this
            rw [h.1]

/-- The element checks of a row succeed exactly when every value reports the expected type. -/
theorem checkItems_ok (L : Lib κ φ) (tag : Nat) (ts : List Ty) (vs : List (Value κ φ)) (i : Nat)
    (hl : vs.length = ts.length) :
    checkItems L tag i ts vs = .ok () ↔
      ∀ p ∈ vs.zip ts, ∃ t, p.1.getType L = some t ∧ t.rustEq p.2 = true := by
  induction ts generalizing vs i with
  | nil =>
    cases vs with
    | nil => simp [checkItems]
    | cons v vs => simp at hl
  | cons t ts ih =>
    cases vs with
    | nil => simp at hl
    | cons v vs =>
      have hl' : vs.length = ts.length := by simpa using hl
      unfold checkItems
      rw [List.zip_cons_cons, List.forall_mem_cons]
      cases hv : v.getType L with
      | none => simp [hv]
      | some t' =>
        simp only []
        by_cases he : t'.rustEq t = true
        · rw [if_pos he, ih vs (i + 1) hl']
          simp [hv, he]
        · rw [if_neg he]
          simp only [reduceCtorEq, false_iff]
          rintro ⟨⟨u, hu, hu'⟩, _⟩
          simp only [hv, Option.some.injEq] at hu
          exact he (hu ▸ hu')

theorem checkItems_panic (L : Lib κ φ) (tag : Nat) (ts : List Ty) (vs : List (Value κ φ)) (i : Nat)
    (h : ∀ v ∈ vs, v.getType L ≠ none) : checkItems L tag i ts vs ≠ .panic := by
  induction vs generalizing ts i with
  | nil => cases ts <;> simp [checkItems]
  | cons v vs ih =>
    cases ts with
    | nil => simp [checkItems]
    | cons t ts =>
      unfold checkItems
      cases hv : v.getType L with
      | none => exact absurd hv (h v (List.mem_cons_self ..))
      | some t' =>
        simp only []
        by_cases he : t'.rustEq t = true
        · rw [if_pos he]; exact ih ts (i + 1) fun w hw => h w (List.mem_cons_of_mem _ hw)
        · rw [if_neg he]; nofun

/-- What `check_type` accepts. -/
theorem checkType_ok (L : Lib κ φ) (ty : SumTy) (tag : Nat) (vs : List (Value κ φ)) :
    ty.checkType L tag vs = .ok () ↔
      ∃ row : List Ty, ty.variants[tag]? = some (row.map .ty) ∧ vs.length = row.length ∧
        ∀ p ∈ vs.zip row, ∃ t, p.1.getType L = some t ∧ t.rustEq p.2 = true := by
  unfold SumTy.checkType
  rw [getVariant_eq]
  cases hr : ty.variants[tag]? with
  | none => simp
  | some row =>
    simp only []
    cases ht : toTypeRow row with
    | error i =>
      simp only [reduceCtorEq, false_iff]
      rintro ⟨r, h, -⟩
      cases h
      rw [(toTypeRow_ok _ r).mpr rfl] at ht
      cases ht
    | ok ts =>
      have hrow := (toTypeRow_ok _ _).mp ht
      simp only []
      by_cases hl : ts.length = vs.length
      · rw [if_pos hl, checkItems_ok L tag ts vs 0 hl.symm]
        constructor
        · intro h; exact ⟨ts, by rw [hrow], hl.symm, h⟩
        · rintro ⟨r, h, -, h3⟩
          have h' : row = r.map .ty := by injection h
          have : ts = r := by
            have := (toTypeRow_ok _ r).mpr h'
            rw [ht] at this; cases this; rfl
          subst this
          exact h3
      · rw [if_neg hl]
        simp only [reduceCtorEq, false_iff]
        rintro ⟨r, h, h2, -⟩
        have h' : row = r.map .ty := by injection h
        have : ts = r := by
          have := (toTypeRow_ok _ r).mpr h'
          rw [ht] at this; cases this; rfl
        subst this
        exact hl h2.symm

theorem checkType_panic (L : Lib κ φ) (ty : SumTy) (tag : Nat) (vs : List (Value κ φ))
    (h : ∀ v ∈ vs, v.getType L ≠ none) : ty.checkType L tag vs ≠ .panic := by
  unfold SumTy.checkType
  cases ty.getVariant tag with
  | none => nofun
  | some row =>
    simp only []
    cases toTypeRow row with
    | error i => nofun
    | ok ts =>
      simp only []
      by_cases hl : ts.length = vs.length
      · rw [if_pos hl]; exact checkItems_panic L tag ts vs 0 h
      · rw [if_neg hl]; nofun

theorem mkSum_ok (L : Lib κ φ) (tag : Nat) (items : List (Value κ φ)) (ty : SumTy) (v : Value κ φ) :
    Value.mkSum L tag items ty = .ok v ↔ ty.checkType L tag items = .ok () ∧ v = .sum tag items ty := by
  unfold Value.mkSum
  cases h : ty.checkType L tag items with
  | panic => simp
  | err e => simp
  | ok a => simp [eq_comm]

theorem unwrap_eq {ε α : Type} (o : Out ε α) (a : α) : o.unwrap = some a ↔ o = .ok a := by
  cases o <;> simp [Out.unwrap]

theorem getTypes_some (L : Lib κ φ) (vs : List (Value κ φ)) (h : ∀ v ∈ vs, v.getType L ≠ none) :
    ∃ ts, getTypes L vs = some ts ∧ vs.length = ts.length ∧
      ∀ p ∈ vs.zip ts, p.1.getType L = some p.2 := by
  induction vs with
  | nil => exact ⟨[], rfl, rfl, by simp⟩
  | cons v vs ih =>
    obtain ⟨ts, h1, h2, h3⟩ := ih fun w hw => h w (List.mem_cons_of_mem _ hw)
    cases hv : v.getType L with
    | none => exact absurd hv (h v (List.mem_cons_self ..))
    | some t =>
      refine ⟨t :: ts, by simp [getTypes, hv, h1], by simp [h2], ?_⟩
      rw [List.zip_cons_cons, List.forall_mem_cons]
      exact ⟨hv, h3⟩

theorem getTypes_spec (L : Lib κ φ) (vs : List (Value κ φ)) (ts : List Ty)
    (h : getTypes L vs = some ts) :
    vs.length = ts.length ∧ ∀ p ∈ vs.zip ts, p.1.getType L = some p.2 := by
  induction vs generalizing ts with
  | nil => simp [getTypes] at h; subst h; simp
  | cons v vs ih =>
    unfold getTypes at h
    cases hv : v.getType L with
    | none => simp [hv] at h
    | some t =>
      cases hs : getTypes L vs with
      | none => simp [hv, hs] at h
      | some us =>
        simp only [hv, hs, Option.some.injEq] at h
        subst h
        have := ih us hs
        refine ⟨by simp [this.1], ?_⟩
        rw [List.zip_cons_cons, List.forall_mem_cons]
        exact ⟨hv, this.2⟩

/-- Values of the types they report fit the row of these types. -/
theorem checkType_getTypes (L : Lib κ φ) (ty : SumTy) (tag : Nat) (vs : List (Value κ φ))
    (ts : List Ty) (h : getTypes L vs = some ts) (hv : ty.variants[tag]? = some (ts.map .ty)) :
    ty.checkType L tag vs = .ok () := by
  rw [checkType_ok]
  have := getTypes_spec L vs ts h
  exact ⟨ts, hv, this.1, fun p hp => ⟨p.2, this.2 p hp, tyEq_refl _⟩⟩

theorem checkElems_ok (L : Lib κ φ) (elem : Ty) (vs : List (Value κ φ)) :
    checkElems L elem vs = .ok () ↔ ∀ v ∈ vs, ∃ t, v.getType L = some t ∧ t.rustEq elem = true := by
  induction vs with
  | nil => simp [checkElems]
  | cons v vs ih =>
    unfold checkElems
    rw [List.forall_mem_cons]
    cases hv : v.getType L with
    | none => simp
    | some t =>
      simp only []
      by_cases he : t.rustEq elem = true
      · rw [if_pos he, ih]; simp [he]
      · rw [if_neg he]
        simp [he]

/-- A constant only has types equal to the one it reports. -/
theorem HasType.reported {L : Lib κ φ} {v : Value κ φ} {t : Ty} (h : HasType L v t) :
    ∃ t', v.getType L = some t' ∧ t'.rustEq t = true := by
  induction h with
  | ext c _ => exact ⟨_, rfl, tyEq_refl _⟩
  | usize n => exact ⟨_, rfl, tyEq_refl _⟩
  | list elem vs _ _ => exact ⟨_, rfl, tyEq_refl _⟩
  | func f i o hs => exact ⟨_, by simp [Value.getType, hs], tyEq_refl _⟩
  | sum tag vs ty row _ _ _ _ => exact ⟨_, rfl, tyEq_refl _⟩
  | conv v t t' _ he ih =>
    obtain ⟨u, hu, hu'⟩ := ih
    exact ⟨u, hu, tyEq_trans hu' he⟩

/-- A well-typed constant has every type equal to the one it reports. -/
theorem HasType.at {L : Lib κ φ} {v : Value κ φ} {t t' : Ty} (h : HasType L v t)
    (hg : ∃ u, v.getType L = some u ∧ u.rustEq t' = true) : HasType L v t' := by
  obtain ⟨u, hu, he⟩ := hg
  obtain ⟨w, hw, he'⟩ := h.reported
  rw [hu] at hw
  cases hw
  exact .conv v t t' h (tyEq_trans (tyEq_symm he') he)

theorem WellTyped.getType {L : Lib κ φ} {v : Value κ φ} (h : WellTyped L v) :
    v.getType L ≠ none := by
  obtain ⟨t, ht⟩ := h
  obtain ⟨u, hu, -⟩ := ht.reported
  rw [hu]; nofun

theorem hasType_sum_of_check {L : Lib κ φ} {tag : Nat} {vs : List (Value κ φ)} {ty : SumTy}
    (hw : ∀ v ∈ vs, WellTyped L v) (hc : ty.checkType L tag vs = .ok ()) :
    HasType L (.sum tag vs ty) ty.toTy := by
  obtain ⟨row, h1, h2, h3⟩ := (checkType_ok L ty tag vs).mp hc
  refine .sum tag vs ty row h1 h2 fun p hp => ?_
  obtain ⟨t, ht⟩ := hw p.1 (List.of_mem_zip hp).1
  exact ht.at (h3 p hp)

theorem hasType_list_of_check {L : Lib κ φ} {vs : List (Value κ φ)} {elem : Ty}
    (hw : ∀ v ∈ vs, WellTyped L v) (hc : checkElems L elem vs = .ok ()) :
    HasType L (.list elem vs) (listTy elem) := by
  refine .list elem vs fun v hv => ?_
  obtain ⟨t, ht⟩ := hw v hv
  exact ht.at ((checkElems_ok L elem vs).mp hc v hv)

theorem wellTyped_parts {L : Lib κ φ} {v : Value κ φ} (h : WellTyped L v) :
    v.validate L = .ok () ∧ ∀ p ∈ v.parts, WellTyped L p := by
  obtain ⟨t, ht⟩ := h
  induction ht with
  | ext c hc => exact ⟨by simp [Value.validate, hc], by simp [Value.parts]⟩
  | usize n => exact ⟨rfl, by simp [Value.parts]⟩
  | list elem vs hvs _ =>
    exact ⟨(checkElems_ok L elem vs).mpr fun v hv => (hvs v hv).reported,
      fun p hp => ⟨elem, hvs p hp⟩⟩
  | func f i o hs => exact ⟨by simp [Value.validate, hs], by simp [Value.parts]⟩
  | sum tag vs ty row h1 h2 h3 _ =>
    refine ⟨(checkType_ok L ty tag vs).mpr ⟨row, h1, h2, fun p hp => (h3 p hp).reported⟩, ?_⟩
    intro p hp
    have hp' : p ∈ vs := hp
    obtain ⟨i, hi, rfl⟩ := List.mem_iff_getElem.mp hp'
    have hi' : i < row.length := h2 ▸ hi
    have hz : (vs[i], row[i]) ∈ vs.zip row := by
      rw [List.mem_iff_getElem]
      exact ⟨i, by rw [List.length_zip]; omega, by simp⟩
    exact ⟨_, h3 _ hz⟩
  | conv v t t' _ _ ih => exact ih

end Verif.Consts
