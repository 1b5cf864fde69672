import Verif.Consts.Lemmas
/-!
C64: constants have the type they report.
-/
namespace Verif.Consts

open Verif.Types

variable {κ φ : Type}

/-- C64 (`Value::sum`): a sum constant is accepted exactly when the tag selects a row of types (no
row variables) and there is one value for each of them, reporting that type. The result holds
exactly the given tag, values and type. -/
theorem C64_sum_accepts_exactly (L : Lib κ φ) (tag : Nat) (items : List (Value κ φ)) (ty : SumTy)
    (v : Value κ φ) :
    Value.mkSum L tag items ty = .ok v ↔
      v = .sum tag items ty ∧
      ∃ row : List Ty, ty.variants[tag]? = some (row.map .ty) ∧ items.length = row.length ∧
        ∀ p ∈ items.zip row, ∃ t, p.1.getType L = some t ∧ t.rustEq p.2 = true := by
  rw [mkSum_ok, checkType_ok, and_comm]

/-- C64 (error cases): the error of a refused sum names its cause: a tag without variant, a row
variable, a wrong number of values, or the index of the first value of another type. -/
theorem C64_sum_errors (L : Lib κ φ) (tag : Nat) (items : List (Value κ φ)) (ty : SumTy)
    (hw : ∀ v ∈ items, WellTyped L v) :
    (ty.variants[tag]? = none →
      Value.mkSum L tag items ty = .err (.invalidTag tag ty.variants.length)) ∧
    (∀ row : List Ty, ty.variants[tag]? = some (row.map .ty) → row.length ≠ items.length →
      Value.mkSum L tag items ty = .err (.wrongVariantLength tag row.length items.length)) ∧
    (∀ (pre : List Ty) i b post, ty.variants[tag]? = some (pre.map .ty ++ .rowVar i b :: post) →
      Value.mkSum L tag items ty = .err (.variantNotConcrete tag i)) ∧
    Value.mkSum L tag items ty ≠ .panic := by
  refine ⟨fun h => ?_, fun row h hl => ?_, fun pre i b post h => ?_, ?_⟩
  · have hn : ty.numVariants = ty.variants.length := by
      cases ty <;> simp [SumTy.numVariants, SumTy.variants]
    simp [Value.mkSum, SumTy.checkType, getVariant_eq, h, hn]
  · simp [Value.mkSum, SumTy.checkType, getVariant_eq, h, (toTypeRow_ok _ row).mpr rfl, hl]
  · have : ∀ pre : List Ty, toTypeRow (pre.map .ty ++ .rowVar i b :: post) = .error i := by
      intro pre
      induction pre with
      | nil => rfl
      | cons t pre ih => simp [toTypeRow, ih]
    simp [Value.mkSum, SumTy.checkType, getVariant_eq, h, this pre]
  · have := checkType_panic L ty tag items fun v hv => (hw v hv).getType
    unfold Value.mkSum
    cases hc : ty.checkType L tag items with
    | panic => exact absurd hc this
    | err e => nofun
    | ok a => nofun

/-- C64 (constructors are typed): whatever a program builds with the constructors, in any nesting,
has the type it reports, all the way down. -/
theorem C64_built_well_typed (L : Lib κ φ) (v : Value κ φ) (h : Built L v) :
    ∃ t, v.getType L = some t ∧ HasType L v t := by
  have key : WellTyped L v := by
    have hsum : ∀ (tag : Nat) (items : List (Value κ φ)) (ty : SumTy) (v : Value κ φ),
        (∀ w ∈ items, WellTyped L w) → Value.mkSum L tag items ty = .ok v → WellTyped L v := by
      intro tag items ty v hw hm
      obtain ⟨hc, rfl⟩ := (mkSum_ok L tag items ty v).mp hm
      exact ⟨_, hasType_sum_of_check hw hc⟩
    induction h with
    | ext c hc => exact ⟨_, .ext c hc⟩
    | usize n => exact ⟨_, .usize n⟩
    | list elem vs _ hv ih => exact ⟨_, hasType_list_of_check ih hv⟩
    | function f v hf =>
      unfold Value.mkFunction at hf
      cases hs : L.sig f with
      | none => simp [hs] at hf
      | some s => simp [hs] at hf; subst hf; exact ⟨_, .func f s.1 s.2 hs⟩
    | sum tag items ty v _ hm ih => exact hsum tag items ty v ih hm
    | tuple items v _ hm ih =>
      unfold Value.mkTuple at hm
      cases ht : getTypes L items with
      | none => simp [ht] at hm
      | some ts => simp only [ht, unwrap_eq] at hm; exact hsum _ _ _ _ ih hm
    | unit => exact ⟨_, .sum 0 [] (.unit 1) [] rfl rfl (by simp)⟩
    | unitSum tag size v hm => exact hsum _ _ _ _ (by simp) hm
    | bool b v hm =>
      cases b with
      | true => simp only [Value.mkBool, if_true, unwrap_eq] at hm; exact hsum _ _ _ _ (by simp) hm
      | false =>
        simp only [Value.mkBool, Bool.false_eq_true, if_false, unwrap_eq] at hm
        exact hsum _ _ _ _ (by simp) hm
    | some items v _ hm ih =>
      unfold Value.mkSome at hm
      cases ht : getTypes L items with
      | none => simp [ht] at hm
      | some ts => simp only [ht, unwrap_eq] at hm; exact hsum _ _ _ _ ih hm
    | none tys v hm =>
      simp only [Value.mkNone, unwrap_eq] at hm; exact hsum _ _ _ _ (by simp) hm
    | left items right v _ hm ih =>
      unfold constLeft at hm
      cases ht : getTypes L items with
      | none => simp [ht] at hm
      | some ts => simp only [ht, unwrap_eq] at hm; exact hsum _ _ _ _ ih hm
    | right left items v _ hm ih =>
      unfold constRight at hm
      cases ht : getTypes L items with
      | none => simp [ht] at hm
      | some ts => simp only [ht, unwrap_eq] at hm; exact hsum _ _ _ _ ih hm
  obtain ⟨t, ht⟩ := key
  obtain ⟨u, hu, -⟩ := ht.reported
  exact ⟨u, hu, ht.at ⟨u, hu, tyEq_refl _⟩⟩

/-- C64 (constructors never panic): on well-typed values `tuple`, `some`, `none`, `const_left` and
`const_right` (and their aliases) always succeed, with the given values and with exactly the
variants one expects; `unit_sum` succeeds exactly for tags below the size; the two booleans are
the two variants of the sum of two empty rows. -/
theorem C64_constructors_total (L : Lib κ φ) (items : List (Value κ φ))
    (hw : ∀ v ∈ items, WellTyped L v) :
    ∃ ts : List Ty, ts.length = items.length ∧
      (∀ p ∈ items.zip ts, HasType L p.1 p.2) ∧
      (∃ ty, Value.mkTuple L items = some (.sum 0 items ty) ∧ ty.variants = [ts.map .ty]) ∧
      (∃ ty, Value.mkSome L items = some (.sum 1 items ty) ∧ ty.variants = [[], ts.map .ty]) ∧
      (∀ right : List RTy, ∃ ty, constLeft L items right = some (.sum 0 items ty) ∧
        ty.variants = [ts.map .ty, right]) ∧
      (∀ left : List RTy, ∃ ty, constRight L left items = some (.sum 1 items ty) ∧
        ty.variants = [left, ts.map .ty]) ∧
      (∀ tys : List Ty, ∃ ty, Value.mkNone L tys = some (.sum 0 [] ty) ∧
        ty.variants = [[], tys.map .ty]) ∧
      (∀ tag size : Nat, tag < size → Value.mkUnitSum L tag size = .ok (.sum tag [] (.unit size))) ∧
      (∀ tag size : Nat, size ≤ tag →
        Value.mkUnitSum L tag size = .err (.invalidTag tag size)) ∧
      (∀ b : Bool, Value.mkBool L b = some (.sum b.toNat [] (.unit 2))) := by
  obtain ⟨ts, hts, hl, hz⟩ := getTypes_some L items fun v hv => (hw v hv).getType
  have mk : ∀ tag (ty : SumTy), ty.variants[tag]? = some (ts.map .ty) →
      (Value.mkSum L tag items ty).unwrap = some (.sum tag items ty) := by
    intro tag ty hv
    rw [unwrap_eq, mkSum_ok]
    exact ⟨checkType_getTypes L ty tag items ts hts hv, rfl⟩
  have unit : ∀ tag size : Nat, tag < size →
      Value.mkUnitSum L tag size = .ok (.sum tag [] (.unit size)) := by
    intro tag size h
    unfold Value.mkUnitSum
    rw [mkSum_ok]
    exact ⟨checkType_getTypes L _ _ [] [] rfl
      (by simp [SumTy.variants, h]), rfl⟩
  refine ⟨ts, hl.symm, ?_, ?_, ?_, ?_, ?_, ?_, unit, ?_, ?_⟩
  · intro p hp
    obtain ⟨t, ht⟩ := hw p.1 (List.of_mem_zip hp).1
    exact ht.at ⟨p.2, hz p hp, tyEq_refl _⟩
  · refine ⟨.newTuple ts, ?_, variants_new _⟩
    simp only [Value.mkTuple, hts]
    exact mk 0 _ (by rw [SumTy.newTuple, variants_new]; rfl)
  · refine ⟨.newOption ts, ?_, variants_new _⟩
    simp only [Value.mkSome, hts]
    exact mk 1 _ (by rw [SumTy.newOption, variants_new]; rfl)
  · intro right
    refine ⟨.new [ts.map .ty, right], ?_, variants_new _⟩
    simp only [constLeft, hts]
    exact mk 0 _ (by rw [variants_new]; rfl)
  · intro left
    refine ⟨.new [left, ts.map .ty], ?_, variants_new _⟩
    simp only [constRight, hts]
    exact mk 1 _ (by rw [variants_new]; rfl)
  · intro tys
    refine ⟨.newOption tys, ?_, variants_new _⟩
    unfold Value.mkNone
    rw [unwrap_eq, mkSum_ok]
    exact ⟨checkType_getTypes L _ _ [] [] rfl (by rw [SumTy.newOption, variants_new]; rfl), rfl⟩
  · intro tag size h
    have : ¬ tag < size := by omega
    simp [Value.mkUnitSum, Value.mkSum, SumTy.checkType, SumTy.getVariant, SumTy.numVariants, this]
  · intro b
    cases b with
    | true =>
      simp only [Value.mkBool, if_true, unwrap_eq]
      exact unit 1 2 (by omega)
    | false =>
      simp only [Value.mkBool, Bool.false_eq_true, if_false, unwrap_eq]
      exact unit 0 2 (by omega)

/-- C64 (tuples): the tuple made of some values unpacks to these values; and whatever unpacks as a
tuple is a sum with a single variant. -/
theorem C64_tuple_unpacks (L : Lib κ φ) (items : List (Value κ φ)) (v : Value κ φ)
    (h : Value.mkTuple L items = some v) : v.asTuple = some items := by
  unfold Value.mkTuple at h
  cases ht : getTypes L items with
  | none => simp [ht] at h
  | some ts =>
    simp only [ht, unwrap_eq, mkSum_ok] at h
    obtain ⟨-, rfl⟩ := h
    have hn : ((SumTy.newTuple ts).asTuple).isSome = true := by
      unfold SumTy.newTuple SumTy.new
      by_cases hc : [ts.map RTy.ty].length < 256 ∧ [ts.map RTy.ty].all List.isEmpty = true
      · rw [if_pos hc]; rfl
      · rw [if_neg hc]; rfl
    obtain ⟨r, hr⟩ := Option.isSome_iff_exists.mp hn
    simp [Value.asTuple, hr]

/-- C64 (`validate`): for a constant whose parts are well typed, `validate` accepts exactly the
well-typed constants. Conversely everything inside a well-typed constant is accepted. -/
theorem C64_validate_exact (L : Lib κ φ) (v : Value κ φ) :
    WellTyped L v ↔ v.validate L = .ok () ∧ ∀ p ∈ v.parts, WellTyped L p := by
  constructor
  · exact wellTyped_parts
  · rintro ⟨hv, hp⟩
    cases v with
    | ext c =>
      by_cases hc : L.valid c = true
      · exact ⟨_, .ext c hc⟩
      · simp [Value.validate, hc] at hv
    | usize n => exact ⟨_, .usize n⟩
    | list elem vs => exact ⟨_, hasType_list_of_check hp hv⟩
    | func f =>
      unfold Value.validate at hv
      cases hs : L.sig f with
      | none => simp [hs] at hv
      | some s => exact ⟨_, .func f s.1 s.2 hs⟩
    | sum tag vs ty => exact ⟨_, hasType_sum_of_check hp hv⟩

/-- C64 (unique types): a well-typed constant has exactly the types equal to the one it reports. -/
theorem C64_type_is_reported (L : Lib κ φ) (v : Value κ φ) (t : Ty) (hw : WellTyped L v) :
    HasType L v t ↔ ∃ t', v.getType L = some t' ∧ t'.rustEq t = true := by
  constructor
  · exact HasType.reported
  · obtain ⟨u, hu⟩ := hw
    exact hu.at

/-- A pair claiming to hold a boolean, holding nothing: `check_type` refuses it. -/
def illTyped : Value Sym Empty := .sum 0 [] (.general [[.ty (.sumUnit 2)]])

/-- C64 finding: reading a sum constant makes no check, and `validate` compares the parts of a
constant with the reported types only, it does not look inside them. So a constant containing an
ill-typed constant is read back and passes validation, here a tuple of one element. Validation
refuses the inner constant on its own. -/
theorem C64_nested_ill_typed_accepted :
    readSum symLib ⟨0, [], some (.inl (.general [[.ty (.sumUnit 2)]]))⟩ = .ok illTyped ∧
    readSum symLib ⟨0, [illTyped], none⟩ =
      .ok (.sum 0 [illTyped] (.general [[.ty (.newTuple [.ty (.sumUnit 2)])]])) ∧
    (Value.sum 0 [illTyped] (.general [[.ty (.newTuple [.ty (.sumUnit 2)])]])).validate symLib
      = .ok () ∧
    illTyped.validate symLib = .err (.wrongVariantLength 0 1 0) ∧
    ¬ WellTyped symLib
      (Value.sum 0 [illTyped] (.general [[.ty (.newTuple [.ty (.sumUnit 2)])]])) := by
  refine ⟨rfl, rfl, ?_, rfl, ?_⟩
  · rw [Value.validate, checkType_ok]
    refine ⟨[.newTuple [.ty (.sumUnit 2)]], rfl, rfl, ?_⟩
    intro p hp
    simp only [List.zip_cons_cons, List.zip_nil_right, List.mem_singleton] at hp
    subst hp
    exact ⟨_, rfl, tyEq_refl _⟩
  · intro h
    have := (wellTyped_parts ((wellTyped_parts h).2 illTyped (by simp [Value.parts]))).1
    cases this

/-- C64 finding: the enum variant for function constants is public and reading makes no check
either, so there are function constants whose Hugr is not a monomorphic function. Asking for their
type panics; `validate` and `Value::function` return an error instead. -/
theorem C64_function_type_panics (L : Lib κ φ) (f : φ) (h : L.sig f = none) :
    (Value.func f : Value κ φ).getType L = none ∧
    (Value.func f : Value κ φ).validate L = .err .notMonomorphicFunction ∧
    Value.mkFunction L f = .err .notMonomorphicFunction ∧
    Value.mkTuple L [.func f] = none ∧
    (∀ t : Ty, (Value.sum 0 [.func f] (.general [[.ty t]])).validate L = .panic) := by
  refine ⟨by simp [Value.getType, h], by simp [Value.validate, h], by simp [Value.mkFunction, h],
    by simp [Value.mkTuple, getTypes, Value.getType, h], fun t => ?_⟩
  simp [Value.validate, SumTy.checkType, SumTy.getVariant, toTypeRow, checkItems, Value.getType, h]

/-! ## Reading and writing -/

/-- C64 (sums read back): a written sum constant reads back with the same tag, values and type. A
sum written without its type reads back as the tuple of its values, which is well typed if they
are; with a tag other than 0 it is refused. -/
theorem C64_sum_reads_back (L : Lib κ φ) (tag : Nat) (vs : List (Value κ φ)) (ty : SumTy) :
    readSum L (writeSum tag vs ty) = .ok (.sum tag vs ty) ∧
    (tag ≠ 0 → readSum L ⟨tag, vs, none⟩ = .err ()) ∧
    ((∀ v ∈ vs, WellTyped L v) → ∃ v, readSum L ⟨0, vs, none⟩ = .ok v ∧ WellTyped L v ∧
      v.asTuple = some vs) := by
  refine ⟨rfl, fun h => by simp [readSum, h], fun hw => ?_⟩
  obtain ⟨ts, hts, -, -⟩ := getTypes_some L vs fun v hv => (hw v hv).getType
  have hc : (SumTy.newTuple ts).checkType L 0 vs = .ok () :=
    checkType_getTypes L _ _ vs ts hts (by rw [SumTy.newTuple, variants_new]; rfl)
  refine ⟨.sum 0 vs (.newTuple ts), by simp [readSum, hts], ⟨_, hasType_sum_of_check hw hc⟩, ?_⟩
  refine C64_tuple_unpacks L vs _ ?_
  simp only [Value.mkTuple, hts]
  rw [unwrap_eq, mkSum_ok]
  exact ⟨hc, rfl⟩

/-- C64 finding: when the type written with a sum constant of tag 0 is not a sum type, it is
silently ignored and the constant is read as a tuple. -/
theorem C64_declared_type_ignored (L : Lib κ φ) (vs : List (Value κ φ)) (t : Ty) :
    readSum L ⟨0, vs, some (.inr t)⟩ = readSum L ⟨0, vs, none⟩ := rfl

/-! ## Equality and hashing -/

theorem sumTy_trace_eq {a b : SumTy} (h : a.rustEq b = true) : a.trace = b.trace := by
  unfold SumTy.rustEq at h
  simp only [Bool.and_eq_true, beq_iff_eq] at h
  have key : ∀ r r' : List (List RTy), rustEqRows r r' = true → traceRows r = traceRows r' := by
    intro r r' h
    have h1 : (Ty.sumGen r .copyable).rustEq (.sumGen r' .copyable) = true := by
      simp [Ty.rustEq, h]
    have := C02_equal_types_hash_alike.1 _ _ h1
    simpa [Ty.trace] using this
  exact key _ _ h.2

theorem sumTy_toTy_eq {a b : SumTy} (h : a.rustEq b = true) : a.toTy.rustEq b.toTy = true := by
  unfold SumTy.rustEq at h
  simp only [Bool.and_eq_true, beq_iff_eq] at h
  have hu : ∀ n, (Ty.sumUnit n).rustEq (Ty.newSum (List.replicate n [])) = true := by
    intro n
    by_cases hn : n < 256
    · rw [(C02_unit_sum_interchangeable n).2.2.2.1 hn]; exact tyEq_refl _
    · rw [(C02_unit_sum_interchangeable n).2.2.2.2 (by omega)]
      exact (C02_unit_sum_interchangeable n).2.1
  have hs : ∀ a : SumTy, a.toTy.rustEq (Ty.newSum a.variants) = true := by
    intro a
    cases a with
    | unit n => exact hu n
    | general rows => exact tyEq_refl _
  exact tyEq_trans (hs a) (tyEq_trans ((C02_new_sum_rows a.variants b.variants).2.mpr h.2)
    (tyEq_symm (hs b)))

/-- C64 (equality respects types): equal constants report equal types. -/
theorem C64_equal_values_equal_types (L : Lib κ φ) (hL : L.Lawful) (v v' : Value κ φ)
    (h : v.rustEq L v' = true) (t : Ty) (ht : v.getType L = some t) :
    ∃ t', v'.getType L = some t' ∧ t.rustEq t' = true := by
  cases v with
  | ext c => cases v' <;> simp [Value.rustEq] at h; cases ht; exact ⟨_, rfl, hL.type_eq _ _ h⟩
  | usize n => cases v' <;> simp [Value.rustEq] at h; cases ht; exact ⟨_, rfl, tyEq_refl _⟩
  | list e vs =>
    cases v' <;> simp [Value.rustEq] at h
    next e' vs' =>
      cases ht
      refine ⟨_, rfl, ?_⟩
      have hb : e.bound = e'.bound := by
        have he := h.2
        cases e <;> cases e' <;> simp_all [Ty.rustEq, Ty.bound]
      simp [listTy, Ty.rustEq, rustEqTerms, Term.rustEq, h.2, hb]
  | func f =>
    cases v' <;> simp [Value.rustEq] at h
    next f' =>
      refine ⟨t, ?_, tyEq_refl _⟩
      simp only [Value.getType] at ht ⊢
      rw [← hL.sig_eq f f' h]; exact ht
  | sum tag vs ty =>
    cases v' <;> simp [Value.rustEq] at h
    cases ht
    exact ⟨_, rfl, sumTy_toTy_eq h.2⟩

mutual
theorem tryHash_eq (L : Lib κ φ) (hL : L.Lawful) (finish : List Tok → Nat) :
    ∀ (v v' : Value κ φ) (st : List Tok), v.rustEq L v' = true →
      v.tryHash L finish st = v'.tryHash L finish st
  | .ext c, v', st, h => by
    cases v' <;> simp [Value.rustEq] at h
    simp only [Value.tryHash, hL.hash_eq _ _ h]
  | .usize n, v', st, h => by
    cases v' <;> simp [Value.rustEq] at h
    simp [Value.tryHash, h]
  | .list t vs, v', st, h => by
    cases v' <;> simp [Value.rustEq] at h
    next t' vs' =>
      simp only [Value.tryHash, hashAll_eq L hL finish vs vs' [] h.1,
        C02_equal_types_hash_alike.1 _ _ h.2]
  | .func f, v', st, h => by
    cases v' <;> simp [Value.rustEq] at h
    simp [Value.tryHash]
  | .sum tag vs ty, v', st, h => by
    cases v' <;> simp [Value.rustEq] at h
    next tag' vs' ty' =>
      simp only [Value.tryHash, hashAll_eq L hL finish vs vs' [] h.1.2, sumTy_trace_eq h.2, h.1.1]
theorem hashAll_eq (L : Lib κ φ) (hL : L.Lawful) (finish : List Tok → Nat) :
    ∀ (vs vs' : List (Value κ φ)) (st : List Tok), rustEqValues L vs vs' = true →
      hashAll L finish vs st = hashAll L finish vs' st
  | [], vs', st, h => by
    cases vs' <;> simp [rustEqValues] at h
    rfl
  | v :: vs, [], st, h => by simp [rustEqValues] at h
  | v :: vs, v' :: vs', st, h => by
    simp only [rustEqValues, Bool.and_eq_true] at h
    simp only [hashAll, tryHash_eq L hL finish v v' st h.1]
    cases v'.tryHash L finish st with
    | mk st' b =>
      cases b with
      | true => exact hashAll_eq L hL finish vs vs' st' h.2
      | false => rfl
end

/-- C64 (equal constants hash alike): two equal constants are both hashable or both not, and when
they are they leave any hasher in the same state, whatever function computes the inner digests. -/
theorem C64_equal_values_hash_alike (L : Lib κ φ) (hL : L.Lawful) (finish : List Tok → Nat)
    (v v' : Value κ φ) (h : v.rustEq L v' = true) (st : List Tok) :
    v.tryHash L finish st = v'.tryHash L finish st := tryHash_eq L hL finish v v' st h

/-- C64 (failed hashing): a constant that is not hashable leaves the hasher as it was, so callers
may go on with it; otherwise something is only appended. -/
theorem C64_failed_hash_leaves_hasher (L : Lib κ φ) (finish : List Tok → Nat) (v : Value κ φ)
    (st : List Tok) :
    ((v.tryHash L finish st).2 = false → (v.tryHash L finish st).1 = st) ∧
    (∃ out, (v.tryHash L finish st).1 = st ++ out) := by
  cases v with
  | ext c => simp only [Value.tryHash]; cases L.hash c <;> simp
  | usize n => simp [Value.tryHash]
  | list t vs =>
    simp only [Value.tryHash]
    rcases hashAll L finish vs [] with ⟨inner, b⟩
    cases b <;> simp
  | func f => simp [Value.tryHash]
  | sum tag vs ty =>
    simp only [Value.tryHash]
    rcases hashAll L finish vs [] with ⟨inner, b⟩
    cases b <;> simp

mutual
theorem tryHash_hashable (L : Lib κ φ) (finish : List Tok → Nat) :
    ∀ (v : Value κ φ) (st : List Tok), (v.tryHash L finish st).2 = true ↔ Hashable L v
  | .ext c, st => by
    simp only [Value.tryHash]
    cases hc : L.hash c with
    | none =>
      simp only [Bool.false_eq_true, false_iff]
      intro h; cases h with | ext _ h => simp [hc] at h
    | some h => simp only [true_iff]; exact .ext c (by simp [hc])
  | .usize n, st => by simp only [Value.tryHash, true_iff]; exact .usize n
  | .list t vs, st => by
    have ih := hashAll_hashable L finish vs []
    simp only [Value.tryHash]
    rcases hh : hashAll L finish vs [] with ⟨inner, b⟩
    rw [hh] at ih
    cases b with
    | true => simp only [true_iff] at ih ⊢; exact .list t vs ih
    | false =>
      simp only [Bool.false_eq_true, false_iff] at ih ⊢
      intro h; cases h with | list _ _ h => exact ih h
  | .func f, st => by
    simp only [Value.tryHash, Bool.false_eq_true, false_iff]
    nofun
  | .sum tag vs ty, st => by
    have ih := hashAll_hashable L finish vs []
    simp only [Value.tryHash]
    rcases hh : hashAll L finish vs [] with ⟨inner, b⟩
    rw [hh] at ih
    cases b with
    | true => simp only [true_iff] at ih ⊢; exact .sum tag vs ty ih
    | false =>
      simp only [Bool.false_eq_true, false_iff] at ih ⊢
      intro h; cases h with | sum _ _ _ h => exact ih h
theorem hashAll_hashable (L : Lib κ φ) (finish : List Tok → Nat) :
    ∀ (vs : List (Value κ φ)) (st : List Tok),
      (hashAll L finish vs st).2 = true ↔ ∀ v ∈ vs, Hashable L v
  | [], st => by simp [hashAll]
  | v :: vs, st => by
    have ih := tryHash_hashable L finish v st
    rw [List.forall_mem_cons, ← ih]
    simp only [hashAll]
    rcases hh : v.tryHash L finish st with ⟨st', b⟩
    cases b with
    | true => simp [hashAll_hashable L finish vs st']
    | false => simp
end

/-- C64 (hashable constants): a constant can be hashed exactly when no function constant occurs in
it and every extension constant in it can be hashed; this does not depend on the hasher. -/
theorem C64_hashable_iff (L : Lib κ φ) (finish : List Tok → Nat) (v : Value κ φ) (st : List Tok) :
    (v.tryHash L finish st).2 = true ↔ Hashable L v := tryHash_hashable L finish v st

/-! ## Non-vacuity -/

/-- The external symbols form a lawful library. -/
theorem symLib_lawful : symLib.Lawful where
  type_eq := by
    intro c c' h
    simp only [symLib, Bool.and_eq_true, beq_iff_eq] at h
    exact h.1.2
  hash_eq := by
    intro c c' h
    simp only [symLib, Bool.and_eq_true, beq_iff_eq] at h
    simp only [symLib, h.1.1, h.2, C02_equal_types_hash_alike.1 _ _ h.1.2]
  sig_eq := nofun

/-- A boolean paired with a number and an external symbol: built, hence well typed. -/
example : ∃ v, Built symLib v ∧ v.asTuple =
    some [.sum 1 [] (.unit 2), .usize 7, .ext ⟨"x", usizeTy, true⟩] := by
  let items : List (Value Sym Empty) := [.sum 1 [] (.unit 2), .usize 7, .ext ⟨"x", usizeTy, true⟩]
  have hb : ∀ v ∈ items, Built symLib v := by
    intro v hv
    simp only [items, List.mem_cons, List.not_mem_nil, or_false] at hv
    rcases hv with rfl | rfl | rfl
    · exact .bool true _ ((C64_constructors_total symLib [] (by simp)).choose_spec.2.2.2.2.2.2.2.2.2 true)
    · exact .usize 7
    · exact .ext _ rfl
  have hw : ∀ v ∈ items, WellTyped symLib v := fun v hv =>
    let ⟨t, _, ht⟩ := C64_built_well_typed symLib v (hb v hv); ⟨t, ht⟩
  obtain ⟨ts, -, -, ⟨ty, h, -⟩, -⟩ := C64_constructors_total symLib items hw
  exact ⟨_, .tuple items _ hb h, C64_tuple_unpacks symLib items _ h⟩

/-- A refused sum: the tag does not exist. -/
example : Value.mkSum symLib 2 [] (.unit 2) = .err (.invalidTag 2 2) := rfl

/-- Two equal constants with different representations of the same type. -/
example : (Value.sum 0 [] (.unit 1) : Value Sym Empty).rustEq symLib (.sum 0 [] (.general [[]]))
    = true := by decide +kernel

end Verif.Consts
