import Verif.Types.SubstLemmas
/-
C03 (substitution keeps types valid), C04 (identity substitution), C05 (composition of
substitutions), C06 (instantiation of polymorphic functions).
-/
namespace Verif.Types

/-! ## Identity substitution: specification and lemmas -/

/-- The arguments that replace every declared variable by a use of itself. -/
def idArgs (Δ : List Term) : List Term := Δ.mapIdx Term.newVarUse

mutual
/-- No tuple kind and no row variable (inside function types and sums). -/
def Term.noTupleRow : Term → Bool
  | .listType t => t.noTupleRow
  | .tupleType _ => false
  | .runtime t => t.noTupleRow
  | .list es => noTupleRowTerms es
  | .listConcat es => noTupleRowTerms es
  | .tuple es => noTupleRowTerms es
  | .tupleConcat es => noTupleRowTerms es
  | .constType t => t.noTupleRow
  | _ => true
def noTupleRowTerms : List Term → Bool
  | [] => true
  | t :: ts => t.noTupleRow && noTupleRowTerms ts
def Ty.noTupleRow : Ty → Bool
  | .ext _ _ args _ => noTupleRowTerms args
  | .function i o => noTupleRowRow i && noTupleRowRow o
  | .sumGen rows _ => noTupleRowRows rows
  | _ => true
def RTy.noTupleRow : RTy → Bool
  | .ty t => t.noTupleRow
  | .rowVar _ _ => false
def noTupleRowRow : List RTy → Bool
  | [] => true
  | t :: ts => t.noTupleRow && noTupleRowRow ts
def noTupleRowRows : List (List RTy) → Bool
  | [] => true
  | r :: rs => noTupleRowRow r && noTupleRowRows rs
end

theorem noTupleRowTerms_iff (ts : List Term) :
    noTupleRowTerms ts = true ↔ ∀ t ∈ ts, t.noTupleRow = true := by
  induction ts with
  | nil => simp [noTupleRowTerms]
  | cons t ts ih => simp [noTupleRowTerms, ih]
theorem noTupleRowRow_iff (ts : List RTy) :
    noTupleRowRow ts = true ↔ ∀ t ∈ ts, t.noTupleRow = true := by
  induction ts with
  | nil => simp [noTupleRowRow]
  | cons t ts ih => simp [noTupleRowRow, ih]
theorem noTupleRowRows_iff (ts : List (List RTy)) :
    noTupleRowRows ts = true ↔ ∀ r ∈ ts, ∀ t ∈ r, t.noTupleRow = true := by
  induction ts with
  | nil => simp [noTupleRowRows]
  | cons t ts ih => simp [noTupleRowRows, ih, noTupleRowRow_iff]

theorem idArgs_get {Δ : List Term} {i : Nat} {d : Term} (h : Δ[i]? = some d) :
    (idArgs Δ)[i]? = some (Term.newVarUse i d) := by
  simp [idArgs, List.getElem?_mapIdx, h]

theorem newVarUse_check {i : Nat} {d : Term} (h : d.concatFree = true) :
    checkTerm (Term.newVarUse i d) d = true := by
  have hr := C07_supertype_reflexive_partial d h
  cases d <;> first
    | (simp only [Term.newVarUse, checkTerm, Ty.bound]; exact C01_contains_partial_order.1 _)
    | (simp only [Term.newVarUse, checkTerm]; exact hr)

theorem newVarUse_other {i : Nat} {d : Term} (h : d.isRuntimeType = false) :
    Term.newVarUse i d = .variable i d := by
  cases d <;> first | rfl | (simp [Term.isRuntimeType] at h)

theorem subst_identity {env : Env} {Δ : List Term} (hΔ : ∀ d ∈ Δ, d.concatFree = true) :
    (∀ t : Term, t.plain = true → t.built = true → t.noTupleRow = true →
      t.validate env Δ = true → t.subst env (idArgs Δ) = some t) ∧
    (∀ t : Ty, t.plain = true → t.built = true → t.noTupleRow = true →
      t.validate env Δ = true → t.subst env (idArgs Δ) = some t) ∧
    (∀ t : RTy, t.plain = true → t.built = true → t.noTupleRow = true →
      t.validate env Δ = true → t.subst env (idArgs Δ) = some [t]) := by
  have hterms : ∀ ts : List Term, (∀ t ∈ ts, t.subst env (idArgs Δ) = some t) →
      substTerms env (idArgs Δ) ts = some ts := by
    intro ts h
    induction ts with
    | nil => rfl
    | cons t ts ih => simp [substTerms, h t (by simp), ih (fun x hx => h x (by simp [hx]))]
  have hrow : ∀ ts : List RTy, (∀ t ∈ ts, t.subst env (idArgs Δ) = some [t]) →
      substRow env (idArgs Δ) ts = some ts := by
    intro ts h
    induction ts with
    | nil => rfl
    | cons t ts ih => simp [substRow, h t (by simp), ih (fun x hx => h x (by simp [hx]))]
  apply syntax_induction
  case list =>
    intro es ih hp hb hn hv
    have hpl := plain_list hp
    simp only [Term.built, builtTerms_iff] at hb
    simp only [Term.noTupleRow, noTupleRowTerms_iff] at hn
    simp only [Term.validate, validateTerms_iff] at hv
    have hs := hterms es (fun t ht => ih t ht (hpl t ht) (hb t ht) (hn t ht) (hv t ht))
    simp only [Term.subst, hs, Option.some.injEq]
    rw [newList_splice _ _ (fun e he => plain_not_concat (hpl e he))]
    cases ha : areTypes es with
    | false => rw [spliceElems_false]
    | true =>
      simp only [Term.plain, ha, Bool.not_true, Bool.false_or, Bool.and_eq_true,
          List.all_eq_true] at hp
      have : ∀ l : List Term, (∀ e ∈ l, e.isTypeElem = true) → spliceElems true l = l := by
        intro l hl
        induction l with
        | nil => rfl
        | cons e l ihl =>
          have := ihl (fun x hx => hl x (by simp [hx]))
          simp only [spliceElems, List.flatMap_cons] at this ⊢
          rw [this]
          have he := hl e (by simp)
          cases e <;> simp [Term.isTypeElem] at he <;> rfl
      rw [this es hp.2]
  case listConcat => intro ts _ hp; simp [Term.plain] at hp
  case tupleConcat => intro ts _ hp; simp [Term.plain] at hp
  case tuple =>
    intro es ih hp hb hn hv
    simp only [Term.plain, plainTerms_iff] at hp
    simp only [Term.built, builtTerms_iff] at hb
    simp only [Term.noTupleRow, noTupleRowTerms_iff] at hn
    simp only [Term.validate, validateTerms_iff] at hv
    have hs := hterms es (fun t ht => ih t ht (hp t ht) (hb t ht) (hn t ht) (hv t ht))
    simp [Term.subst, hs]
  case var =>
    intro i d _ hp hb hn hv
    simp only [Term.validate, Bool.and_eq_true, checkDecl_iff, Bool.not_eq_true'] at hv
    have hg := idArgs_get hv.2
    have hc := newVarUse_check (i := i) (hΔ d (List.mem_of_getElem? hv.2))
    rw [newVarUse_other hv.1] at hg hc
    simp [Term.subst, applyVar, hg, hc]
  case tupleType => intro t _ _ _ hn; simp [Term.noTupleRow] at hn
  case listType => intro t ih hp hb hn hv; simp [Term.subst, ih hp hb hn hv]
  case constType => intro t ih hp hb hn hv; simp [Term.subst, ih hp hb hn hv]
  case runtime => intro t ih hp hb hn hv; simp [Term.subst, ih hp hb hn hv]
  case ext =>
    intro e i args b ih hp hb hn hv
    simp only [Ty.plain, plainTerms_iff] at hp
    simp only [Ty.built, builtTerms_iff] at hb
    simp only [Ty.noTupleRow, noTupleRowTerms_iff] at hn
    simp only [Ty.validate, Bool.and_eq_true, validateTerms_iff] at hv
    have hs := hterms args (fun t ht => ih t ht (hp t ht) (hb t ht) (hn t ht) (hv.1 t ht))
    have hv2 := hv.2
    cases hd : env e i with
    | none => simp [hd] at hv2
    | some d =>
      simp only [hd, Bool.and_eq_true, decide_eq_true_eq] at hv2
      simp [Ty.subst, hs, hd, hv2.2, C01_contains_partial_order.1 b]
  case «alias» => intros; rfl
  case sumUnit => intros; rfl
  case function =>
    intro i o ihi iho hp hb hn hv
    simp only [Ty.plain, Bool.and_eq_true, plainRow_iff] at hp
    simp only [Ty.built, Bool.and_eq_true, builtRow_iff] at hb
    simp only [Ty.noTupleRow, Bool.and_eq_true, noTupleRowRow_iff] at hn
    simp only [Ty.validate, Bool.and_eq_true, validateRow_iff] at hv
    have h1 := hrow i (fun t ht => ihi t ht (hp.1 t ht) (hb.1 t ht) (hn.1 t ht) (hv.1 t ht))
    have h2 := hrow o (fun t ht => iho t ht (hp.2 t ht) (hb.2 t ht) (hn.2 t ht) (hv.2 t ht))
    simp [Ty.subst, h1, h2]
  case tyVar =>
    intro i b _ _ _ hv
    simp only [Ty.validate, checkDecl_iff] at hv
    have hg := idArgs_get hv
    have hc := newVarUse_check (i := i) (hΔ _ (List.mem_of_getElem? hv))
    simp only [Term.newVarUse] at hg hc
    simp [Ty.subst, applyVar, hg, hc]
  case sumGen =>
    intro rows b ih hp hb hn hv
    simp only [Ty.plain, plainRows_iff] at hp
    simp only [Ty.built, Bool.and_eq_true, builtRows_iff, decide_eq_true_eq] at hb
    simp only [Ty.noTupleRow, noTupleRowRows_iff] at hn
    simp only [Ty.validate, validateRows_iff] at hv
    have hrows : substRows env (idArgs Δ) rows = some rows := by
      rw [substRows_some]
      have : ∀ l : List (List RTy), (∀ r ∈ l, substRow env (idArgs Δ) r = some r) →
          List.Forall₂ (fun r r' => substRow env (idArgs Δ) r = some r') l l := by
        intro l hl
        induction l with
        | nil => exact .nil
        | cons r l ihl => exact .cons (hl r (by simp)) (ihl (fun x hx => hl x (by simp [hx])))
      exact this rows (fun r hr => hrow r (fun t ht =>
        ih r hr t ht (hp r hr t ht) (hb.1.1 r hr t ht) (hn r hr t ht) (hv r hr t ht)))
    have hnu : ¬(rows.length < 256 ∧ rows.all List.isEmpty = true) := by
      intro hh
      have := hb.2
      simp [hh.1] at this
      obtain ⟨x, hx, hxe⟩ := this
      have := hh.2
      simp only [List.all_eq_true, List.isEmpty_iff] at this
      exact hxe (this x hx)
    simp only [Ty.subst, hrows, Ty.newSum, if_neg hnu, Ty.general, ← hb.1.2]
  case rty => intro t ih hp hb hn hv; simp [RTy.subst, ih hp hb hn hv]
  case rowVar => intro i b _ _ hn; simp [RTy.noTupleRow] at hn
  all_goals (intros; rfl)

/-! ## C03 -/

/-- C03: substituting arguments of the declared kinds, valid in `Γ`, into a type valid in `Δ`
succeeds; the result is valid in `Γ` and no more linear.
Partial: types and arguments without list and tuple concatenations, environments without kinds
"list of lists of types", and literal lists as arguments for row variables; the other cases are
refuted below. -/
theorem C03_subst_valid_partial (env : Env) (Δ Γ σ : List Term) (henv : EnvOk env)
    (hσ : ArgsFit env Δ Γ σ) (t : Ty) (hp : t.plain = true) (hb : t.built = true)
    (hv : t.validate env Δ = true) :
    ∃ t', t.subst env σ = some t' ∧ t'.validate env Γ = true ∧
      t.bound.contains t'.bound = true := by
  obtain ⟨t', h1, h2⟩ := (subst_valid henv hσ).2.1 t hp hb hv
  exact ⟨t', h1, h2, subst_bound.2.1 t hb t' h1⟩

/-- C03 (copyable types stay copyable), whatever the arguments: no hypothesis on the arguments or
on the fragment is needed when the substitution does not panic. -/
theorem C03_copyable_stays_copyable (env : Env) (σ : List Term) (t t' : Ty) (hb : t.built = true)
    (h : t.subst env σ = some t') (hc : t.copyable = true) : t'.copyable = true :=
  contains_trans hc (subst_bound.2.1 t hb t' h)

/-- C03 (rows): the same for the rows of function types and sums, including row variables. -/
theorem C03_subst_row_valid_partial (env : Env) (Δ Γ σ : List Term) (henv : EnvOk env)
    (hσ : ArgsFit env Δ Γ σ) (row : List RTy) (hp : ∀ t ∈ row, t.plain = true)
    (hb : ∀ t ∈ row, t.built = true) (hv : ∀ t ∈ row, t.validate env Δ = true) :
    ∃ row', substRow env σ row = some row' ∧ ∀ t ∈ row', t.validate env Γ = true := by
  obtain ⟨rs, h⟩ := forall₂_of_exists
    (R := fun (t : RTy) r => t.subst env σ = some r ∧ ∀ t' ∈ r, t'.validate env Γ = true)
    (fun t ht => (subst_valid henv hσ).2.2 t (hp t ht) (hb t ht) (hv t ht))
  refine ⟨rs.flatten, substRow_some.mpr ⟨rs, h.imp fun _ _ h => h.1, rfl⟩, ?_⟩
  intro t ht
  obtain ⟨r, hr, ht⟩ := List.mem_flatten.mp ht
  obtain ⟨_, _, h2⟩ := forall₂_mem_right h r hr
  exact h2.2 t ht

/-- C03 (kinds): substitution keeps the kind of a static term. Partial: as above. -/
theorem C03_subst_keeps_kind_partial (env : Env) (σ : List Term) (hσ : ∀ s ∈ σ, s.plain = true)
    (t t' k : Term) (hp : t.plain = true) (hb : t.built = true) (hk : k.kindOk = true)
    (h : t.subst env σ = some t') (hc : checkTerm t k = true) : checkTerm t' k = true :=
  subst_check hσ t hp hb t' h k hk hc

/-- C03 (finding): a function type over a row variable panics when the row variable is replaced by
another row variable, although the argument has the declared kind and is valid: the code looks
for the row variable in the wrong place (`apply_rowvar`, types.rs:750-778). -/
theorem C03_row_variable_argument_panics :
    ∃ (Δ Γ σ : List Term) (t : Ty),
      checkTerms σ Δ = true ∧ validateTerms (fun _ _ => none) Γ σ = true ∧
      t.validate (fun _ _ => none) Δ = true ∧ t.subst (fun _ _ => none) σ = none :=
  ⟨[.listType (.runtimeType .linear)], [.listType (.runtimeType .linear)],
    [.variable 0 (.listType (.runtimeType .linear))], .function [.rowVar 0 .linear] [],
    by decide, by decide, by decide, by decide⟩

/-- C03 (finding): the check of list concatenations compares each list with the kind of the items
(`check_term_type`, type_param.rs:660-662): a concatenation of lists of types is rejected as a
list of types, and a concatenation of types, which is no list of types, is accepted and then
panics when used. -/
theorem C03_list_concat_misjudged :
    checkTerm (.listConcat [.list [.runtime (.sumUnit 2)]]) (.listType (.runtimeType .linear))
      = false ∧
    checkTerm (.listConcat [.runtime (.sumUnit 2)]) (.listType (.runtimeType .linear)) = true ∧
    (Ty.function [.rowVar 0 .linear] []).subst (fun _ _ => none)
      [.listConcat [.runtime (.sumUnit 2)]] = none :=
  ⟨by decide, by decide, by decide⟩

/-- C03 (finding): a list of lists of types beginning with a variable is flattened by substitution
and loses its kind. -/
theorem C03_list_of_lists_flattened :
    ∃ (t k a t' : Term), checkTerm t k = true ∧ checkTerm a (.listType (.runtimeType .linear)) = true
      ∧ t.validate (fun _ _ => none) [.listType (.runtimeType .linear)] = true
      ∧ t.subst (fun _ _ => none) [a] = some t' ∧ checkTerm t' k = false :=
  ⟨.list [.variable 0 (.listType (.runtimeType .linear))], .listType (.listType (.runtimeType .linear)),
    .list [.runtime (.sumUnit 2)], .list [.runtime (.sumUnit 2)],
    by decide, by decide, by decide, by decide, by decide⟩

/-! ## C04 -/

/-- C04: substituting each declared variable by itself returns the type unchanged.
Partial: without concatenations, tuple kinds and row variables, and with declared kinds on which
the supertype relation is reflexive; the other cases are refuted below. -/
theorem C04_identity_type_partial (env : Env) (Δ : List Term)
    (hΔ : ∀ d ∈ Δ, d.concatFree = true) (t : Ty) (hp : t.plain = true) (hb : t.built = true)
    (hn : t.noTupleRow = true) (hv : t.validate env Δ = true) :
    t.subst env (idArgs Δ) = some t :=
  (subst_identity hΔ).2.1 t hp hb hn hv

/-- C04 (terms): the same for static terms. -/
theorem C04_identity_term_partial (env : Env) (Δ : List Term)
    (hΔ : ∀ d ∈ Δ, d.concatFree = true) (t : Term) (hp : t.plain = true) (hb : t.built = true)
    (hn : t.noTupleRow = true) (hv : t.validate env Δ = true) :
    t.subst env (idArgs Δ) = some t :=
  (subst_identity hΔ).1 t hp hb hn hv

/-- C04 (finding): substitution turns every tuple kind into a list kind (type_param.rs:449), even
when nothing is substituted. -/
theorem C04_tuple_kind_refuted (env : Env) (items : Term) (σ : List Term)
    (h : items.subst env σ = some items) :
    (Term.tupleType items).subst env σ = some (.listType items) := by
  simp [Term.subst, h]

/-- C04 (finding): the identity substitution panics on row variables. -/
theorem C04_row_variable_refuted (env : Env) (i : Nat) (b : Bound) (Δ : List Term)
    (h : Δ[i]? = some (.listType (.runtimeType b))) :
    (RTy.rowVar i b).validate env Δ = true ∧
      (RTy.rowVar i b).subst env (idArgs Δ) = none := by
  refine ⟨by simp [RTy.validate, checkDecl_iff, h], ?_⟩
  have hg := idArgs_get h
  simp only [Term.newVarUse] at hg
  simp [RTy.subst, applyRowVar, hg]

/-! ## C05 -/

/-- C05: applying `σ` and then `τ` is applying the composed arguments once.
Partial: terms and arguments without concatenations (fragment `plain`); both substitutions are
assumed not to panic. -/
theorem C05_compose_partial (env : Env) (σ τ ρ : List Term)
    (hσ : ∀ s ∈ σ, s.plain = true ∧ s.built = true) (hτ : ∀ s ∈ τ, s.plain = true)
    (hρ : substTerms env τ σ = some ρ) :
    (∀ t t1 t2 : Term, t.plain = true → t.subst env σ = some t1 → t1.subst env τ = some t2 →
      t.subst env ρ = some t2) ∧
    (∀ t t1 t2 : Ty, t.plain = true → t.subst env σ = some t1 → t1.subst env τ = some t2 →
      t.subst env ρ = some t2) ∧
    (∀ (t : RTy) (r1 r2 : List RTy), t.plain = true → t.subst env σ = some r1 →
      substRow env τ r1 = some r2 → t.subst env ρ = some r2) := by
  have hc : Composes env σ τ ρ :=
    ⟨fun s hs => (hσ s hs).1, fun s hs => (hσ s hs).2, hτ, hρ⟩
  exact ⟨fun t t1 t2 hp h1 h2 => (subst_compose hc).1 t hp t1 h1 t2 h2,
    fun t t1 t2 hp h1 h2 => (subst_compose hc).2.1 t hp t1 h1 t2 h2,
    fun t r1 r2 hp h1 h2 => (subst_compose hc).2.2 t hp r1 h1 r2 h2⟩

/-! ## C06 -/

/-- Specification: one argument per parameter, each accepted for its parameter. -/
def ArgsCheck (args params : List Term) : Prop :=
  args.length = params.length ∧
    ∀ (i : Nat) (a p : Term), args[i]? = some a → params[i]? = some p → checkTerm a p = true

theorem checkTerms_iff_argsCheck (args params : List Term) :
    checkTerms args params = true ↔ ArgsCheck args params := by
  induction args generalizing params with
  | nil => cases params <;> simp [checkTerms, ArgsCheck]
  | cons a args ih =>
    cases params with
    | nil => simp [checkTerms, ArgsCheck]
    | cons p params =>
      simp only [checkTerms, Bool.and_eq_true, ih, ArgsCheck, List.length_cons]
      constructor
      · rintro ⟨h1, h2, h3⟩
        refine ⟨by omega, ?_⟩
        intro i a' p' ha hp
        cases i with
        | zero => simp at ha hp; subst ha; subst hp; exact h1
        | succ i => simp at ha hp; exact h3 i a' p' ha hp
      · rintro ⟨h1, h2⟩
        exact ⟨h2 0 a p (by simp) (by simp), by omega,
          fun i a' p' ha hp => h2 (i + 1) a' p' (by simpa using ha) (by simpa using hp)⟩

theorem substTypes_valid {env : Env} {Δ Γ σ : List Term} (henv : EnvOk env)
    (hf : ArgsFit env Δ Γ σ) {ts : List Ty} (hp : ∀ t ∈ ts, t.plain = true)
    (hb : ∀ t ∈ ts, t.built = true) (hv : ∀ t ∈ ts, t.validate env Δ = true) :
    ∃ ts', substTypes env σ ts = some ts' ∧ ts'.length = ts.length ∧
      ∀ t ∈ ts', t.validate env Γ = true := by
  induction ts with
  | nil => exact ⟨[], rfl, rfl, by simp⟩
  | cons t ts ih =>
    obtain ⟨t', h1, h2⟩ := (subst_valid henv hf).2.1 t (hp t (by simp)) (hb t (by simp))
      (hv t (by simp))
    obtain ⟨ts', h3, h4, h5⟩ := ih (fun x hx => hp x (by simp [hx])) (fun x hx => hb x (by simp [hx]))
      (fun x hx => hv x (by simp [hx]))
    refine ⟨t' :: ts', by simp [substTypes, h1, h3], by simp [h4], ?_⟩
    intro x hx
    rcases List.mem_cons.mp hx with rfl | hx
    · exact h2
    · exact h5 x hx

/-- C06 (rejection): instantiation fails with an error exactly when the arguments do not match the
parameters. -/
theorem C06_error_iff_mismatch (env : Env) (p : PolyFunc) (args : List Term) :
    p.instantiate env args = .error ↔ ¬ ArgsCheck args p.params := by
  rw [← checkTerms_iff_argsCheck]
  unfold PolyFunc.instantiate
  split
  · next h =>
    simp only [h, not_true, iff_false]
    split <;> simp
  · next h => simp [h]

/-- C06 (success): a valid scheme applied to matching, valid arguments yields a signature of the
same arity, valid in the context of the arguments (so it has no variable of the scheme).
Partial: fragment of C03. -/
theorem C06_instantiate_partial (env : Env) (p : PolyFunc) (Γ args : List Term)
    (henv : EnvOk env) (hv : p.validate env = true)
    (hplain : ∀ t ∈ p.body.input ++ p.body.output, t.plain = true ∧ t.built = true)
    (hargs : ArgsFit env p.params Γ args) :
    ∃ s, p.instantiate env args = .ok s ∧ s.validate env Γ = true ∧
      s.input.length = p.body.input.length ∧ s.output.length = p.body.output.length := by
  simp only [PolyFunc.validate, Signature.validate, Bool.and_eq_true, List.all_eq_true] at hv
  obtain ⟨i, hi1, hi2, hi3⟩ := substTypes_valid henv hargs
    (fun t ht => (hplain t (by simp [ht])).1) (fun t ht => (hplain t (by simp [ht])).2) hv.1
  obtain ⟨o, ho1, ho2, ho3⟩ := substTypes_valid henv hargs
    (fun t ht => (hplain t (by simp [ht])).1) (fun t ht => (hplain t (by simp [ht])).2) hv.2
  refine ⟨⟨i, o⟩, ?_, ?_, hi2, ho2⟩
  · simp [PolyFunc.instantiate, hargs.check, Signature.subst, hi1, ho1]
  · simp only [Signature.validate, Bool.and_eq_true, List.all_eq_true]
    exact ⟨hi3, ho3⟩

mutual
/-- Specification: no variable occurs in the term. -/
def Term.closed : Term → Bool
  | .listType t => t.closed
  | .tupleType t => t.closed
  | .runtime t => t.closed
  | .list es => closedAll es
  | .listConcat es => closedAll es
  | .tuple es => closedAll es
  | .tupleConcat es => closedAll es
  | .variable _ _ => false
  | .constType t => t.closed
  | _ => true
def closedAll : List Term → Bool
  | [] => true
  | t :: ts => t.closed && closedAll ts
def Ty.closed : Ty → Bool
  | .ext _ _ args _ => closedAll args
  | .function i o => closedRow i && closedRow o
  | .variable _ _ => false
  | .sumGen rows _ => closedRows rows
  | _ => true
def RTy.closed : RTy → Bool
  | .ty t => t.closed
  | .rowVar _ _ => false
def closedRow : List RTy → Bool
  | [] => true
  | t :: ts => t.closed && closedRow ts
def closedRows : List (List RTy) → Bool
  | [] => true
  | r :: rs => closedRow r && closedRows rs
end

/-- Types valid without any declared variable contain no variable. -/
theorem closed_of_valid (env : Env) :
    (∀ t : Term, t.validate env [] = true → t.closed = true) ∧
    (∀ t : Ty, t.validate env [] = true → t.closed = true) ∧
    (∀ t : RTy, t.validate env [] = true → t.closed = true) := by
  have h1 : ∀ ts : List Term, (∀ t ∈ ts, t.closed = true) → closedAll ts = true := by
    intro ts h; induction ts with
    | nil => rfl
    | cons t ts ih => simp [closedAll, h t (by simp), ih (fun x hx => h x (by simp [hx]))]
  have h2 : ∀ ts : List RTy, (∀ t ∈ ts, t.closed = true) → closedRow ts = true := by
    intro ts h; induction ts with
    | nil => rfl
    | cons t ts ih => simp [closedRow, h t (by simp), ih (fun x hx => h x (by simp [hx]))]
  have h3 : ∀ ts : List (List RTy), (∀ r ∈ ts, ∀ t ∈ r, t.closed = true) →
      closedRows ts = true := by
    intro ts h; induction ts with
    | nil => rfl
    | cons t ts ih => simp [closedRows, h2 t (h t (by simp)), ih (fun x hx => h x (by simp [hx]))]
  apply syntax_induction
  case list =>
    intro ts ih hv; simp only [Term.validate, validateTerms_iff] at hv
    simp only [Term.closed]; exact h1 ts (fun t ht => ih t ht (hv t ht))
  case listConcat =>
    intro ts ih hv; simp only [Term.validate, validateTerms_iff] at hv
    simp only [Term.closed]; exact h1 ts (fun t ht => ih t ht (hv t ht))
  case tuple =>
    intro ts ih hv; simp only [Term.validate, validateTerms_iff] at hv
    simp only [Term.closed]; exact h1 ts (fun t ht => ih t ht (hv t ht))
  case tupleConcat =>
    intro ts ih hv; simp only [Term.validate, validateTerms_iff] at hv
    simp only [Term.closed]; exact h1 ts (fun t ht => ih t ht (hv t ht))
  case var => intro i d _ hv; simp [Term.validate, checkDecl] at hv
  case ext =>
    intro e i args b ih hv
    simp only [Ty.validate, Bool.and_eq_true, validateTerms_iff] at hv
    simp only [Ty.closed]; exact h1 args (fun t ht => ih t ht (hv.1 t ht))
  case function =>
    intro i o ihi iho hv
    simp only [Ty.validate, Bool.and_eq_true, validateRow_iff] at hv
    simp only [Ty.closed, Bool.and_eq_true]
    exact ⟨h2 i (fun t ht => ihi t ht (hv.1 t ht)), h2 o (fun t ht => iho t ht (hv.2 t ht))⟩
  case tyVar => intro i b hv; simp [Ty.validate, checkDecl] at hv
  case sumGen =>
    intro rows b ih hv
    simp only [Ty.validate, validateRows_iff] at hv
    simp only [Ty.closed]
    exact h3 rows (fun r hr t ht => ih r hr t ht (hv r hr t ht))
  case rowVar => intro i b hv; simp [RTy.validate, checkDecl] at hv
  case listType => intro t ih hv; exact ih hv
  case tupleType => intro t ih hv; exact ih hv
  case runtime => intro t ih hv; exact ih hv
  case constType => intro t ih hv; exact ih hv
  case rty => intro t ih hv; exact ih hv
  all_goals (intros; rfl)

/-- For closed arguments the hypothesis on row variables of C03 holds by itself. -/
theorem argsFit_closed {env : Env} {Δ σ : List Term} (hc : checkTerms σ Δ = true)
    (hv : ∀ s ∈ σ, s.validate env [] = true) (hp : ∀ s ∈ σ, s.plain = true) :
    ArgsFit env Δ [] σ := by
  refine ⟨hc, hv, hp, ?_⟩
  intro i b hi
  obtain ⟨a, h1, h2⟩ := checkTerms_get hc hi
  have hm := List.mem_of_getElem? h1
  rcases typeList_arg (hp a hm) h2 with ⟨es, rfl, _⟩ | ⟨j, b', rfl, _⟩
  · exact ⟨es, h1⟩
  · have := hv _ hm; simp [Term.validate, checkDecl] at this

/-- C06 (closed arguments): applied to closed valid arguments that match its parameters, a valid
scheme yields a closed signature: no variable of the scheme is left.  Row variables are allowed.
Partial: no concatenations. -/
theorem C06_instantiate_closed_partial (env : Env) (p : PolyFunc) (args : List Term)
    (henv : EnvOk env) (hv : p.validate env = true)
    (hplain : ∀ t ∈ p.body.input ++ p.body.output, t.plain = true ∧ t.built = true)
    (hcheck : ArgsCheck args p.params)
    (hargs : ∀ a ∈ args, a.validate env [] = true ∧ a.plain = true) :
    ∃ s, p.instantiate env args = .ok s ∧
      ∀ t ∈ s.input ++ s.output, t.closed = true ∧ t.validate env [] = true := by
  obtain ⟨s, h1, h2, _⟩ := C06_instantiate_partial env p [] args henv hv hplain
    (argsFit_closed ((checkTerms_iff_argsCheck _ _).mpr hcheck) (fun a ha => (hargs a ha).1)
      (fun a ha => (hargs a ha).2))
  refine ⟨s, h1, ?_⟩
  simp only [Signature.validate, Bool.and_eq_true, List.all_eq_true] at h2
  intro t ht
  have hvt : t.validate env [] = true := by
    rcases List.mem_append.mp ht with h | h
    · exact h2.1 t h
    · exact h2.2 t h
  exact ⟨(closed_of_valid env).2.1 t hvt, hvt⟩

/-- C06 (finding): instantiation can panic instead of returning an error or a signature. -/
theorem C06_instantiate_panics :
    ∃ (p : PolyFunc) (args : List Term), p.validate (fun _ _ => none) = true ∧
      ArgsCheck args p.params ∧ p.instantiate (fun _ _ => none) args = .panic := by
  refine ⟨⟨[.listType (.runtimeType .linear)], ⟨[.function [.rowVar 0 .linear] []], []⟩⟩,
    [.variable 0 (.listType (.runtimeType .linear))], by decide, ?_, by decide⟩
  rw [← checkTerms_iff_argsCheck]; decide

/-! ## Non-vacuity -/

section Examples

/-- An environment with `array(n, T)`, copyable when `T` is. -/
def exEnv : Env := fun e i =>
  if e = "prelude" ∧ i = "array" then
    some ⟨[.boundedNatType none, .runtimeType .linear], .fromParams [1]⟩
  else none

def exDecls : List Term :=
  [.runtimeType .linear, .listType (.runtimeType .linear), .boundedNatType none]

/-- `array(n, T) → (T, r...)` as a function type inside a sum. -/
def exTy : Ty :=
  .general [[.ty (.function
    [.ty (.ext "prelude" "array" [.variable 2 (.boundedNatType none), .runtime (.variable 0 .linear)] .linear)]
    [.ty (.variable 0 .linear), .rowVar 1 .linear])], []]

def exArgs : List Term :=
  [.runtime (.sumUnit 2), .list [.runtime (.sumUnit 3), .runtime (.sumUnit 1)], .boundedNat 5]

example : EnvOk exEnv := by
  intro e i d h k hk
  unfold exEnv at h
  split at h
  · cases h
    simp only [List.mem_cons, List.not_mem_nil, or_false] at hk
    rcases hk with rfl | rfl <;> rfl
  · cases h
example : exTy.plain = true ∧ exTy.built = true ∧ exTy.validate exEnv exDecls = true := by decide
example : checkTerms exArgs exDecls = true ∧ validateTerms exEnv [] exArgs = true ∧
    plainTerms exArgs = true := by decide
example : exTy.subst exEnv exArgs = some (.general [[.ty (.function
    [.ty (.ext "prelude" "array" [.boundedNat 5, .runtime (.sumUnit 2)] .copyable)]
    [.ty (.sumUnit 2), .ty (.sumUnit 3), .ty (.sumUnit 1)])], []]) := by decide
/-- Two substitutions in a row, the first introducing row variables of its own. -/
example : ∃ t1 t2 ρ,
    exTy.subst exEnv [.runtime (.variable 1 .linear),
      .list [.variable 0 (.listType (.runtimeType .linear)), .runtime (.sumUnit 4)], .boundedNat 3]
      = some t1 ∧
    t1.subst exEnv [.list [.runtime (.sumUnit 7), .runtime (.sumUnit 8)], .runtime (.sumUnit 2)]
      = some t2 ∧
    substTerms exEnv [.list [.runtime (.sumUnit 7), .runtime (.sumUnit 8)], .runtime (.sumUnit 2)]
      [.runtime (.variable 1 .linear),
        .list [.variable 0 (.listType (.runtimeType .linear)), .runtime (.sumUnit 4)],
        .boundedNat 3] = some ρ ∧ exTy.subst exEnv ρ = some t2 := by
  refine ⟨.general [[.ty (.function
    [.ty (.ext "prelude" "array" [.boundedNat 3, .runtime (.variable 1 .linear)] .linear)]
    [.ty (.variable 1 .linear), .rowVar 0 .linear, .ty (.sumUnit 4)])], []],
    .general [[.ty (.function
    [.ty (.ext "prelude" "array" [.boundedNat 3, .runtime (.sumUnit 2)] .copyable)]
    [.ty (.sumUnit 2), .ty (.sumUnit 7), .ty (.sumUnit 8), .ty (.sumUnit 4)])], []],
    [.runtime (.sumUnit 2), .list [.runtime (.sumUnit 7), .runtime (.sumUnit 8), .runtime (.sumUnit 4)],
      .boundedNat 3], ?_, ?_, ?_, ?_⟩ <;> decide
/-- C04's hypotheses, with type, nat and list variables. -/
example : (∀ d ∈ exDecls, d.concatFree = true) ∧
    (Ty.general [[.ty (.ext "prelude" "array"
      [.variable 2 (.boundedNatType none), .runtime (.variable 0 .linear)] .linear)],
      []]).noTupleRow = true ∧
    (Ty.general [[.ty (.ext "prelude" "array"
      [.variable 2 (.boundedNatType none), .runtime (.variable 0 .linear)] .linear)],
      []]).validate exEnv exDecls = true := by decide

end Examples

end Verif.Types
