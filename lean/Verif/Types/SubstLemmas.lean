import Verif.Types.Subst
/-
Lemmas: substitution keeps types valid, and substitutions compose.
-/
namespace Verif.Types

theorem validateTerms_iff (env : Env) (Γ ts : List Term) :
    validateTerms env Γ ts = true ↔ ∀ t ∈ ts, t.validate env Γ = true := by
  induction ts with
  | nil => simp [validateTerms]
  | cons t ts ih => simp [validateTerms, ih]
theorem validateRow_iff (env : Env) (Γ : List Term) (ts : List RTy) :
    validateRow env Γ ts = true ↔ ∀ t ∈ ts, t.validate env Γ = true := by
  induction ts with
  | nil => simp [validateRow]
  | cons t ts ih => simp [validateRow, ih]
theorem validateRows_iff (env : Env) (Γ : List Term) (ts : List (List RTy)) :
    validateRows env Γ ts = true ↔ ∀ r ∈ ts, ∀ t ∈ r, t.validate env Γ = true := by
  induction ts with
  | nil => simp [validateRows]
  | cons t ts ih => simp [validateRows, ih, validateRow_iff]

theorem checkTerms_get {ts ks : List Term} (h : checkTerms ts ks = true) {i : Nat} {k : Term}
    (hk : ks[i]? = some k) : ∃ t, ts[i]? = some t ∧ checkTerm t k = true := by
  induction ks generalizing ts i with
  | nil => simp at hk
  | cons k0 ks ih =>
    cases ts with
    | nil => simp [checkTerms] at h
    | cons t0 ts =>
      simp only [checkTerms, Bool.and_eq_true] at h
      cases i with
      | zero => simp only [List.getElem?_cons_zero, Option.some.injEq] at hk ⊢; subst hk; exact ⟨_, rfl, h.1⟩
      | succ i => simp only [List.getElem?_cons_succ] at hk ⊢; exact ih h.2 hk

theorem checkDecl_iff {Δ : List Term} {i : Nat} {d : Term} :
    checkDecl Δ i d = true ↔ Δ[i]? = some d := by
  unfold checkDecl
  cases h : Δ[i]? with
  | none => simp
  | some a => simp

/-- What is asked of the arguments: they check against the declarations `Δ`, are valid in the
context `Γ`, lie in the fragment `plain`, and arguments for lists of types are literal lists. -/
structure ArgsFit (env : Env) (Δ Γ σ : List Term) : Prop where
  check : checkTerms σ Δ = true
  valid : ∀ s ∈ σ, s.validate env Γ = true
  plain : ∀ s ∈ σ, s.plain = true
  lists : ∀ (i : Nat) (b : Bound), Δ[i]? = some (Term.listType (.runtimeType b)) →
    ∃ es, σ[i]? = some (Term.list es)

/-- Parameters of all type definitions lie in the fragment of kinds. -/
def EnvOk (env : Env) : Prop := ∀ e i d, env e i = some d → ∀ k ∈ d.params, k.kindOk = true

theorem forall₂_get {α β : Type} {R : α → β → Prop} {as : List α} {bs : List β}
    (h : List.Forall₂ R as bs) {i : Nat} {a : α} (ha : as[i]? = some a) :
    ∃ b, bs[i]? = some b ∧ R a b := by
  induction h generalizing i with
  | nil => simp at ha
  | cons hr _ ih =>
    cases i with
    | zero => simp only [List.getElem?_cons_zero, Option.some.injEq] at ha ⊢; subst ha; exact ⟨_, rfl, hr⟩
    | succ i => simp only [List.getElem?_cons_succ] at ha ⊢; exact ih ha

theorem argBounds_subst {env : Env} {σ args args' : List Term}
    (hs : List.Forall₂ (fun t t' => Term.subst env σ t = some t') args args')
    (hb : ∀ t ∈ args, t.built = true) {is : List Nat} {bs : List Bound}
    (h : argBounds args is = some bs) :
    ∃ bs', argBounds args' is = some bs' ∧
      List.Forall₂ (fun b b' => Bound.contains b b' = true) bs bs' := by
  induction is generalizing bs with
  | nil => simp only [argBounds, Option.some.injEq] at h; subst h; exact ⟨[], rfl, .nil⟩
  | cons i is ih =>
    simp only [argBounds] at h
    split at h
    · next t ht =>
      split at h
      · next bs0 h0 =>
        cases h
        obtain ⟨bs', h1, h2⟩ := ih h0
        obtain ⟨e', he', hse⟩ := forall₂_get hs ht
        simp only [Term.subst] at hse
        split at hse
        · next t' ht' =>
          cases hse
          refine ⟨t'.bound :: bs', ?_, .cons ?_ h2⟩
          · simp [argBounds, he', h1]
          · exact subst_bound.2.1 t (by
              have := hb _ (List.mem_of_getElem? ht); simpa [Term.built] using this) t' ht'
        · cases hse
      · cases h
    · cases h

theorem boundOf_subst {env : Env} {σ args args' : List Term} {d : TypeDef} {b : Bound}
    (hs : List.Forall₂ (fun t t' => Term.subst env σ t = some t') args args')
    (hb : ∀ t ∈ args, t.built = true) (h : d.boundOf args = some b) :
    ∃ b', d.boundOf args' = some b' ∧ b.contains b' = true := by
  cases hd : d.bound with
  | explicit b0 =>
    simp only [TypeDef.boundOf, hd, Option.some.injEq] at h ⊢
    subst h
    exact ⟨_, rfl, C01_contains_partial_order.1 _⟩
  | fromParams is =>
    cases is with
    | nil =>
      simp only [TypeDef.boundOf, hd, Option.some.injEq] at h ⊢
      subst h
      exact ⟨_, rfl, rfl⟩
    | cons i is =>
      simp only [TypeDef.boundOf, hd] at h ⊢
      cases ha : argBounds args (i :: is) with
      | none => simp [ha] at h
      | some bs =>
        simp only [ha, Option.map_some, Option.some.injEq] at h
        obtain ⟨bs', h1, h2⟩ := argBounds_subst hs hb ha
        refine ⟨leastUpperBound bs', by simp [h1], ?_⟩
        rw [← h]
        apply lub_mono
        intro b' hb'
        exact forall₂_mem_right h2 b' hb'

theorem valid_newSum {env : Env} {Γ : List Term} {rows : List (List RTy)}
    (h : ∀ r ∈ rows, ∀ t ∈ r, t.validate env Γ = true) :
    (Ty.newSum rows).validate env Γ = true := by
  unfold Ty.newSum
  split
  · rfl
  · simp only [Ty.general, Ty.validate]; exact (validateRows_iff env Γ rows).mpr h

theorem forall₂_of_exists {α β : Type} {R : α → β → Prop} {as : List α}
    (h : ∀ a ∈ as, ∃ b, R a b) : ∃ bs, List.Forall₂ R as bs := by
  induction as with
  | nil => exact ⟨[], .nil⟩
  | cons a as ih =>
    obtain ⟨b, hb⟩ := h a (by simp)
    obtain ⟨bs, hbs⟩ := ih (fun x hx => h x (by simp [hx]))
    exact ⟨b :: bs, .cons hb hbs⟩

theorem valid_rowElem {env : Env} {Γ : List Term} {e : Term} {b : Bound}
    (hf : ElemFits e b) (hv : e.validate env Γ = true) :
    ∃ r, rowElem e = some r ∧ r.validate env Γ = true := by
  rcases hf with ⟨t, rfl, _⟩ | ⟨j, b', rfl, _⟩
  · exact ⟨_, rfl, by simpa [Term.validate, RTy.validate] using hv⟩
  · refine ⟨.rowVar j b', rfl, ?_⟩
    simp only [Term.validate, Bool.and_eq_true] at hv
    simpa [RTy.validate] using hv.2

theorem subst_valid {env : Env} {Δ Γ σ : List Term} (henv : EnvOk env)
    (hf : ArgsFit env Δ Γ σ) :
    (∀ t : Term, t.plain = true → t.built = true → t.validate env Δ = true →
      ∃ t', t.subst env σ = some t' ∧ t'.validate env Γ = true) ∧
    (∀ t : Ty, t.plain = true → t.built = true → t.validate env Δ = true →
      ∃ t', t.subst env σ = some t' ∧ t'.validate env Γ = true) ∧
    (∀ t : RTy, t.plain = true → t.built = true → t.validate env Δ = true →
      ∃ r, t.subst env σ = some r ∧ ∀ t' ∈ r, t'.validate env Γ = true) := by
  have hterms : ∀ (ts : List Term), (∀ t ∈ ts, t.plain = true → t.built = true →
      t.validate env Δ = true → ∃ t', t.subst env σ = some t' ∧ t'.validate env Γ = true) →
      (∀ t ∈ ts, t.plain = true) → (∀ t ∈ ts, t.built = true) →
      (∀ t ∈ ts, t.validate env Δ = true) →
      ∃ ts', substTerms env σ ts = some ts' ∧ ∀ t ∈ ts', t.validate env Γ = true := by
    intro ts ih hp hb hv
    obtain ⟨ts', h⟩ := forall₂_of_exists
      (R := fun t t' => Term.subst env σ t = some t' ∧ t'.validate env Γ = true)
      (fun t ht => ih t ht (hp t ht) (hb t ht) (hv t ht))
    refine ⟨ts', substTerms_some.mpr (h.imp fun _ _ h => h.1), ?_⟩
    intro t ht
    obtain ⟨_, _, h2⟩ := forall₂_mem_right h t ht
    exact h2.2
  have hrow : ∀ (row : List RTy), (∀ t ∈ row, t.plain = true → t.built = true →
      t.validate env Δ = true → ∃ r, t.subst env σ = some r ∧ ∀ t' ∈ r, t'.validate env Γ = true) →
      (∀ t ∈ row, t.plain = true) → (∀ t ∈ row, t.built = true) →
      (∀ t ∈ row, t.validate env Δ = true) →
      ∃ r, substRow env σ row = some r ∧ ∀ t ∈ r, t.validate env Γ = true := by
    intro row ih hp hb hv
    obtain ⟨rs, h⟩ := forall₂_of_exists
      (R := fun (t : RTy) r => t.subst env σ = some r ∧ ∀ t' ∈ r, t'.validate env Γ = true)
      (fun t ht => ih t ht (hp t ht) (hb t ht) (hv t ht))
    refine ⟨rs.flatten, substRow_some.mpr ⟨rs, h.imp fun _ _ h => h.1, rfl⟩, ?_⟩
    intro t ht
    obtain ⟨r, hr, ht⟩ := List.mem_flatten.mp ht
    obtain ⟨_, _, h2⟩ := forall₂_mem_right h r hr
    exact h2.2 t ht
  apply syntax_induction
  case list =>
    intro ts ih hp hb hv
    have hpl := plain_list hp
    simp only [Term.built, builtTerms_iff] at hb
    simp only [Term.validate, validateTerms_iff] at hv
    obtain ⟨ts', h1, h2⟩ := hterms ts ih hpl hb hv
    have hp' : ∀ t ∈ ts', t.plain = true := by
      intro t ht
      obtain ⟨a, ha, hr⟩ := forall₂_mem_right (substTerms_some.mp h1) t ht
      exact (subst_plain hf.plain).1 a (hpl a ha) t hr
    refine ⟨.list (spliceElems (areTypes ts) ts'), ?_, ?_⟩
    · simp only [Term.subst, h1, Option.some.injEq]
      exact newList_splice _ _ (fun e he => plain_not_concat (hp' e he))
    · simp only [Term.validate, validateTerms_iff]
      intro x hx
      obtain ⟨e, he, hx⟩ := mem_spliceElems hx
      have hve := h2 e he
      cases e <;> simp only [spliceElem, List.mem_singleton] at hx
      case list xs =>
        split at hx
        · simp only [Term.validate, validateTerms_iff] at hve; exact hve x hx
        · simp only [List.mem_singleton] at hx; subst hx; exact hve
      all_goals (subst hx; exact hve)
  case listConcat => intro ts _ hp; simp [Term.plain] at hp
  case tupleConcat => intro ts _ hp; simp [Term.plain] at hp
  case tuple =>
    intro ts ih hp hb hv
    simp only [Term.plain, plainTerms_iff] at hp
    simp only [Term.built, builtTerms_iff] at hb
    simp only [Term.validate, validateTerms_iff] at hv
    obtain ⟨ts', h1, h2⟩ := hterms ts ih hp hb hv
    exact ⟨.tuple ts', by simp [Term.subst, h1], by
      simpa only [Term.validate, validateTerms_iff] using h2⟩
  case var =>
    intro i d _ hp hb hv
    simp only [Term.validate, Bool.and_eq_true, checkDecl_iff] at hv
    obtain ⟨a, h1, h2⟩ := checkTerms_get hf.check hv.2
    exact ⟨a, by simp [Term.subst, applyVar, h1, h2], hf.valid a (List.mem_of_getElem? h1)⟩
  case listType =>
    intro t ih hp hb hv
    obtain ⟨t', h1, h2⟩ := ih hp hb hv
    exact ⟨.listType t', by simp [Term.subst, h1], by simpa [Term.validate] using h2⟩
  case tupleType =>
    intro t ih hp hb hv
    obtain ⟨t', h1, h2⟩ := ih hp hb hv
    exact ⟨.listType t', by simp [Term.subst, h1], by simpa [Term.validate] using h2⟩
  case constType =>
    intro t ih hp hb hv
    obtain ⟨t', h1, h2⟩ := ih hp hb hv
    exact ⟨.constType t', by simp [Term.subst, h1], by simpa [Term.validate] using h2⟩
  case runtime =>
    intro t ih hp hb hv
    obtain ⟨t', h1, h2⟩ := ih hp hb hv
    exact ⟨.runtime t', by simp [Term.subst, h1], by simpa [Term.validate] using h2⟩
  case ext =>
    intro e i args b ih hp hb hv
    simp only [Ty.plain, plainTerms_iff] at hp
    simp only [Ty.built, builtTerms_iff] at hb
    simp only [Ty.validate, Bool.and_eq_true, validateTerms_iff] at hv
    obtain ⟨hv1, hv2⟩ := hv
    obtain ⟨args', h1, h2⟩ := hterms args ih hp hb hv1
    cases hd : env e i with
    | none => simp [hd] at hv2
    | some d =>
      simp only [hd, Bool.and_eq_true, decide_eq_true_eq] at hv2
      obtain ⟨hc, hbd⟩ := hv2
      obtain ⟨b', hb', hcon⟩ := boundOf_subst (substTerms_some.mp h1) hb hbd
      refine ⟨.ext e i args' b', ?_, ?_⟩
      · simp [Ty.subst, h1, hd, hb', hcon]
      · simp only [Ty.validate, hd, hb', Bool.and_eq_true, decide_true, and_true,
          validateTerms_iff]
        exact ⟨h2, substTerms_check hf.plain hp hb (henv e i d hd) h1 hc⟩
  case «alias» => intro n b _ _ _; exact ⟨_, rfl, rfl⟩
  case sumUnit => intro n _ _ _; exact ⟨_, rfl, rfl⟩
  case function =>
    intro i o ihi iho hp hb hv
    simp only [Ty.plain, Bool.and_eq_true, plainRow_iff] at hp
    simp only [Ty.built, Bool.and_eq_true, builtRow_iff] at hb
    simp only [Ty.validate, Bool.and_eq_true, validateRow_iff] at hv
    obtain ⟨i', hi1, hi2⟩ := hrow i ihi hp.1 hb.1 hv.1
    obtain ⟨o', ho1, ho2⟩ := hrow o iho hp.2 hb.2 hv.2
    exact ⟨.function i' o', by simp [Ty.subst, hi1, ho1], by
      simp only [Ty.validate, Bool.and_eq_true, validateRow_iff]; exact ⟨hi2, ho2⟩⟩
  case tyVar =>
    intro i b _ _ hv
    simp only [Ty.validate, checkDecl_iff] at hv
    obtain ⟨a, h1, h2⟩ := checkTerms_get hf.check hv
    have hva := hf.valid a (List.mem_of_getElem? h1)
    have hpa := hf.plain a (List.mem_of_getElem? h1)
    cases a with
    | runtime t =>
      exact ⟨t, by simp [Ty.subst, applyVar, h1, h2], by simpa [Term.validate] using hva⟩
    | «variable» j d =>
      simp only [checkTerm] at h2
      obtain ⟨b', rfl, _⟩ := isSupertype_runtimeType h2
      simp [Term.plain, Term.isRuntimeType] at hpa
    | _ => simp [checkTerm] at h2
  case sumGen =>
    intro rows b ih hp hb hv
    simp only [Ty.plain, plainRows_iff] at hp
    simp only [Ty.built, Bool.and_eq_true, builtRows_iff] at hb
    simp only [Ty.validate, validateRows_iff] at hv
    obtain ⟨rows', h⟩ := forall₂_of_exists
      (R := fun r r' => substRow env σ r = some r' ∧ ∀ t ∈ r', t.validate env Γ = true)
      (fun r hr => hrow r (ih r hr) (hp r hr) (hb.1.1 r hr) (hv r hr))
    have h1 : substRows env σ rows = some rows' := substRows_some.mpr (h.imp fun _ _ h => h.1)
    refine ⟨.newSum rows', by simp [Ty.subst, h1], valid_newSum ?_⟩
    intro r hr
    obtain ⟨_, _, h2⟩ := forall₂_mem_right h r hr
    exact h2.2
  case rty =>
    intro t ih hp hb hv
    obtain ⟨t', h1, h2⟩ := ih hp hb hv
    exact ⟨[.ty t'], by simp [RTy.subst, h1], by simpa [RTy.validate] using h2⟩
  case rowVar =>
    intro i b _ _ hv
    simp only [RTy.validate, checkDecl_iff] at hv
    obtain ⟨es, h1⟩ := hf.lists i b hv
    obtain ⟨a, h2, h3⟩ := checkTerms_get hf.check hv
    rw [h1] at h2
    cases h2
    have hmem := List.mem_of_getElem? h1
    have hva := hf.valid _ hmem
    simp only [Term.validate, validateTerms_iff] at hva
    have hfit : ∀ e ∈ es, ElemFits e b := by
      rcases typeList_arg (hf.plain _ hmem) h3 with ⟨es', he, hfit⟩ | ⟨_, _, he, _⟩
      · cases he; exact hfit
      · cases he
    obtain ⟨r, h⟩ := forall₂_of_exists
      (R := fun e x => rowElem e = some x ∧ x.validate env Γ = true)
      (fun e he => valid_rowElem (hfit e he) (hva e he))
    refine ⟨r, ?_, ?_⟩
    · simp only [RTy.subst, applyRowVar, h1, h3, if_true]
      exact rowElems_some.mpr (h.imp fun _ _ h => h.1)
    · intro t' ht'
      obtain ⟨_, _, h2⟩ := forall₂_mem_right h t' ht'
      exact h2.2
  all_goals (intros; exact ⟨_, rfl, rfl⟩)

/-! ## Composition -/

theorem spliceElems_append (b : Bool) (xs ys : List Term) :
    spliceElems b (xs ++ ys) = spliceElems b xs ++ spliceElems b ys := by
  simp [spliceElems]

theorem substTerms_append {env : Env} {τ xs ys : List Term} {zs : List Term}
    (h : substTerms env τ (xs ++ ys) = some zs) :
    ∃ xs' ys', substTerms env τ xs = some xs' ∧ substTerms env τ ys = some ys' ∧
      zs = xs' ++ ys' := by
  induction xs generalizing zs with
  | nil => exact ⟨[], zs, rfl, h, rfl⟩
  | cons x xs ih =>
    simp only [List.cons_append, substTerms] at h
    cases h1 : x.subst env τ with
    | none => simp [h1] at h
    | some x' =>
      cases h2 : substTerms env τ (xs ++ ys) with
      | none => simp [h1, h2] at h
      | some zs0 =>
        simp only [h1, h2, Option.some.injEq] at h
        obtain ⟨xs', ys', h3, h4, rfl⟩ := ih h2
        exact ⟨x' :: xs', ys', by simp [substTerms, h1, h3], h4, by simp [← h]⟩

theorem substRow_append {env : Env} {τ : List Term} {xs ys zs : List RTy}
    (h : substRow env τ (xs ++ ys) = some zs) :
    ∃ xs' ys', substRow env τ xs = some xs' ∧ substRow env τ ys = some ys' ∧
      zs = xs' ++ ys' := by
  induction xs generalizing zs with
  | nil => exact ⟨[], zs, rfl, h, rfl⟩
  | cons x xs ih =>
    simp only [List.cons_append, substRow] at h
    cases h1 : x.subst env τ with
    | none => simp [h1] at h
    | some x' =>
      cases h2 : substRow env τ (xs ++ ys) with
      | none => simp [h1, h2] at h
      | some zs0 =>
        simp only [h1, h2, Option.some.injEq] at h
        obtain ⟨xs', ys', h3, h4, rfl⟩ := ih h2
        exact ⟨x' ++ xs', ys', by simp [substRow, h1, h3], h4, by simp [← h]⟩

theorem substTerms_length {env : Env} {τ xs ys : List Term}
    (h : substTerms env τ xs = some ys) : xs.length = ys.length :=
  (substTerms_some.mp h).length_eq

/-- Hypotheses of the composition lemma. -/
structure Composes (env : Env) (σ τ ρ : List Term) : Prop where
  plainσ : ∀ s ∈ σ, s.plain = true
  builtσ : ∀ s ∈ σ, s.built = true
  plainτ : ∀ s ∈ τ, s.plain = true
  comp : substTerms env τ σ = some ρ

theorem Composes.plainρ {env : Env} {σ τ ρ : List Term} (h : Composes env σ τ ρ) :
    ∀ s ∈ ρ, s.plain = true := by
  intro s hs
  obtain ⟨a, ha, hr⟩ := forall₂_mem_right (substTerms_some.mp h.comp) s hs
  exact (subst_plain h.plainτ).1 a (h.plainσ a ha) s hr

theorem Composes.get {env : Env} {σ τ ρ : List Term} (h : Composes env σ τ ρ) {i : Nat}
    {s s' : Term} (hs : σ[i]? = some s) (hs' : s.subst env τ = some s') : ρ[i]? = some s' := by
  obtain ⟨b, hb, hr⟩ := forall₂_get (substTerms_some.mp h.comp) hs
  rw [hs'] at hr; cases hr; exact hb

theorem areTypes_splice {xs : List Term} (h : ∀ x ∈ xs, x.isTypeElem = true) :
    areTypes xs = true ∨ xs = [] := by
  cases xs with
  | nil => exact .inr rfl
  | cons x xs => exact .inl (h x (by simp))

/-- Substituting into the flattened list of types, in one go or element by element. -/
theorem splice_compose {env : Env} {σ τ ρ : List Term} (hc : Composes env σ τ ρ)
    {es es1 : List Term} (hall : ∀ e ∈ es, e.isTypeElem = true)
    (hs1 : List.Forall₂ (fun t t' => Term.subst env σ t = some t') es es1)
    (ih : ∀ e ∈ es, ∀ e1, e.subst env σ = some e1 → ∀ e2, e1.subst env τ = some e2 →
      e.subst env ρ = some e2)
    {zs : List Term} (hz : substTerms env τ (spliceElems true es1) = some zs) :
    ∃ es2, substTerms env ρ es = some es2 ∧ spliceElems true zs = spliceElems true es2 := by
  induction hs1 generalizing zs with
  | nil => simp only [spliceElems, List.flatMap_nil, substTerms, Option.some.injEq] at hz
           subst hz; exact ⟨[], rfl, rfl⟩
  | @cons e e1 es es1 h _ ihs =>
    have hsplit : spliceElems true (e1 :: es1) = spliceElem true e1 ++ spliceElems true es1 := by
      simp [spliceElems]
    rw [hsplit] at hz
    obtain ⟨z1, z2, hz1, hz2, rfl⟩ := substTerms_append hz
    obtain ⟨es2, he2, hsp⟩ := ihs (fun x hx => hall x (by simp [hx]))
      (fun x hx => ih x (by simp [hx])) hz2
    have hone : ∃ e2, e.subst env ρ = some e2 ∧ spliceElems true z1 = spliceElem true e2 := by
      have ihe := ih e (by simp) e1 h
      rcases subst_typeElem hc.plainσ (hall e (by simp)) h with
        ⟨t, t', rfl, rfl, hst⟩ | ⟨j, b, rfl, hj, hcase⟩
      · simp only [spliceElem] at hz1
        cases hz1' : substTerms env τ [Term.runtime t'] with
        | none => rw [hz1'] at hz1; cases hz1
        | some q =>
          rw [hz1'] at hz1; cases hz1
          have hq := substTerms_some.mp hz1'
          cases hq with
          | cons hq hnil =>
            cases hnil
            exact ⟨_, ihe _ hq, by simp [spliceElems]⟩
      · rcases hcase with ⟨xs, rfl, hxs⟩ | ⟨j', b', rfl, _⟩
        · simp only [spliceElem, if_true] at hz1
          have hpx := plain_list (hc.plainσ _ (List.mem_of_getElem? hj))
          have hty := areTypes_splice (fun x hx => elemFits_isTypeElem (hxs x hx))
          have hpz : ∀ z ∈ z1, z.plain = true := by
            intro z hz
            obtain ⟨a, ha, hr⟩ := forall₂_mem_right (substTerms_some.mp hz1) z hz
            exact (subst_plain hc.plainτ).1 a (hpx a ha) z hr
          have hl : (Term.list xs).subst env τ = some (.list (spliceElems (areTypes xs) z1)) := by
            simp only [Term.subst, hz1, Option.some.injEq]
            exact newList_splice _ _ (fun e he => plain_not_concat (hpz e he))
          refine ⟨_, ihe _ hl, ?_⟩
          rcases hty with ht | rfl
          · rw [ht]; simp [spliceElem]
          · simp only [substTerms, Option.some.injEq] at hz1; subst hz1; simp [spliceElem, spliceElems]
        · simp only [spliceElem] at hz1
          have hq := substTerms_some.mp hz1
          cases hq with
          | cons hq hnil =>
            cases hnil
            exact ⟨_, ihe _ hq, by simp [spliceElems]⟩
    obtain ⟨e2, h2, h3⟩ := hone
    refine ⟨e2 :: es2, by simp [substTerms, h2, he2], ?_⟩
    rw [spliceElems_append, h3, hsp]
    simp [spliceElems]

theorem rowElem_compose {env : Env} {τ : List Term} (hτ : ∀ s ∈ τ, s.plain = true)
    {es : List Term} {rs : List RTy} {zs : List Term} {r2 : List RTy}
    (hr : List.Forall₂ (fun e x => rowElem e = some x) es rs)
    (hz : substTerms env τ es = some zs) (hr2 : substRow env τ rs = some r2) :
    rowElems (spliceElems true zs) = some r2 := by
  have happ : ∀ (a b : List Term) (ra rb : List RTy), rowElems a = some ra → rowElems b = some rb →
      rowElems (a ++ b) = some (ra ++ rb) := by
    intro a b ra rb h1 h2
    rw [rowElems_some] at h1 h2 ⊢
    exact List.rel_append h1 h2
  induction hr generalizing zs r2 with
  | nil =>
    simp only [substTerms, Option.some.injEq] at hz
    simp only [substRow, Option.some.injEq] at hr2
    subst hz; subst hr2; rfl
  | @cons e x es rs h _ ih =>
    simp only [substTerms] at hz
    simp only [substRow] at hr2
    cases h1 : e.subst env τ with
    | none => simp [h1] at hz
    | some e' =>
      cases h2 : substTerms env τ es with
      | none => simp [h1, h2] at hz
      | some es' =>
        simp only [h1, h2, Option.some.injEq] at hz
        subst hz
        cases h3 : x.subst env τ with
        | none => simp [h3] at hr2
        | some x' =>
          cases h4 : substRow env τ rs with
          | none => simp [h3, h4] at hr2
          | some rs' =>
            simp only [h3, h4, Option.some.injEq] at hr2
            subst hr2
            have hsp : spliceElems true (e' :: es') = spliceElem true e' ++ spliceElems true es' := by
              simp [spliceElems]
            rw [hsp]
            refine happ _ _ _ _ ?_ (ih h2 h4)
            cases e <;> simp [rowElem] at h
            · subst h
              simp only [RTy.subst] at h3
              simp only [Term.subst] at h1
              split at h3
              · next t' ht' =>
                cases h3
                rw [ht'] at h1
                cases h1
                rfl
              · cases h3
            · rename_i j d
              split at h
              · next b hb =>
                cases h
                simp only [RTy.subst] at h3
                obtain ⟨xs, g1, g2, g3⟩ := applyRowVar_some h3
                simp only [Term.subst] at h1
                obtain ⟨g4, _⟩ := applyVar_some h1
                rw [g1] at g4; cases g4
                simpa [spliceElem] using g3
              · cases h

theorem subst_compose {env : Env} {σ τ ρ : List Term} (hc : Composes env σ τ ρ) :
    (∀ t : Term, t.plain = true → ∀ t1, t.subst env σ = some t1 → ∀ t2, t1.subst env τ = some t2 →
      t.subst env ρ = some t2) ∧
    (∀ t : Ty, t.plain = true → ∀ t1, t.subst env σ = some t1 → ∀ t2, t1.subst env τ = some t2 →
      t.subst env ρ = some t2) ∧
    (∀ t : RTy, t.plain = true → ∀ r1, t.subst env σ = some r1 → ∀ r2, substRow env τ r1 = some r2 →
      t.subst env ρ = some r2) := by
  have hterms : ∀ (ts : List Term), (∀ t ∈ ts, t.plain = true → ∀ t1, t.subst env σ = some t1 →
      ∀ t2, t1.subst env τ = some t2 → t.subst env ρ = some t2) → (∀ t ∈ ts, t.plain = true) →
      ∀ ts1, substTerms env σ ts = some ts1 → ∀ ts2, substTerms env τ ts1 = some ts2 →
      substTerms env ρ ts = some ts2 := by
    intro ts
    induction ts with
    | nil =>
      intro _ _ ts1 h1 ts2 h2
      simp only [substTerms, Option.some.injEq] at h1; subst h1; exact h2
    | cons t ts ihl =>
      intro ih hp ts1 h1 ts2 h2
      have f1 := substTerms_some.mp h1
      cases f1 with
      | @cons _ a _ as ha has =>
        have f2 := substTerms_some.mp h2
        cases f2 with
        | @cons _ b _ bs hb hbs =>
          have e1 := ih t (by simp) (hp t (by simp)) a ha b hb
          have e2 := ihl (fun x hx => ih x (by simp [hx])) (fun x hx => hp x (by simp [hx])) as
            (substTerms_some.mpr has) bs (substTerms_some.mpr hbs)
          simp [substTerms, e1, e2]
  have hrow : ∀ (row : List RTy), (∀ t ∈ row, t.plain = true → ∀ r1, t.subst env σ = some r1 →
      ∀ r2, substRow env τ r1 = some r2 → t.subst env ρ = some r2) → (∀ t ∈ row, t.plain = true) →
      ∀ r1, substRow env σ row = some r1 → ∀ r2, substRow env τ r1 = some r2 →
      substRow env ρ row = some r2 := by
    intro row
    induction row with
    | nil =>
      intro _ _ r1 h1 r2 h2
      simp only [substRow, Option.some.injEq] at h1; subst h1; exact h2
    | cons t ts ihl =>
      intro ih hp r1 h1 r2 h2
      simp only [substRow] at h1
      cases ht : t.subst env σ with
      | none => simp [ht] at h1
      | some a =>
        cases hts : substRow env σ ts with
        | none => simp [ht, hts] at h1
        | some as =>
          simp only [ht, hts, Option.some.injEq] at h1
          subst h1
          obtain ⟨x, y, hx, hy, rfl⟩ := substRow_append h2
          have e1 := ih t (by simp) (hp t (by simp)) a ht x hx
          have e2 := ihl (fun x hx => ih x (by simp [hx])) (fun x hx => hp x (by simp [hx])) as
            hts y hy
          simp [substRow, e1, e2]
  have hrows : ∀ (rows : List (List RTy)), (∀ row ∈ rows, ∀ t ∈ row, t.plain = true →
      ∀ r1, t.subst env σ = some r1 →
      ∀ r2, substRow env τ r1 = some r2 → t.subst env ρ = some r2) →
      (∀ row ∈ rows, ∀ t ∈ row, t.plain = true) →
      ∀ r1, substRows env σ rows = some r1 → ∀ r2, substRows env τ r1 = some r2 →
      substRows env ρ rows = some r2 := by
    intro rows
    induction rows with
    | nil =>
      intro _ _ r1 h1 r2 h2
      simp only [substRows, Option.some.injEq] at h1; subst h1; exact h2
    | cons t ts ihl =>
      intro ih hp r1 h1 r2 h2
      have f1 := substRows_some.mp h1
      cases f1 with
      | @cons _ a _ as ha has =>
        have f2 := substRows_some.mp h2
        cases f2 with
        | @cons _ b _ bs hb hbs =>
          have e1 := hrow t (ih t (by simp)) (hp t (by simp)) a ha b hb
          have e2 := ihl (fun x hx => ih x (by simp [hx])) (fun x hx => hp x (by simp [hx])) as
            (substRows_some.mpr has) bs (substRows_some.mpr hbs)
          simp [substRows, e1, e2]
  apply syntax_induction
  case list =>
    intro es ih hp t1 h1 t2 h2
    have hpl := plain_list hp
    have hp1 : ∀ es', substTerms env σ es = some es' → ∀ e ∈ es', e.plain = true := by
      intro es' hs e he
      obtain ⟨a, ha, hr⟩ := forall₂_mem_right (substTerms_some.mp hs) e he
      exact (subst_plain hc.plainσ).1 a (hpl a ha) e hr
    have hpρ : ∀ es', substTerms env ρ es = some es' → ∀ e ∈ es', e.plain = true := by
      intro es' hs e he
      obtain ⟨a, ha, hr⟩ := forall₂_mem_right (substTerms_some.mp hs) e he
      exact (subst_plain hc.plainρ).1 a (hpl a ha) e hr
    obtain ⟨es1, hs1, rfl⟩ := subst_list_plain h1 hp1
    obtain ⟨hp1l, hall, hnone⟩ := plain_list_subst hc.plainσ hp hs1 (hp1 es1 hs1)
    have hp2 : ∀ es', substTerms env τ (spliceElems (areTypes es) es1) = some es' →
        ∀ e ∈ es', e.plain = true := by
      intro es' hs e he
      obtain ⟨a, ha, hr⟩ := forall₂_mem_right (substTerms_some.mp hs) e he
      exact (subst_plain hc.plainτ).1 a (plain_list hp1l a ha) e hr
    obtain ⟨zs, hs2, rfl⟩ := subst_list_plain h2 hp2
    have hgoal : ∀ es2, substTerms env ρ es = some es2 →
        spliceElems (areTypes es) es2 =
          spliceElems (areTypes (spliceElems (areTypes es) es1)) zs →
        (Term.list es).subst env ρ =
          some (.list (spliceElems (areTypes (spliceElems (areTypes es) es1)) zs)) := by
      intro es2 he2 heq
      simp only [Term.subst, he2, Option.some.injEq]
      rw [newList_splice _ _ (fun e he => plain_not_concat (hpρ es2 he2 e he)), heq]
    cases ha : areTypes es with
    | true =>
      rw [ha] at hs2 hgoal
      have hall' : ∀ e ∈ es, e.isTypeElem = true := by
        simp only [Term.plain, ha, Bool.not_true, Bool.false_or, Bool.and_eq_true,
          List.all_eq_true] at hp
        exact hp.2
      obtain ⟨es2, he2, hsp⟩ := splice_compose hc hall' (substTerms_some.mp hs1)
        (fun e he e1 h1 e2 h2 => ih e he (hpl e he) e1 h1 e2 h2) hs2
      apply hgoal es2 he2
      rw [← hsp]
      rcases areTypes_splice (hall ha) with ht | ht
      · rw [ht]
      · rw [ht] at hs2
        simp only [substTerms, Option.some.injEq] at hs2
        subst hs2; simp [spliceElems]
    | false =>
      rw [ha, spliceElems_false] at hs2 hgoal
      have hn := hnone ha
      rw [hn] at hgoal
      rw [spliceElems_false, hn]
      exact hgoal zs (hterms es (fun e he => ih e he) hpl es1 hs1 zs hs2) rfl
  case listConcat => intro ts _ hp; simp [Term.plain] at hp
  case tupleConcat => intro ts _ hp; simp [Term.plain] at hp
  case tuple =>
    intro ts ih hp t1 h1 t2 h2
    simp only [Term.plain, plainTerms_iff] at hp
    simp only [Term.subst] at h1
    split at h1
    · next ts1 hs1 =>
      cases h1
      simp only [Term.subst] at h2
      split at h2
      · next ts2 hs2 => cases h2; simp [Term.subst, hterms ts ih hp ts1 hs1 ts2 hs2]
      · cases h2
    · cases h1
  case var =>
    intro i d _ hp t1 h1 t2 h2
    simp only [Term.subst] at h1 ⊢
    obtain ⟨h3, h4⟩ := applyVar_some h1
    have hm := List.mem_of_getElem? h3
    simp only [Term.plain, Bool.and_eq_true] at hp
    have hk := hp.2
    have hcheck := subst_check hc.plainτ t1 (hc.plainσ t1 hm) (hc.builtσ t1 hm) t2 h2 d
    have := hcheck hk h4
    simp [applyVar, hc.get h3 h2, this]
  case listType =>
    intro t ih hp t1 h1 t2 h2
    simp only [Term.subst] at h1
    split at h1
    · next a ha =>
      cases h1
      simp only [Term.subst] at h2
      split at h2
      · next b hb => cases h2; simp [Term.subst, ih hp a ha b hb]
      · cases h2
    · cases h1
  case tupleType =>
    intro t ih hp t1 h1 t2 h2
    simp only [Term.subst] at h1
    split at h1
    · next a ha =>
      cases h1
      simp only [Term.subst] at h2
      split at h2
      · next b hb => cases h2; simp [Term.subst, ih hp a ha b hb]
      · cases h2
    · cases h1
  case constType =>
    intro t ih hp t1 h1 t2 h2
    simp only [Term.subst] at h1
    split at h1
    · next a ha =>
      cases h1
      simp only [Term.subst] at h2
      split at h2
      · next b hb => cases h2; simp [Term.subst, ih hp a ha b hb]
      · cases h2
    · cases h1
  case runtime =>
    intro t ih hp t1 h1 t2 h2
    simp only [Term.subst] at h1
    split at h1
    · next a ha =>
      cases h1
      simp only [Term.subst] at h2
      split at h2
      · next b hb => cases h2; simp [Term.subst, ih hp a ha b hb]
      · cases h2
    · cases h1
  case ext =>
    intro e i args b ih hp t1 h1 t2 h2
    simp only [Ty.plain, plainTerms_iff] at hp
    simp only [Ty.subst] at h1
    split at h1
    · cases h1
    · next args1 hs1 =>
      split at h1
      · cases h1
      · next d hd =>
        split at h1
        · cases h1
        · next b1 hb1 =>
          split at h1
          · next hcon1 =>
            cases h1
            simp only [Ty.subst] at h2
            split at h2
            · cases h2
            · next args2 hs2 =>
              simp only [hd] at h2
              split at h2
              · cases h2
              · next b2 hb2 =>
                split at h2
                · next hcon2 =>
                  cases h2
                  have := hterms args ih hp args1 hs1 args2 hs2
                  simp [Ty.subst, this, hd, hb2, contains_trans hcon1 hcon2]
                · cases h2
          · cases h1
  case «alias» =>
    intro n b _ t1 h1 t2 h2
    simp only [Ty.subst, Option.some.injEq] at h1; subst h1; exact h2
  case sumUnit =>
    intro n _ t1 h1 t2 h2
    simp only [Ty.subst, Option.some.injEq] at h1; subst h1; exact h2
  case function =>
    intro i o ihi iho hp t1 h1 t2 h2
    simp only [Ty.plain, Bool.and_eq_true, plainRow_iff] at hp
    simp only [Ty.subst] at h1
    split at h1
    · cases h1
    · next i1 hi1 =>
      split at h1
      · cases h1
      · next o1 ho1 =>
        cases h1
        simp only [Ty.subst] at h2
        split at h2
        · cases h2
        · next i2 hi2 =>
          split at h2
          · cases h2
          · next o2 ho2 =>
            cases h2
            simp [Ty.subst, hrow i ihi hp.1 i1 hi1 i2 hi2, hrow o iho hp.2 o1 ho1 o2 ho2]
  case tyVar =>
    intro i b _ t1 h1 t2 h2
    simp only [Ty.subst] at h1
    split at h1
    · next a ha =>
      cases h1
      obtain ⟨h3, h4⟩ := applyVar_some ha
      have hm := List.mem_of_getElem? h3
      have h2' : (Term.runtime t1).subst env τ = some (.runtime t2) := by simp [Term.subst, h2]
      have hchk := subst_check hc.plainτ (.runtime t1) (hc.plainσ _ hm) (hc.builtσ _ hm) _ h2'
        (.runtimeType b) rfl h4
      simp [Ty.subst, applyVar, hc.get h3 h2', hchk]
    · cases h1
  case sumGen =>
    intro rows b ih hp t1 h1 t2 h2
    simp only [Ty.plain, plainRows_iff] at hp
    simp only [Ty.subst] at h1
    split at h1
    · next rows1 hs1 =>
      cases h1
      unfold Ty.newSum at h2
      split at h2
      · next hu =>
        simp only [Ty.subst, Option.some.injEq] at h2
        subst h2
        have hempty : ∀ r ∈ rows1, r = [] := by
          have := hu.2; simpa using this
        have hs2 : substRows env τ rows1 = some rows1 := by
          rw [substRows_some]
          have : ∀ (l : List (List RTy)), (∀ r ∈ l, r = []) →
              List.Forall₂ (fun r r' => substRow env τ r = some r') l l := by
            intro l hl
            induction l with
            | nil => exact .nil
            | cons x l ihl =>
              refine .cons ?_ (ihl (fun r hr => hl r (by simp [hr])))
              rw [hl x (by simp)]; rfl
          exact this rows1 hempty
        have := hrows rows ih hp rows1 hs1 rows1 hs2
        simp [Ty.subst, this, Ty.newSum, hu]
      · simp only [Ty.general, Ty.subst] at h2
        split at h2
        · next rows2 hs2 => cases h2; simp [Ty.subst, hrows rows ih hp rows1 hs1 rows2 hs2]
        · cases h2
    · cases h1
  case rty =>
    intro t ih hp r1 h1 r2 h2
    simp only [RTy.subst] at h1
    split at h1
    · next a ha =>
      cases h1
      simp only [substRow, RTy.subst] at h2
      cases hb : a.subst env τ with
      | none => simp [hb] at h2
      | some b =>
        simp only [hb, Option.some.injEq, List.append_nil] at h2
        subst h2
        simp [RTy.subst, ih hp a ha b hb]
    · cases h1
  case rowVar =>
    intro i b _ r1 h1 r2 h2
    simp only [RTy.subst] at h1 ⊢
    obtain ⟨es, h3, h4, h5⟩ := applyRowVar_some h1
    have hm := List.mem_of_getElem? h3
    obtain ⟨s, hs, hr⟩ := forall₂_get (substTerms_some.mp hc.comp) h3
    have hpl := plain_list (hc.plainσ _ hm)
    obtain ⟨zs, hz, rfl⟩ := subst_list_plain hr (by
      intro es' hs' e he
      obtain ⟨a, ha, hr⟩ := forall₂_mem_right (substTerms_some.mp hs') e he
      exact (subst_plain hc.plainτ).1 a (hpl a ha) e hr)
    have hchk := subst_check hc.plainτ _ (hc.plainσ _ hm) (hc.builtσ _ hm) _ hr
      (.listType (.runtimeType b)) rfl h4
    have hcomp := rowElem_compose hc.plainτ (rowElems_some.mp h5) hz h2
    simp only [applyRowVar, hs, hchk, if_true]
    have hty : areTypes es = true ∨ es = [] := by
      rcases typeList_arg (hc.plainσ _ hm) h4 with ⟨es', he, hfit⟩ | ⟨_, _, he, _⟩
      · cases he; exact areTypes_splice (fun x hx => elemFits_isTypeElem (hfit x hx))
      · cases he
    rcases hty with ht | rfl
    · rw [ht]; exact hcomp
    · simp only [substTerms, Option.some.injEq] at hz; subst hz
      simpa [spliceElems, areTypes] using hcomp
  all_goals
    (intros; rename_i h1 t2 h2; simp only [Term.subst, Option.some.injEq] at h1; subst h1
     simp only [Term.subst, Option.some.injEq] at h2; subst h2; simp [Term.subst])

end Verif.Types
