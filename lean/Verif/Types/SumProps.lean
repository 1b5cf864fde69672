import Verif.Types.SumModel
/-
C02: compact and general sum types are interchangeable.
-/
namespace Verif.Types

/-! ## Helper: a normal form that spells out compact sums -/

mutual
/-- Replace every compact sum by the general one. -/
def Term.norm : Term → Term
  | .listType t => .listType t.norm
  | .tupleType t => .tupleType t.norm
  | .runtime t => .runtime t.norm
  | .list es => .list (normTerms es)
  | .listConcat es => .listConcat (normTerms es)
  | .tuple es => .tuple (normTerms es)
  | .tupleConcat es => .tupleConcat (normTerms es)
  | .variable i d => .variable i d.norm
  | .constType t => .constType t.norm
  | t => t
def normTerms : List Term → List Term
  | [] => []
  | t :: ts => t.norm :: normTerms ts
def Ty.norm : Ty → Ty
  | .ext e i a b => .ext e i (normTerms a) b
  | .alias n b => .alias n b
  | .function i o => .function (normRow i) (normRow o)
  | .variable i b => .variable i b
  | .sumUnit n => .sumGen (List.replicate n []) .copyable
  | .sumGen r b => .sumGen (normRows r) b
def RTy.norm : RTy → RTy
  | .ty t => .ty t.norm
  | .rowVar i b => .rowVar i b
def normRow : List RTy → List RTy
  | [] => []
  | t :: ts => t.norm :: normRow ts
def normRows : List (List RTy) → List (List RTy)
  | [] => []
  | r :: rs => normRow r :: normRows rs
end

theorem normRow_nil_iff (r : List RTy) : normRow r = [] ↔ r = [] := by
  cases r <;> simp [normRow]

theorem normRows_replicate (n : Nat) (rs : List (List RTy)) :
    List.replicate n [] = normRows rs ↔ n = rs.length ∧ rs.all List.isEmpty = true := by
  induction rs generalizing n with
  | nil => cases n <;> simp [normRows]
  | cons r rs ih =>
    cases n with
    | zero => simp [normRows]
    | succ n =>
      simp only [List.replicate_succ, normRows, List.cons.injEq, ih, List.length_cons,
        List.all_cons, Bool.and_eq_true, List.isEmpty_iff]
      rw [eq_comm (a := ([] : List RTy)), normRow_nil_iff]
      constructor
      · rintro ⟨h1, h2, h3⟩; exact ⟨by omega, h1, h3⟩
      · rintro ⟨h1, h2, h3⟩; exact ⟨h2, by omega, h3⟩

theorem rustEqTerms_iff {ts : List Term}
    (h : ∀ t ∈ ts, ∀ t', t.rustEq t' = true ↔ t.norm = t'.norm) :
    ∀ ts', rustEqTerms ts ts' = true ↔ normTerms ts = normTerms ts' := by
  induction ts with
  | nil => intro ts'; cases ts' <;> simp [rustEqTerms, normTerms]
  | cons t ts ih =>
    intro ts'
    cases ts' with
    | nil => simp [rustEqTerms, normTerms]
    | cons t' ts' =>
      simp only [rustEqTerms, normTerms, Bool.and_eq_true, List.cons.injEq]
      rw [h t (by simp) t', ih (fun x hx => h x (by simp [hx])) ts']

theorem rustEqRow_iff {ts : List RTy}
    (h : ∀ t ∈ ts, ∀ t', t.rustEq t' = true ↔ t.norm = t'.norm) :
    ∀ ts', rustEqRow ts ts' = true ↔ normRow ts = normRow ts' := by
  induction ts with
  | nil => intro ts'; cases ts' <;> simp [rustEqRow, normRow]
  | cons t ts ih =>
    intro ts'
    cases ts' with
    | nil => simp [rustEqRow, normRow]
    | cons t' ts' =>
      simp only [rustEqRow, normRow, Bool.and_eq_true, List.cons.injEq]
      rw [h t (by simp) t', ih (fun x hx => h x (by simp [hx])) ts']

theorem rustEqRows_iff {ts : List (List RTy)}
    (h : ∀ r ∈ ts, ∀ t ∈ r, ∀ t', t.rustEq t' = true ↔ t.norm = t'.norm) :
    ∀ ts', rustEqRows ts ts' = true ↔ normRows ts = normRows ts' := by
  induction ts with
  | nil => intro ts'; cases ts' <;> simp [rustEqRows, normRows]
  | cons t ts ih =>
    intro ts'
    cases ts' with
    | nil => simp [rustEqRows, normRows]
    | cons t' ts' =>
      simp only [rustEqRows, normRows, Bool.and_eq_true, List.cons.injEq]
      rw [rustEqRow_iff (h t (by simp)) t', ih (fun x hx => h x (by simp [hx])) ts']

theorem rustEq_iff_norm : (∀ t t' : Term, t.rustEq t' = true ↔ t.norm = t'.norm) ∧
    (∀ t t' : Ty, t.rustEq t' = true ↔ t.norm = t'.norm) ∧
    (∀ t t' : RTy, t.rustEq t' = true ↔ t.norm = t'.norm) := by
  apply syntax_induction
  case list => intro ts h t'; cases t' <;> simp [Term.rustEq, Term.norm, rustEqTerms_iff h]
  case listConcat => intro ts h t'; cases t' <;> simp [Term.rustEq, Term.norm, rustEqTerms_iff h]
  case tuple => intro ts h t'; cases t' <;> simp [Term.rustEq, Term.norm, rustEqTerms_iff h]
  case tupleConcat => intro ts h t'; cases t' <;> simp [Term.rustEq, Term.norm, rustEqTerms_iff h]
  case ext =>
    intro e i a b h t'; cases t' <;> simp [Ty.rustEq, Ty.norm, rustEqTerms_iff h, and_assoc]
  case function =>
    intro i o hi ho t'
    cases t' <;> simp [Ty.rustEq, Ty.norm, rustEqRow_iff hi, rustEqRow_iff ho]
  case sumGen =>
    intro rows b h t'
    cases t' with
    | sumUnit n =>
      simp only [Ty.rustEq, Ty.norm, Bool.and_eq_true, beq_iff_eq, Ty.sumGen.injEq]
      rw [eq_comm (a := normRows rows), normRows_replicate]
      constructor
      · rintro ⟨⟨h1, h2⟩, h3⟩; exact ⟨⟨h1.symm, h2⟩, h3⟩
      · rintro ⟨⟨h1, h2⟩, h3⟩; exact ⟨⟨h1.symm, h2⟩, h3⟩
    | _ => simp [Ty.rustEq, Ty.norm, rustEqRows_iff h]
  case sumUnit =>
    intro n t'
    cases t' with
    | sumGen rows b =>
      simp only [Ty.rustEq, Ty.norm, Bool.and_eq_true, beq_iff_eq, Ty.sumGen.injEq]
      rw [normRows_replicate]
      constructor
      · rintro ⟨⟨h1, h2⟩, h3⟩; exact ⟨⟨h1, h2⟩, h3.symm⟩
      · rintro ⟨⟨h1, h2⟩, h3⟩; exact ⟨⟨h1, h2⟩, h3.symm⟩
    | sumUnit n' =>
      simp only [Ty.rustEq, Ty.norm, beq_iff_eq, Ty.sumGen.injEq, and_true]
      constructor
      · rintro rfl; rfl
      · intro h
        have := congrArg List.length h
        simpa using this
    | _ => simp [Ty.rustEq, Ty.norm]
  case rty => intro t h t'; cases t' <;> simp [RTy.rustEq, RTy.norm, h]
  case rowVar => intro i b t'; cases t' <;> simp [RTy.rustEq, RTy.norm]
  case alias => intro n b t'; cases t' <;> simp [Ty.rustEq, Ty.norm]
  case tyVar => intro n b t'; cases t' <;> simp [Ty.rustEq, Ty.norm]
  case listType => intro t h t'; cases t' <;> simp [Term.rustEq, Term.norm, h]
  case tupleType => intro t h t'; cases t' <;> simp [Term.rustEq, Term.norm, h]
  case runtime => intro t h t'; cases t' <;> simp [Term.rustEq, Term.norm, h]
  case constType => intro t h t'; cases t' <;> simp [Term.rustEq, Term.norm, h]
  case var => intro i d h t'; cases t' <;> simp [Term.rustEq, Term.norm, h]
  all_goals (intros; rename_i t'; cases t' <;> simp [Term.rustEq, Term.norm])

/-! ## Helper: traces only depend on the normal form -/

theorem length_normTerms (ts : List Term) : (normTerms ts).length = ts.length := by
  induction ts with
  | nil => rfl
  | cons t ts ih => simp [normTerms, ih]
theorem length_normRow (ts : List RTy) : (normRow ts).length = ts.length := by
  induction ts with
  | nil => rfl
  | cons t ts ih => simp [normRow, ih]

theorem traceTerms_norm {ts : List Term} (h : ∀ t ∈ ts, t.norm.trace = t.trace) :
    traceTerms (normTerms ts) = traceTerms ts := by
  induction ts with
  | nil => rfl
  | cons t ts ih =>
    simp only [normTerms, traceTerms]
    rw [h t (by simp), ih (fun x hx => h x (by simp [hx]))]
theorem traceRow_norm {ts : List RTy} (h : ∀ t ∈ ts, t.norm.trace = t.trace) :
    traceRow (normRow ts) = traceRow ts := by
  induction ts with
  | nil => rfl
  | cons t ts ih =>
    simp only [normRow, traceRow]
    rw [h t (by simp), ih (fun x hx => h x (by simp [hx]))]
theorem traceRows_norm {ts : List (List RTy)} (h : ∀ r ∈ ts, ∀ t ∈ r, t.norm.trace = t.trace) :
    traceRows (normRows ts) = traceRows ts := by
  induction ts with
  | nil => rfl
  | cons t ts ih =>
    simp only [normRows, traceRows, length_normRow]
    rw [traceRow_norm (h t (by simp)), ih (fun x hx => h x (by simp [hx]))]
theorem traceRows_replicate (n : Nat) :
    traceRows (List.replicate n []) = List.replicate n (Tok.num 0) := by
  induction n with
  | zero => rfl
  | succ n ih => simp [List.replicate_succ, traceRows, traceRow, ih]

theorem trace_norm : (∀ t : Term, t.norm.trace = t.trace) ∧ (∀ t : Ty, t.norm.trace = t.trace) ∧
    (∀ t : RTy, t.norm.trace = t.trace) := by
  apply syntax_induction
  case list => intro ts h; simp [Term.norm, Term.trace, traceTerms_norm h, length_normTerms]
  case listConcat => intro ts h; simp [Term.norm, Term.trace, traceTerms_norm h, length_normTerms]
  case tuple => intro ts h; simp [Term.norm, Term.trace, traceTerms_norm h, length_normTerms]
  case tupleConcat => intro ts h; simp [Term.norm, Term.trace, traceTerms_norm h, length_normTerms]
  case ext => intro e i a b h; simp [Ty.norm, Ty.trace, traceTerms_norm h, length_normTerms]
  case function =>
    intro i o hi ho
    simp [Ty.norm, Ty.trace, traceRow_norm hi, traceRow_norm ho, length_normRow]
  case sumGen => intro rows b h; simp [Ty.norm, Ty.trace, traceRows_norm h]
  case sumUnit => intro n; simp [Ty.norm, Ty.trace, traceRows_replicate, Bound.tok]
  case rty => intro t h; simpa [RTy.norm, RTy.trace] using h
  case listType => intro t h; simp [Term.norm, Term.trace, h]
  case tupleType => intro t h; simp [Term.norm, Term.trace, h]
  case runtime => intro t h; simp [Term.norm, Term.trace, h]
  case constType => intro t h; simp [Term.norm, Term.trace, h]
  case var => intro i d h; simp [Term.norm, Term.trace, h]
  all_goals (intros; rfl)

/-! ## Helper: on constructed types the normal form is injective -/

theorem normTerms_inj {ts : List Term}
    (h : ∀ t ∈ ts, ∀ t' : Term, t.built = true → t'.built = true → t.norm = t'.norm → t = t') :
    ∀ ts', builtTerms ts = true → builtTerms ts' = true → normTerms ts = normTerms ts' →
      ts = ts' := by
  induction ts with
  | nil => intro ts' _ _ e; cases ts' <;> simp_all [normTerms]
  | cons t ts ih =>
    intro ts' hb hb' e
    cases ts' with
    | nil => simp [normTerms] at e
    | cons t' ts' =>
      simp only [normTerms, List.cons.injEq] at e
      simp only [builtTerms, Bool.and_eq_true] at hb hb'
      rw [h t (by simp) t' hb.1 hb'.1 e.1,
        ih (fun x hx => h x (by simp [hx])) ts' hb.2 hb'.2 e.2]
theorem normRow_inj {ts : List RTy}
    (h : ∀ t ∈ ts, ∀ t' : RTy, t.built = true → t'.built = true → t.norm = t'.norm → t = t') :
    ∀ ts', builtRow ts = true → builtRow ts' = true → normRow ts = normRow ts' → ts = ts' := by
  induction ts with
  | nil => intro ts' _ _ e; cases ts' <;> simp_all [normRow]
  | cons t ts ih =>
    intro ts' hb hb' e
    cases ts' with
    | nil => simp [normRow] at e
    | cons t' ts' =>
      simp only [normRow, List.cons.injEq] at e
      simp only [builtRow, Bool.and_eq_true] at hb hb'
      rw [h t (by simp) t' hb.1 hb'.1 e.1,
        ih (fun x hx => h x (by simp [hx])) ts' hb.2 hb'.2 e.2]
theorem normRows_inj {ts : List (List RTy)}
    (h : ∀ r ∈ ts, ∀ t ∈ r, ∀ t' : RTy, t.built = true → t'.built = true → t.norm = t'.norm →
      t = t') :
    ∀ ts', builtRows ts = true → builtRows ts' = true → normRows ts = normRows ts' → ts = ts' := by
  induction ts with
  | nil => intro ts' _ _ e; cases ts' <;> simp_all [normRows]
  | cons t ts ih =>
    intro ts' hb hb' e
    cases ts' with
    | nil => simp [normRows] at e
    | cons t' ts' =>
      simp only [normRows, List.cons.injEq] at e
      simp only [builtRows, Bool.and_eq_true] at hb hb'
      rw [normRow_inj (h t (by simp)) t' hb.1 hb'.1 e.1,
        ih (fun x hx => h x (by simp [hx])) ts' hb.2 hb'.2 e.2]

theorem norm_inj :
    (∀ t t' : Term, t.built = true → t'.built = true → t.norm = t'.norm → t = t') ∧
    (∀ t t' : Ty, t.built = true → t'.built = true → t.norm = t'.norm → t = t') ∧
    (∀ t t' : RTy, t.built = true → t'.built = true → t.norm = t'.norm → t = t') := by
  apply syntax_induction
  case list =>
    intro ts h t' hb hb' e
    cases t' <;> simp [Term.norm] at e
    simp only [Term.built] at hb hb'
    rw [normTerms_inj h _ hb hb' e]
  case listConcat =>
    intro ts h t' hb hb' e
    cases t' <;> simp [Term.norm] at e
    simp only [Term.built] at hb hb'
    rw [normTerms_inj h _ hb hb' e]
  case tuple =>
    intro ts h t' hb hb' e
    cases t' <;> simp [Term.norm] at e
    simp only [Term.built] at hb hb'
    rw [normTerms_inj h _ hb hb' e]
  case tupleConcat =>
    intro ts h t' hb hb' e
    cases t' <;> simp [Term.norm] at e
    simp only [Term.built] at hb hb'
    rw [normTerms_inj h _ hb hb' e]
  case ext =>
    intro x i a b h t' hb hb' e
    cases t' <;> simp [Ty.norm] at e
    simp only [Ty.built] at hb hb'
    obtain ⟨rfl, rfl, e, rfl⟩ := e
    rw [normTerms_inj h _ hb hb' e]
  case function =>
    intro i o hi ho t' hb hb' e
    cases t' <;> simp [Ty.norm] at e
    simp only [Ty.built, Bool.and_eq_true] at hb hb'
    rw [normRow_inj hi _ hb.1 hb'.1 e.1, normRow_inj ho _ hb.2 hb'.2 e.2]
  case sumGen =>
    intro rows b h t' hb hb' e
    cases t' with
    | sumUnit n =>
      exfalso
      simp only [Ty.norm, Ty.sumGen.injEq] at e
      have h1 := (normRows_replicate n rows).mp e.1.symm
      simp [Ty.built] at hb hb'
      have := hb.2.resolve_left (by omega)
      obtain ⟨r, hr, hne⟩ := this
      have := List.all_eq_true.mp h1.2 r hr
      simp at this
      exact hne this
    | sumGen rows' b' =>
      simp only [Ty.norm, Ty.sumGen.injEq] at e
      simp only [Ty.built, Bool.and_eq_true] at hb hb'
      rw [normRows_inj h _ hb.1.1 hb'.1.1 e.1, e.2]
    | _ => simp [Ty.norm] at e
  case sumUnit =>
    intro n t' hb hb' e
    cases t' with
    | sumGen rows b =>
      exfalso
      simp only [Ty.norm, Ty.sumGen.injEq] at e
      have h1 := (normRows_replicate n rows).mp e.1
      simp [Ty.built] at hb hb'
      have := hb'.2.resolve_left (by omega)
      obtain ⟨r, hr, hne⟩ := this
      have := List.all_eq_true.mp h1.2 r hr
      simp at this
      exact hne this
    | sumUnit n' =>
      simp only [Ty.norm, Ty.sumGen.injEq, and_true] at e
      have := congrArg List.length e
      simp at this
      rw [this]
    | _ => simp [Ty.norm] at e
  case rty =>
    intro t h t' hb hb' e
    cases t' <;> simp [RTy.norm] at e
    rw [h _ (by simpa [RTy.built] using hb) (by simpa [RTy.built] using hb') e]
  case rowVar => intro i b t' _ _ e; cases t' <;> simp_all [RTy.norm]
  case alias => intro i b t' _ _ e; cases t' <;> simp_all [Ty.norm]
  case tyVar => intro i b t' _ _ e; cases t' <;> simp_all [Ty.norm]
  case listType =>
    intro t h t' hb hb' e
    cases t' <;> simp [Term.norm] at e
    rw [h _ (by simpa [Term.built] using hb) (by simpa [Term.built] using hb') e]
  case tupleType =>
    intro t h t' hb hb' e
    cases t' <;> simp [Term.norm] at e
    rw [h _ (by simpa [Term.built] using hb) (by simpa [Term.built] using hb') e]
  case runtime =>
    intro t h t' hb hb' e
    cases t' <;> simp [Term.norm] at e
    rw [h _ (by simpa [Term.built] using hb) (by simpa [Term.built] using hb') e]
  case constType =>
    intro t h t' hb hb' e
    cases t' <;> simp [Term.norm] at e
    rw [h _ (by simpa [Term.built] using hb) (by simpa [Term.built] using hb') e]
  case var =>
    intro i d h t' hb hb' e
    cases t' <;> simp [Term.norm] at e
    obtain ⟨rfl, e⟩ := e
    rw [h _ (by simpa [Term.built] using hb) (by simpa [Term.built] using hb') e]
  all_goals (intros; rename_i t' _ _ e; cases t' <;> simp_all [Term.norm])

/-! ## Properties -/

/-- C02 (equivalence): equality of types, row elements and terms as implemented is an equivalence
relation, even when compact and general sums are mixed at any depth. -/
theorem C02_equality_is_equivalence :
    ((∀ a : Ty, a.rustEq a = true) ∧
     (∀ a b : Ty, a.rustEq b = true → b.rustEq a = true) ∧
     (∀ a b c : Ty, a.rustEq b = true → b.rustEq c = true → a.rustEq c = true)) ∧
    ((∀ a : Term, a.rustEq a = true) ∧
     (∀ a b : Term, a.rustEq b = true → b.rustEq a = true) ∧
     (∀ a b c : Term, a.rustEq b = true → b.rustEq c = true → a.rustEq c = true)) := by
  refine ⟨⟨?_, ?_, ?_⟩, ⟨?_, ?_, ?_⟩⟩
  · intro a; rw [rustEq_iff_norm.2.1]
  · intro a b; rw [rustEq_iff_norm.2.1, rustEq_iff_norm.2.1]; exact Eq.symm
  · intro a b c; rw [rustEq_iff_norm.2.1, rustEq_iff_norm.2.1, rustEq_iff_norm.2.1]; exact Eq.trans
  · intro a; rw [rustEq_iff_norm.1]
  · intro a b; rw [rustEq_iff_norm.1, rustEq_iff_norm.1]; exact Eq.symm
  · intro a b c; rw [rustEq_iff_norm.1, rustEq_iff_norm.1, rustEq_iff_norm.1]; exact Eq.trans

/-- C02 (hash): equal types feed the same sequence to the hasher. -/
theorem C02_equal_types_hash_alike :
    (∀ a b : Ty, a.rustEq b = true → a.trace = b.trace) ∧
    (∀ a b : Term, a.rustEq b = true → a.trace = b.trace) := by
  constructor
  · intro a b h
    rw [rustEq_iff_norm.2.1] at h
    rw [← trace_norm.2.1 a, ← trace_norm.2.1 b, h]
  · intro a b h
    rw [rustEq_iff_norm.1] at h
    rw [← trace_norm.1 a, ← trace_norm.1 b, h]

/-- C02 (equality is structural): on types made with the type constructors the implemented
equality is plain equality, so each type has a single representation. -/
theorem C02_equality_of_built_types (a b : Ty) (ha : a.built = true) (hb : b.built = true) :
    a.rustEq b = true ↔ a = b := by
  rw [rustEq_iff_norm.2.1]
  constructor
  · exact norm_inj.2.1 a b ha hb
  · rintro rfl; rfl

/-- C02 (unit sums): the sum of `n` empty rows and the compact `n`-variant sum are equal (in both
directions, and when the general form was built by hand), hash the same and, up to the `u8`
limit, the constructor returns the compact one. -/
theorem C02_unit_sum_interchangeable (n : Nat) :
    (Ty.general (List.replicate n [])).rustEq (.sumUnit n) = true ∧
    (Ty.sumUnit n).rustEq (Ty.general (List.replicate n [])) = true ∧
    (Ty.general (List.replicate n [])).trace = (Ty.sumUnit n).trace ∧
    (n < 256 → Ty.newSum (List.replicate n []) = .sumUnit n) ∧
    (256 ≤ n → Ty.newSum (List.replicate n []) = Ty.general (List.replicate n [])) := by
  have hl : leastUpperBound ((List.replicate n ([] : List RTy)).flatten.map RTy.bound)
      = .copyable := by simp [leastUpperBound, leastUpperBoundFrom]
  have h1 : (Ty.sumUnit n).rustEq (Ty.general (List.replicate n [])) = true := by
    rw [Ty.general, hl]
    simp [Ty.rustEq]
  have h2 := C02_equality_is_equivalence.1.2.1 _ _ h1
  refine ⟨h2, h1, C02_equal_types_hash_alike.1 _ _ h2, ?_, ?_⟩
  · intro h; simp [Ty.newSum, h]
  · intro h
    have : ¬ n < 256 := by omega
    simp [Ty.newSum, this]

/-- C02 (views): all views of a sum depend only on its rows: number of variants, the row of each
tag, the tuple view (a single row) and the option view (an empty row followed by one row). -/
theorem C02_views_follow_rows (t : Ty) :
    t.numVariants = t.variants.length ∧
    (∀ tag : Nat, t.getVariant tag = t.variants[tag]?) ∧
    (∀ row : List RTy, t.asTuple = some row ↔ t.variants = [row]) ∧
    (∀ row : List RTy, t.asOption = some row ↔ t.variants = [[], row]) ∧
    (∀ x : RTy, t.asUnaryOption = some x ↔ t.variants = [[], [x]]) := by
  have hopt : ∀ row : List RTy, t.asOption = some row ↔ t.variants = [[], row] := by
    intro row
    cases t with
    | sumUnit n =>
      simp only [Ty.asOption, Ty.variants]
      constructor
      · intro h
        split at h
        · next h2 => subst h2; cases h; rfl
        · cases h
      · intro h
        have hn : n = 2 := by have := congrArg List.length h; simpa using this
        subst hn
        simp [List.replicate_succ] at h
        simp [h]
    | sumGen rows b =>
      simp only [Ty.asOption, Ty.variants]
      match rows with
      | [] => simp
      | [a] => simp
      | [a, c] => simp only [List.length_cons, List.length_nil]; constructor <;> simp_all
      | a :: c :: d :: rest => simp
    | _ => simp [Ty.asOption, Ty.variants]
  refine ⟨?_, ?_, ?_, hopt, ?_⟩
  · cases t <;> simp [Ty.numVariants, Ty.variants]
  · intro tag
    cases t with
    | sumUnit n => simp only [Ty.getVariant, Ty.variants, List.getElem?_replicate]
    | _ => simp [Ty.getVariant, Ty.variants]
  · intro row
    cases t with
    | sumUnit n =>
      simp only [Ty.asTuple, Ty.variants]
      constructor
      · intro h
        split at h
        · next h2 => subst h2; cases h; rfl
        · cases h
      · intro h
        have hn : n = 1 := by have := congrArg List.length h; simpa using this
        subst hn
        simp at h
        simp [h]
    | sumGen rows b =>
      simp only [Ty.asTuple, Ty.variants]
      match rows with
      | [] => simp
      | [a] => simp
      | a :: c :: rest => simp
    | _ => simp [Ty.asTuple, Ty.variants]
  · intro x
    unfold Ty.asUnaryOption
    constructor
    · intro h
      split at h
      · next y hy => cases h; exact (hopt _).mp hy
      · cases h
    · intro h
      rw [(hopt [x]).mpr h]

/-- C02 (constructor): the sum built from some rows has exactly these rows as variants, and two
sums are equal exactly when their rows are. -/
theorem C02_new_sum_rows (rows rows' : List (List RTy)) :
    (Ty.newSum rows).variants = rows ∧
    ((Ty.newSum rows).rustEq (Ty.newSum rows') = true ↔ rustEqRows rows rows' = true) := by
  have hv : ∀ rs : List (List RTy), rs.all List.isEmpty = true →
      List.replicate rs.length [] = rs := by
    intro rs h
    symm
    rw [List.eq_replicate_iff]
    refine ⟨rfl, fun r hr => ?_⟩
    have := List.all_eq_true.mp h r hr
    simpa using this
  constructor
  · unfold Ty.newSum
    split
    · next h => exact hv rows h.2
    · rfl
  · have hn : ∀ rs : List (List RTy), (Ty.newSum rs).norm = (Ty.general rs).norm := by
      intro rs
      unfold Ty.newSum
      split
      · next h =>
        have hb : leastUpperBound (rs.flatten.map RTy.bound) = .copyable := by
          rw [← hv rs h.2]; simp [leastUpperBound, leastUpperBoundFrom]
        have hr : List.replicate rs.length [] = normRows rs :=
          (normRows_replicate rs.length rs).mpr ⟨rfl, h.2⟩
        simp only [Ty.norm, Ty.general, hb, hr]
      · rfl
    rw [rustEq_iff_norm.2.1, hn, hn, ← rustEq_iff_norm.2.1]
    simp only [Ty.general, Ty.rustEq, Bool.and_eq_true, beq_iff_eq]
    constructor
    · exact fun h => h.1
    · intro h
      refine ⟨h, ?_⟩
      -- equal rows have equal bounds
      have hrow : ∀ a b : List RTy, rustEqRow a b = true → a.map RTy.bound = b.map RTy.bound := by
        intro a
        induction a with
        | nil => intro b hb; cases b <;> simp_all [rustEqRow]
        | cons x xs ih =>
          intro b hb
          cases b with
          | nil => simp [rustEqRow] at hb
          | cons y ys =>
            simp only [rustEqRow, Bool.and_eq_true] at hb
            simp only [List.map_cons, List.cons.injEq]
            refine ⟨?_, ih ys hb.2⟩
            have hxy := hb.1
            cases x with
            | rowVar i b =>
              cases y with
              | ty _ => simp [RTy.rustEq] at hxy
              | rowVar _ _ => simp [RTy.rustEq] at hxy; simp [RTy.bound, hxy.2]
            | ty t =>
              cases y with
              | rowVar _ _ => simp [RTy.rustEq] at hxy
              | ty t' =>
                simp only [RTy.rustEq] at hxy
                cases t <;> cases t' <;> simp_all [Ty.rustEq, RTy.bound, Ty.bound]
      have : ∀ a b : List (List RTy), rustEqRows a b = true →
          a.flatten.map RTy.bound = b.flatten.map RTy.bound := by
        intro a
        induction a with
        | nil => intro b hb; cases b <;> simp_all [rustEqRows]
        | cons x xs ih =>
          intro b hb
          cases b with
          | nil => simp [rustEqRows] at hb
          | cons y ys =>
            simp only [rustEqRows, Bool.and_eq_true] at hb
            simp only [List.flatten_cons, List.map_append, hrow x y hb.1, ih ys hb.2]
      rw [this rows rows' h]

/-! ### Non-vacuity -/

example : (Ty.sumGen [[], []] .copyable).rustEq (.sumUnit 2) = true := by decide
example : (Ty.sumGen [[], []] .copyable) ≠ .sumUnit 2 := by decide
example : (Ty.newSum [[.ty (.sumUnit 2)], []]).rustEq
    (.sumGen [[.ty (.sumGen [[], []] .copyable)], []] .copyable) = true := by decide
example : (Ty.newSum [[], [.ty (.sumUnit 2)]]).asUnaryOption = some (.ty (.sumUnit 2)) := by decide
example : (Ty.newSum [[.ty (.sumUnit 2)], []]).built = true := by decide
example : (Ty.newSum [[.ty (.sumUnit 2)], []]).rustEq (.sumUnit 2) = false := by decide

end Verif.Types
