import Verif.Ops.PortProps
import Verif.Types.SubstProps

/-!
# C43: substituting in an operation

Substitution acts on operations field by field; these theorems say that this is the same as acting
on what the operation means: its signature, its ports and the signature of its body.
-/
namespace Verif.Ops

open Verif.Types

/-! ## Lemmas -/

theorem substTypes_append (env : Env) (σ : List Term) (xs ys : List Ty) :
    substTypes env σ (xs ++ ys) =
      match substTypes env σ xs, substTypes env σ ys with
      | some a, some b => some (a ++ b)
      | _, _ => none := by
  induction xs with
  | nil => cases h : substTypes env σ ys <;> simp [substTypes, h]
  | cons x xs ih =>
    simp only [List.cons_append, substTypes, ih]
    cases x.subst env σ <;> cases substTypes env σ xs <;> cases substTypes env σ ys <;> simp

theorem substTypes_length {env : Env} {σ : List Term} {xs ys : List Ty}
    (h : substTypes env σ xs = some ys) : ys.length = xs.length := by
  induction xs generalizing ys with
  | nil => simp [substTypes] at h; simp [← h]
  | cons x xs ih =>
    simp only [substTypes] at h
    cases h1 : x.subst env σ <;> cases h2 : substTypes env σ xs <;> simp [h1, h2] at h
    simp [← h, ih h2]

theorem substRow_rvRow (env : Env) (σ : List Term) (r : List Ty) :
    substRow env σ (rvRow r) = (substTypes env σ r).map rvRow := by
  induction r with
  | nil => rfl
  | cons t ts ih =>
    rw [rvRow] at ih
    simp only [rvRow, List.map_cons, substRow, RTy.subst, substTypes, ih]
    cases t.subst env σ <;> cases substTypes env σ ts <;> simp [rvRow]

theorem substRows_rvRow (env : Env) (σ : List Term) (rs : List (List Ty)) :
    substRows env σ (rs.map rvRow) = (substTypeRows env σ rs).map (List.map rvRow) := by
  induction rs with
  | nil => rfl
  | cons r rs ih =>
    simp only [List.map_cons, substRows, substRow_rvRow, substTypeRows, ih]
    cases substTypes env σ r <;> cases substTypeRows env σ rs <;> simp

theorem substTypeRows_get {env : Env} {σ : List Term} {rs rs' : List (List Ty)}
    (h : substTypeRows env σ rs = some rs') (k : Nat) :
    match rs[k]?, rs'[k]? with
    | some r, some r' => substTypes env σ r = some r'
    | none, none => True
    | _, _ => False := by
  induction rs generalizing rs' k with
  | nil => simp [substTypeRows] at h; subst h; simp
  | cons r rs ih =>
    simp only [substTypeRows] at h
    cases h1 : substTypes env σ r <;> cases h2 : substTypeRows env σ rs <;> simp [h1, h2] at h
    subst h
    cases k with
    | zero => simpa using h1
    | succ k => simpa using ih h2 k

theorem substTypeRows_length {env : Env} {σ : List Term} {rs rs' : List (List Ty)}
    (h : substTypeRows env σ rs = some rs') : rs'.length = rs.length := by
  induction rs generalizing rs' with
  | nil => simp [substTypeRows] at h; simp [← h]
  | cons r rs ih =>
    simp only [substTypeRows] at h
    cases h1 : substTypes env σ r <;> cases h2 : substTypeRows env σ rs <;> simp [h1, h2] at h
    simp [← h, ih h2]

theorem substTypeRows_empty {env : Env} {σ : List Term} {rs rs' : List (List Ty)}
    (h : substTypeRows env σ rs = some rs') :
    (rs'.map rvRow).all List.isEmpty = (rs.map rvRow).all List.isEmpty := by
  induction rs generalizing rs' with
  | nil => simp [substTypeRows] at h; simp [← h]
  | cons r rs ih =>
    simp only [substTypeRows] at h
    cases h1 : substTypes env σ r <;> cases h2 : substTypeRows env σ rs <;> simp [h1, h2] at h
    subst h
    have hl := substTypes_length h1
    have : (rvRow ‹_›).isEmpty = (rvRow r).isEmpty := by
      rename_i a b
      cases a <;> cases r <;> simp_all [rvRow]
    simp only [List.map_cons, List.all_cons, this, ih h2]

theorem sumOf_subst (env : Env) (σ : List Term) (rows : List (List Ty)) :
    ∀ rows', substTypeRows env σ rows = some rows' → (sumOf rows).subst env σ = some (sumOf rows') := by
  intro rows' h
  have hl := substTypeRows_length h
  have he := substTypeRows_empty h
  unfold sumOf Ty.newSum
  simp only [List.length_map, he, hl]
  split
  · simp [Ty.subst]
  · rename_i hne
    simp only [Ty.general, Ty.subst, substRows_rvRow, h, Option.map_some]
    simp only [Ty.newSum, List.length_map, he, hl, if_neg hne]
    rfl

theorem functionOf_subst (env : Env) (σ : List Term) (s : Signature) :
    (functionOf s).subst env σ = (s.subst env σ).map functionOf := by
  simp only [functionOf, Ty.subst, substRow_rvRow, Signature.subst]
  cases substTypes env σ s.input <;> cases substTypes env σ s.output <;> simp [functionOf]

theorem Signature.subst_some {env : Env} {σ : List Term} {s s' : Signature} :
    s.subst env σ = some s' ↔ substTypes env σ s.input = some s'.input ∧
      substTypes env σ s.output = some s'.output := by
  obtain ⟨i, o⟩ := s
  obtain ⟨i', o'⟩ := s'
  simp only [Signature.subst]
  cases substTypes env σ i <;> cases substTypes env σ o <;> simp

/-! ### Closed types do not see the substitution -/

set_option linter.unusedVariables false in
mutual
theorem closed_term (env : Env) (σ τ : List Term) :
    ∀ t : Term, t.closed = true → t.subst env σ = t.subst env τ
  | .runtime t, h => by simp only [Term.closed] at h; simp only [Term.subst, closed_ty env σ τ t h]
  | .list es, h => by simp only [Term.closed] at h; simp only [Term.subst, closed_terms env σ τ es h]
  | .listConcat es, h => by
    simp only [Term.closed] at h; simp only [Term.subst, closed_terms env σ τ es h]
  | .tuple es, h => by simp only [Term.closed] at h; simp only [Term.subst, closed_terms env σ τ es h]
  | .tupleConcat es, h => by
    simp only [Term.closed] at h; simp only [Term.subst, closed_terms env σ τ es h]
  | .variable i d, h => by simp [Term.closed] at h
  | .listType t, h => by simp only [Term.closed] at h; simp only [Term.subst, closed_term env σ τ t h]
  | .tupleType t, h => by simp only [Term.closed] at h; simp only [Term.subst, closed_term env σ τ t h]
  | .constType t, h => by simp only [Term.closed] at h; simp only [Term.subst, closed_ty env σ τ t h]
  | .runtimeType _, h => by simp only [Term.subst]
  | .staticType, h => by simp only [Term.subst]
  | .boundedNatType _, h => by simp only [Term.subst]
  | .stringType, h => by simp only [Term.subst]
  | .bytesType, h => by simp only [Term.subst]
  | .floatType, h => by simp only [Term.subst]
  | .boundedNat _, h => by simp only [Term.subst]
  | .string _, h => by simp only [Term.subst]
  | .bytes _, h => by simp only [Term.subst]
  | .float _, h => by simp only [Term.subst]
theorem closed_terms (env : Env) (σ τ : List Term) :
    ∀ ts : List Term, closedAll ts = true → substTerms env σ ts = substTerms env τ ts
  | [], h => by simp only [substTerms]
  | t :: ts, h => by
    simp only [closedAll, Bool.and_eq_true] at h
    simp only [substTerms, closed_term env σ τ t h.1, closed_terms env σ τ ts h.2]
theorem closed_ty (env : Env) (σ τ : List Term) :
    ∀ t : Ty, t.closed = true → t.subst env σ = t.subst env τ
  | .ext _ _ args _, h => by
    simp only [Ty.closed] at h; simp only [Ty.subst, closed_terms env σ τ args h]
  | .alias _ _, h => by simp only [Ty.subst]
  | .function i o, h => by
    simp only [Ty.closed, Bool.and_eq_true] at h
    simp only [Ty.subst, closed_row env σ τ i h.1, closed_row env σ τ o h.2]
  | .variable _ _, h => by simp [Ty.closed] at h
  | .sumUnit _, h => by simp only [Ty.subst]
  | .sumGen rows _, h => by
    simp only [Ty.closed] at h; simp only [Ty.subst, closed_rows env σ τ rows h]
theorem closed_rty (env : Env) (σ τ : List Term) :
    ∀ t : RTy, t.closed = true → t.subst env σ = t.subst env τ
  | .ty t, h => by simp only [RTy.closed] at h; simp only [RTy.subst, closed_ty env σ τ t h]
  | .rowVar _ _, h => by simp [RTy.closed] at h
theorem closed_row (env : Env) (σ τ : List Term) :
    ∀ ts : List RTy, closedRow ts = true → substRow env σ ts = substRow env τ ts
  | [], h => by simp only [substRow]
  | t :: ts, h => by
    simp only [closedRow, Bool.and_eq_true] at h
    simp only [substRow, closed_rty env σ τ t h.1, closed_row env σ τ ts h.2]
theorem closed_rows (env : Env) (σ τ : List Term) :
    ∀ ts : List (List RTy), closedRows ts = true → substRows env σ ts = substRows env τ ts
  | [], h => by simp only [substRows]
  | t :: ts, h => by
    simp only [closedRows, Bool.and_eq_true] at h
    simp only [substRows, closed_row env σ τ t h.1, closed_rows env σ τ ts h.2]
end

/-! ## Theorems -/

/-- C43 (closed types): a type without variables, valid on its own, is unchanged by every
substitution.  Partial: fragment of C04 (no concatenations, no tuple kinds or row variables). -/
theorem C43_closed_type_unchanged_partial (env : Env) (σ : List Term) (t : Ty)
    (hp : t.plain = true) (hb : t.built = true) (hn : t.noTupleRow = true)
    (hv : t.validate env [] = true) : t.subst env σ = some t := by
  have h1 : t.closed = true := (closed_of_valid env).2.1 t hv
  rw [closed_ty env σ (idArgs []) t h1]
  exact C04_identity_type_partial env [] (by simp) t hp hb hn hv

/-- C43 (signatures): the signature of a substituted operation is the substituted signature.  For
`LoadConstant`, which is left alone, the loaded type must be unaffected by the substitution (as it
is when it has no variables, see `C43_closed_type_unchanged_partial`). -/
theorem C43_signature (env : Env) (σ : List Term) (op op' : Op) (s : Signature)
    (h : op.subst env σ = some op') (hs : op.dataflowSignature = .ok (some s))
    (hc : ∀ t, op = .loadConstant t → t.subst env σ = some t) :
    ∃ s', s.subst env σ = some s' ∧ op'.dataflowSignature = .ok (some s') := by
  cases op with
  | module | funcDefn | funcDecl | aliasDefn | aliasDecl | const | dataflowBlock | exitBlock
  | case => simp [Op.dataflowSignature] at hs
  | input ts =>
    simp [Op.dataflowSignature] at hs; subst hs
    simp only [Op.subst, Option.map_eq_some_iff] at h
    obtain ⟨ts', h1, rfl⟩ := h
    exact ⟨⟨[], ts'⟩, Signature.subst_some.mpr ⟨rfl, h1⟩, rfl⟩
  | output ts =>
    simp [Op.dataflowSignature] at hs; subst hs
    simp only [Op.subst, Option.map_eq_some_iff] at h
    obtain ⟨ts', h1, rfl⟩ := h
    exact ⟨⟨ts', []⟩, Signature.subst_some.mpr ⟨h1, rfl⟩, rfl⟩
  | call f args inst =>
    simp [Op.dataflowSignature] at hs; subst hs
    simp only [Op.subst] at h
    cases h1 : substTerms env σ args <;> cases h2 : inst.subst env σ <;> simp [h1, h2] at h
    subst h
    exact ⟨_, rfl, rfl⟩
  | callIndirect f =>
    simp [Op.dataflowSignature] at hs; subst hs
    simp only [Op.subst, Option.map_eq_some_iff] at h
    obtain ⟨f', h1, rfl⟩ := h
    have h2 := Signature.subst_some.mp h1
    refine ⟨⟨functionOf f' :: f'.input, f'.output⟩, Signature.subst_some.mpr ⟨?_, h2.2⟩, rfl⟩
    simp [substTypes, functionOf_subst, h1, h2.1]
  | loadConstant t =>
    simp [Op.dataflowSignature] at hs; subst hs
    simp only [Op.subst, Option.some.injEq] at h; subst h
    refine ⟨⟨[], [t]⟩, Signature.subst_some.mpr ⟨rfl, ?_⟩, rfl⟩
    simp [substTypes, hc t rfl]
  | loadFunction f args inst =>
    simp [Op.dataflowSignature] at hs; subst hs
    simp only [Op.subst] at h
    cases h1 : substTerms env σ args <;> cases h2 : inst.subst env σ <;> simp [h1, h2] at h
    subst h
    refine ⟨_, Signature.subst_some.mpr ⟨rfl, ?_⟩, rfl⟩
    simp [substTypes, functionOf_subst, h2]
  | dfg f =>
    simp [Op.dataflowSignature] at hs; subst hs
    simp only [Op.subst, Option.map_eq_some_iff] at h
    obtain ⟨f', h1, rfl⟩ := h
    exact ⟨f', h1, rfl⟩
  | extensionOp e n args f =>
    simp [Op.dataflowSignature] at hs; subst hs
    simp only [Op.subst] at h
    cases h1 : substTerms env σ args <;> cases h2 : f.subst env σ <;> simp [h1, h2] at h
    subst h
    exact ⟨_, rfl, rfl⟩
  | tag k vs =>
    simp only [Op.dataflowSignature] at hs
    simp only [Op.subst, Option.map_eq_some_iff] at h
    obtain ⟨vs', h1, rfl⟩ := h
    have hg := substTypeRows_get h1 k
    cases h2 : vs[k]? <;> simp [h2] at hs hg
    subst hs
    cases h3 : vs'[k]? <;> simp [h3] at hg
    refine ⟨_, Signature.subst_some.mpr ⟨hg, ?_⟩, by simp only [Op.dataflowSignature, h3]; rfl⟩
    simp [substTypes, sumOf_subst env σ vs vs' h1]
  | tailLoop ji jo rest =>
    simp [Op.dataflowSignature] at hs; subst hs
    simp only [Op.subst] at h
    cases h1 : substTypes env σ ji <;> cases h2 : substTypes env σ jo <;>
      cases h3 : substTypes env σ rest <;> simp [h1, h2, h3] at h
    subst h
    exact ⟨_, Signature.subst_some.mpr
      ⟨by simp only [substTypes_append, h1, h3], by simp only [substTypes_append, h2, h3]⟩, rfl⟩
  | cfg f =>
    simp [Op.dataflowSignature] at hs; subst hs
    simp only [Op.subst, Option.map_eq_some_iff] at h
    obtain ⟨f', h1, rfl⟩ := h
    exact ⟨f', h1, rfl⟩
  | conditional rows other outs =>
    simp [Op.dataflowSignature] at hs; subst hs
    simp only [Op.subst] at h
    cases h1 : substTypeRows env σ rows <;> cases h2 : substTypes env σ other <;>
      cases h3 : substTypes env σ outs <;> simp [h1, h2, h3] at h
    subst h
    refine ⟨_, Signature.subst_some.mpr ⟨?_, h3⟩, rfl⟩
    simp [substTypes, sumOf_subst env σ _ _ h1, h2]

/-- C43 (bodies): the signature of the body of a substituted container is the substituted signature.
Function definitions bind their own variables and are left alone. -/
theorem C43_inner_signature (env : Env) (σ : List Term) (op op' : Op) (s : Signature)
    (h : op.subst env σ = some op') (hs : op.innerSignature = some s) :
    (∃ n f, op = .funcDefn n f ∧ op' = op) ∨
    ∃ s', s.subst env σ = some s' ∧ op'.innerSignature = some s' := by
  cases op with
  | funcDefn n f =>
    left
    simp only [Op.subst, Option.some.injEq] at h
    exact ⟨n, f, rfl, h.symm⟩
  | dfg f =>
    right
    simp [Op.innerSignature] at hs; subst hs
    simp only [Op.subst, Option.map_eq_some_iff] at h
    obtain ⟨f', h1, rfl⟩ := h
    exact ⟨f', h1, rfl⟩
  | case f =>
    right
    simp [Op.innerSignature] at hs; subst hs
    simp only [Op.subst, Option.map_eq_some_iff] at h
    obtain ⟨f', h1, rfl⟩ := h
    exact ⟨f', h1, rfl⟩
  | tailLoop ji jo rest =>
    right
    simp [Op.innerSignature] at hs; subst hs
    simp only [Op.subst] at h
    cases h1 : substTypes env σ ji <;> cases h2 : substTypes env σ jo <;>
      cases h3 : substTypes env σ rest <;> simp [h1, h2, h3] at h
    subst h
    refine ⟨_, Signature.subst_some.mpr ⟨by simp only [substTypes_append, h1, h3], ?_⟩, rfl⟩
    simp only [substTypes, h3]
    rw [sumOf_subst env σ [ji, jo] _ (by simp only [substTypeRows, h1, h2]; rfl)]
  | dataflowBlock ins other rows =>
    right
    simp [Op.innerSignature] at hs; subst hs
    simp only [Op.subst] at h
    cases h1 : substTypes env σ ins <;> cases h2 : substTypes env σ other <;>
      cases h3 : substTypeRows env σ rows <;> simp [h1, h2, h3] at h
    subst h
    refine ⟨_, Signature.subst_some.mpr ⟨h1, ?_⟩, rfl⟩
    simp [substTypes, sumOf_subst env σ _ _ h3, h2]
  | _ => simp [Op.innerSignature] at hs

/-- C43 (branches): so are the inputs of the cases of a conditional and of the successors of a
block. -/
theorem C43_branch_rows (env : Env) (σ : List Term) (op op' : Op) (k : Nat) (r : List Ty)
    (h : op.subst env σ = some op') :
    (op.caseInputRow k = some r → ∃ r', substTypes env σ r = some r' ∧ op'.caseInputRow k = some r') ∧
    (op.successorInput k = some r →
      ∃ r', substTypes env σ r = some r' ∧ op'.successorInput k = some r') := by
  cases op with
  | conditional rows other outs =>
    refine ⟨?_, by simp [Op.successorInput]⟩
    simp only [Op.subst] at h
    cases h1 : substTypeRows env σ rows <;> cases h2 : substTypes env σ other <;>
      cases h3 : substTypes env σ outs <;> simp [h1, h2, h3] at h
    subst h
    have hg := substTypeRows_get h1 k
    simp only [Op.caseInputRow, Option.map_eq_some_iff]
    rintro ⟨x, hx, rfl⟩
    simp only [hx] at hg
    split at hg <;> simp_all
    simp only [substTypes_append, hg, h2]
  | dataflowBlock ins other rows =>
    refine ⟨by simp [Op.caseInputRow], ?_⟩
    simp only [Op.subst] at h
    cases h1 : substTypes env σ ins <;> cases h2 : substTypes env σ other <;>
      cases h3 : substTypeRows env σ rows <;> simp [h1, h2, h3] at h
    subst h
    have hg := substTypeRows_get h3 k
    simp only [Op.successorInput, Option.map_eq_some_iff]
    rintro ⟨x, hx, rfl⟩
    simp only [hx] at hg
    split at hg <;> simp_all
    simp only [substTypes_append, hg, h2]
  | _ => simp [Op.caseInputRow, Op.successorInput]

/-- What substitution does to the kind of a port. -/
def Kind.sameShape : Kind → Kind → Bool
  | .controlFlow, .controlFlow => true
  | .value _, .value _ => true
  | .const _, .const _ => true
  | .function _, .function _ => true
  | .stateOrder, .stateOrder => true
  | _, _ => false

theorem Kind.sameShape_refl (k : Kind) : k.sameShape k = true := by cases k <;> rfl

theorem forall₂_values {xs ys : List Ty} (h : ys.length = xs.length) {as bs : List Kind}
    (hab : List.Forall₂ (fun k k' => Kind.sameShape k k' = true) as bs) :
    List.Forall₂ (fun k k' => Kind.sameShape k k' = true)
      (xs.map .value ++ as) (ys.map .value ++ bs) := by
  induction xs generalizing ys with
  | nil => cases ys <;> simp_all
  | cons x xs ih =>
    cases ys with
    | nil => simp at h
    | cons y ys =>
      refine .cons rfl (ih (by simpa using h))

theorem forall₂_sameShape_refl (ks : List Kind) :
    List.Forall₂ (fun k k' => Kind.sameShape k k' = true) ks ks := by
  induction ks with
  | nil => exact .nil
  | cons k ks ih => exact .cons k.sameShape_refl ih

/-- C43 (ports): substitution keeps the number of ports and the sort of every port, so edges of a
graph stay on the right ports. -/
theorem C43_ports_kept (env : Env) (σ : List Term) (op op' : Op) (dir : Dir)
    (h : op.subst env σ = some op') (ht : op.tagOk = true) :
    op'.tagOk = true ∧
      List.Forall₂ (fun k k' => Kind.sameShape k k' = true) (op.ports dir) (op'.ports dir) := by
  cases op with
  | module | funcDefn | funcDecl | aliasDefn | aliasDecl | const | loadConstant =>
    simp only [Op.subst, Option.some.injEq] at h
    subst h
    exact ⟨ht, forall₂_sameShape_refl _⟩
  | case f =>
    simp only [Op.subst, Option.map_eq_some_iff] at h
    obtain ⟨f', h1, rfl⟩ := h
    exact ⟨rfl, .nil⟩
  | exitBlock f =>
    simp only [Op.subst, Option.map_eq_some_iff] at h
    obtain ⟨f', h1, rfl⟩ := h
    exact ⟨rfl, by cases dir <;> exact forall₂_sameShape_refl _⟩
  | input ts | output ts =>
    simp only [Op.subst, Option.map_eq_some_iff] at h
    obtain ⟨f', h1, rfl⟩ := h
    refine ⟨rfl, ?_⟩
    cases dir <;> first
      | exact .nil
      | exact forall₂_values (substTypes_length h1) (forall₂_sameShape_refl _)
  | dfg f | cfg f =>
    simp only [Op.subst, Option.map_eq_some_iff] at h
    obtain ⟨f', h1, rfl⟩ := h
    have h2 := Signature.subst_some.mp h1
    refine ⟨rfl, ?_⟩
    cases dir
    · exact forall₂_values (substTypes_length h2.1) (forall₂_sameShape_refl _)
    · exact forall₂_values (substTypes_length h2.2) (forall₂_sameShape_refl _)
  | callIndirect f =>
    simp only [Op.subst, Option.map_eq_some_iff] at h
    obtain ⟨f', h1, rfl⟩ := h
    have h2 := Signature.subst_some.mp h1
    refine ⟨rfl, ?_⟩
    cases dir
    · exact .cons rfl (forall₂_values (substTypes_length h2.1) (forall₂_sameShape_refl _))
    · exact forall₂_values (substTypes_length h2.2) (forall₂_sameShape_refl _)
  | call f args inst =>
    simp only [Op.subst] at h
    cases h1 : substTerms env σ args <;> cases h2 : inst.subst env σ <;> simp [h1, h2] at h
    subst h
    have h2 := Signature.subst_some.mp h2
    refine ⟨rfl, ?_⟩
    cases dir
    · exact forall₂_values (substTypes_length h2.1) (forall₂_sameShape_refl _)
    · exact forall₂_values (substTypes_length h2.2) (forall₂_sameShape_refl _)
  | extensionOp e n args inst =>
    simp only [Op.subst] at h
    cases h1 : substTerms env σ args <;> cases h2 : inst.subst env σ <;> simp [h1, h2] at h
    subst h
    have h2 := Signature.subst_some.mp h2
    refine ⟨rfl, ?_⟩
    cases dir
    · exact forall₂_values (substTypes_length h2.1) (forall₂_sameShape_refl _)
    · exact forall₂_values (substTypes_length h2.2) (forall₂_sameShape_refl _)
  | loadFunction f args inst =>
    simp only [Op.subst] at h
    cases h1 : substTerms env σ args <;> cases h2 : inst.subst env σ <;> simp [h1, h2] at h
    subst h
    refine ⟨rfl, ?_⟩
    cases dir
    · exact forall₂_sameShape_refl _
    · exact .cons rfl (forall₂_sameShape_refl _)
  | tag k vs =>
    simp only [Op.subst, Option.map_eq_some_iff] at h
    obtain ⟨vs', h1, rfl⟩ := h
    have hl := substTypeRows_length h1
    have hk : k < vs.length := by simpa [Op.tagOk] using ht
    refine ⟨by simpa [Op.tagOk, hl] using hk, ?_⟩
    cases dir
    · have hg := substTypeRows_get h1 k
      have hv : vs[k]? = some vs[k] := List.getElem?_eq_getElem hk
      have hv' : vs'[k]? = some vs'[k] := List.getElem?_eq_getElem (by omega)
      simp only [hv, hv'] at hg
      simp only [Op.ports, hv, hv', Option.getD_some]
      exact forall₂_values (substTypes_length hg) (forall₂_sameShape_refl _)
    · exact .cons rfl (forall₂_sameShape_refl _)
  | dataflowBlock ins other rows =>
    simp only [Op.subst] at h
    cases h1 : substTypes env σ ins <;> cases h2 : substTypes env σ other <;>
      cases h3 : substTypeRows env σ rows <;> simp [h1, h2, h3] at h
    subst h
    refine ⟨rfl, ?_⟩
    cases dir
    · exact forall₂_sameShape_refl _
    · have hl := substTypeRows_length h3
      simp only [Op.ports]
      rename_i rows'
      clear h1 h2 h3 ht
      induction rows generalizing rows' with
      | nil => cases rows' <;> simp_all
      | cons r rs ih =>
        cases rows' with
        | nil => simp at hl
        | cons r' rs' => exact .cons rfl (ih rs' (by simpa using hl))
  | tailLoop ji jo rest =>
    simp only [Op.subst] at h
    cases h1 : substTypes env σ ji <;> cases h2 : substTypes env σ jo <;>
      cases h3 : substTypes env σ rest <;> simp [h1, h2, h3] at h
    subst h
    have l1 := substTypes_length h1
    have l2 := substTypes_length h2
    have l3 := substTypes_length h3
    refine ⟨rfl, ?_⟩
    cases dir
    · exact forall₂_values (by simp [l1, l3]) (forall₂_sameShape_refl _)
    · exact forall₂_values (by simp [l2, l3]) (forall₂_sameShape_refl _)
  | conditional rows other outs =>
    simp only [Op.subst] at h
    cases h1 : substTypeRows env σ rows <;> cases h2 : substTypes env σ other <;>
      cases h3 : substTypes env σ outs <;> simp [h1, h2, h3] at h
    subst h
    refine ⟨rfl, ?_⟩
    cases dir
    · exact .cons rfl (forall₂_values (substTypes_length h2) (forall₂_sameShape_refl _))
    · exact forall₂_values (substTypes_length h3) (forall₂_sameShape_refl _)

/-- The part of C05 for signatures. -/
theorem substTypes_compose {env : Env} {σ τ ρ : List Term}
    (hσ : ∀ s ∈ σ, s.plain = true ∧ s.built = true) (hτ : ∀ s ∈ τ, s.plain = true)
    (hρ : substTerms env τ σ = some ρ) {ts ts1 ts2 : List Ty} (hp : ∀ t ∈ ts, t.plain = true)
    (h1 : substTypes env σ ts = some ts1) (h2 : substTypes env τ ts1 = some ts2) :
    substTypes env ρ ts = some ts2 := by
  induction ts generalizing ts1 ts2 with
  | nil => simp [substTypes] at h1; subst h1; simpa [substTypes] using h2
  | cons t ts ih =>
    simp only [substTypes] at h1
    cases ht : t.subst env σ <;> cases hts : substTypes env σ ts <;> simp [ht, hts] at h1
    subst h1
    rename_i t1 ts1
    simp only [substTypes] at h2
    cases ht2 : t1.subst env τ <;> cases hts2 : substTypes env τ ts1 <;> simp [ht2, hts2] at h2
    subst h2
    have ha := (C05_compose_partial env σ τ ρ hσ hτ hρ).2.1 t _ _ (hp t (by simp)) ht ht2
    have hb := ih (fun t ht => hp t (by simp [ht])) hts hts2
    simp [substTypes, ha, hb]

/-- C43 (calls): the assertion in the substitution of `Call` and `LoadFunction`
(ops/dataflow.rs:223-226, 426-429) holds: instantiating the function with the substituted arguments
gives the substituted cached signature.
Partial: fragment of C05 (no concatenations). -/
theorem C43_call_assert_partial (env : Env) (σ : List Term) (f : PolyFunc) (args args' : List Term)
    (inst inst' : Signature)
    (hf : ∀ t ∈ f.body.input ++ f.body.output, t.plain = true)
    (hparams : ∀ k ∈ f.params, k.kindOk = true)
    (hargs : ∀ a ∈ args, a.plain = true ∧ a.built = true) (hσ : ∀ s ∈ σ, s.plain = true)
    (hinst : f.instantiate env args = .ok inst)
    (h1 : substTerms env σ args = some args') (h2 : inst.subst env σ = some inst') :
    f.instantiate env args' = .ok inst' := by
  unfold PolyFunc.instantiate at hinst ⊢
  split at hinst
  · rename_i hc
    rw [if_pos (substTerms_check hσ (fun a ha => (hargs a ha).1) (fun a ha => (hargs a ha).2)
      hparams h1 hc)]
    cases hb : f.body.subst env args <;> simp [hb] at hinst
    subst hinst
    have hb := Signature.subst_some.mp hb
    have h2 := Signature.subst_some.mp h2
    have : f.body.subst env args' = some inst' := Signature.subst_some.mpr
      ⟨substTypes_compose hargs hσ h1 (fun t ht => hf t (by simp [ht])) hb.1 h2.1,
       substTypes_compose hargs hσ h1 (fun t ht => hf t (by simp [ht])) hb.2 h2.2⟩
    rw [this]
  · simp at hinst

/-! ## Non-vacuity -/

/-- A conditional on `Sum[[α], [α, unit]]`, instantiated at `α = bool`. -/
example :
    let v : Ty := .variable 0 .linear
    let op := Op.conditional [[v], [v, .sumUnit 1]] [v] [v]
    op.subst (fun _ _ => none) [.runtime (.sumUnit 2)] =
        some (.conditional [[.sumUnit 2], [.sumUnit 2, .sumUnit 1]] [.sumUnit 2] [.sumUnit 2]) ∧
      op.tagOk = true ∧ (op.ports .incoming).length = 3 := by
  refine ⟨rfl, rfl, rfl⟩

/-- A call of `∀ α. α → α` at `β`, then `β` replaced by `bool`. -/
example :
    let f : PolyFunc := ⟨[.runtimeType .linear], ⟨[.variable 0 .linear], [.variable 0 .linear]⟩⟩
    let b : Ty := .variable 0 .copyable
    f.instantiate (fun _ _ => none) [.runtime b] = .ok ⟨[b], [b]⟩ ∧
      substTerms (fun _ _ => none) [.runtime (.sumUnit 2)] [.runtime b] =
        some [.runtime (.sumUnit 2)] ∧
      f.instantiate (fun _ _ => none) [.runtime (.sumUnit 2)] = .ok ⟨[.sumUnit 2], [.sumUnit 2]⟩ := by
  decide

/-- C43 (finding): `LoadConstant` ignores the substitution even when its type has variables. -/
theorem C43_load_constant_refuted :
    ∃ (t t' : Ty) (σ : List Term), t.subst (fun _ _ => none) σ = some t' ∧ t' ≠ t ∧
      (Op.loadConstant t).subst (fun _ _ => none) σ = some (.loadConstant t) :=
  ⟨.variable 0 .linear, .sumUnit 2, [.runtime (.sumUnit 2)], by decide, by decide, rfl⟩

end Verif.Ops
