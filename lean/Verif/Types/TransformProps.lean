import Verif.Types.TransformFits
/-
C71: replacing extension types inside types.  The specification is `TyReplaced` in `Transform.lean` and `Ty.avoids` in
`TransformGood.lean`.  Statements are about types and about terms (arguments); signatures are the types `.function i o`.
-/
namespace Verif.Types

/-! ## Examples used to show that the hypotheses can be met -/

/-- A copyable and a linear type, lists of anything and sets of copyable things. -/
def transformEnv : Env := fun e i =>
  if e = "prelude" ∧ i = "usize" then some ⟨[], .explicit .copyable⟩
  else if e = "prelude" ∧ i = "qubit" then some ⟨[], .explicit .linear⟩
  else if e = "prelude" ∧ i = "flag" then some ⟨[], .explicit .copyable⟩
  else if e = "coll" ∧ i = "list" then some ⟨[.runtimeType .linear], .fromParams [0]⟩
  else if e = "coll" ∧ i = "set" then some ⟨[.runtimeType .copyable], .explicit .copyable⟩
  else none

def usizeT : Ty := .ext "prelude" "usize" [] .copyable
def qubitT : Ty := .ext "prelude" "qubit" [] .linear
def flagT : Ty := .ext "prelude" "flag" [] .copyable
def listT (t : Ty) (b : Bound) : Ty := .ext "coll" "list" [.runtime t] b
def setT (t : Ty) : Ty := .ext "coll" "set" [.runtime t] .copyable

/-- Replaces numbers by qubits: a copyable type by a linear one. -/
def toQubit : Transformer := fun e i _ _ => .ok (if e = "prelude" ∧ i = "usize" then some qubitT else none)

/-- Replaces qubits and sets of anything by numbers. -/
def toUsize : Transformer := fun e i _ _ =>
  .ok (if e = "prelude" ∧ i = "qubit" ∨ e = "coll" ∧ i = "set" then some usizeT else none)

/-- A function from a sum of a list of lists of numbers and of nothing. -/
def transformTy (t : Ty) (b : Bound) : Ty :=
  .function [.ty (.sumGen [[.ty (listT (listT t b) b)], []] b), .ty (.variable 0 .linear)] [.ty flagT]

example : (transformTy usizeT .copyable).validate transformEnv [.runtimeType .linear] = true
    ∧ (transformTy usizeT .copyable).built = true := by decide +kernel

/-! ## The properties -/

/-- C71: transforming a valid type gives a type exactly if every outermost extension type to be replaced has a replacement
and the arguments around it still fit, and then the type given is the type with these replacements made, with the bounds
of lists of types, sums and parametrised types recomputed. -/
theorem C71_result (env : Env) (Γ : List Term) (tr : Transformer) :
    (∀ t t' : Ty, t.validate env Γ = true → t.built = true →
      ((∃ changed, t.transform env tr = .ok (t', changed)) ↔ TyReplaced env tr t t')) ∧
    ∀ t t' : Term, t.validate env Γ = true → t.built = true →
      ((∃ changed, t.transform env tr = .ok (t', changed)) ↔ TermReplaced env tr t t') :=
  ⟨fun t t' hv hb => (result_all env Γ tr).2.1 t hv hb t', fun t t' hv hb => (result_all env Γ tr).1 t hv hb t'⟩

/-- The bounds of the lists and of the sum become linear. -/
example : (transformTy usizeT .copyable).transform transformEnv toQubit = .ok (transformTy qubitT .linear, true) := by
  decide +kernel

/-- C71: the answer "nothing changed" can be relied on: the type is as it was. -/
theorem C71_unchanged (env : Env) (tr : Transformer) :
    (∀ t t' : Ty, t.built = true → t.transform env tr = .ok (t', false) → t' = t) ∧
    ∀ t t' : Term, t.built = true → t.transform env tr = .ok (t', false) → t' = t :=
  ⟨fun t t' hb h => (unchanged_all env tr).2.1 t hb t' h, fun t t' hb h => (unchanged_all env tr).1 t hb t' h⟩

example : (transformTy flagT .copyable).built = true ∧
    (transformTy flagT .copyable).transform transformEnv toQubit = .ok (transformTy flagT .copyable, false) := by
  decide +kernel

/-- C71: if no type is replaced by itself, the answer "something changed" can be relied on too. -/
theorem C71_changed (env : Env) (tr : Transformer)
    (htr : ∀ e i args b t, tr e i args b = .ok (some t) → t ≠ .ext e i args b) :
    (∀ t t' : Ty, t.transform env tr = .ok (t', true) → t' ≠ t) ∧
    ∀ t t' : Term, t.transform env tr = .ok (t', true) → t' ≠ t :=
  ⟨(changed_all env tr htr).2.1, (changed_all env tr htr).1⟩

example : ∀ e i args b t, toQubit e i args b = .ok (some t) → t ≠ .ext e i args b := by
  intro e i args b t h
  unfold toQubit at h
  split at h
  · rename_i hc
    obtain ⟨rfl, rfl⟩ := hc
    cases h
    intro h'
    unfold qubitT at h'
    injection h' with _ h'
    revert h'
    decide
  · cases h

/-- C71: a valid type is transformed to a valid type whose cached bounds are right, if the replacements are such. -/
theorem C71_valid (env : Env) (Γ : List Term) (tr : Transformer)
    (htr : ∀ e i args b t, (Ty.ext e i args b).validate env Γ = true → (Ty.ext e i args b).built = true →
      tr e i args b = .ok (some t) → t.validate env Γ = true ∧ t.built = true) :
    (∀ t t' : Ty, ∀ changed, t.validate env Γ = true → t.built = true → t.transform env tr = .ok (t', changed) →
      t'.validate env Γ = true ∧ t'.built = true) ∧
    ∀ t t' : Term, ∀ changed, t.validate env Γ = true → t.built = true → t.transform env tr = .ok (t', changed) →
      t'.validate env Γ = true ∧ t'.built = true :=
  ⟨fun t t' c hv hb h => (good_all env Γ tr htr).2.1 t hv hb t' c h,
    fun t t' c hv hb h => (good_all env Γ tr htr).1 t hv hb t' c h⟩

example : ∀ e i args b t, (Ty.ext e i args b).validate transformEnv [.runtimeType .linear] = true →
    (Ty.ext e i args b).built = true → toQubit e i args b = .ok (some t) →
    t.validate transformEnv [.runtimeType .linear] = true ∧ t.built = true := by
  intro e i args b t _ _ h
  unfold toQubit at h
  split at h
  · cases h; decide +kernel
  · cases h

/-- C71: no type with one of the names to be replaced is left, at any depth, if each has a replacement that has none of
them inside. -/
theorem C71_none_left (env : Env) (tr : Transformer) (S : String → String → Prop)
    (hall : ∀ e i args b, S e i → tr e i args b ≠ .ok none)
    (hnew : ∀ e i args b t, tr e i args b = .ok (some t) → t.avoids S) :
    (∀ t t' : Ty, ∀ changed, t.transform env tr = .ok (t', changed) → t'.avoids S) ∧
    ∀ t t' : Term, ∀ changed, t.transform env tr = .ok (t', changed) → t'.avoids S :=
  ⟨(avoids_all env tr S hall hnew).2.1, (avoids_all env tr S hall hnew).1⟩

example : (∀ e i args b, (e = "prelude" ∧ i = "usize") → toQubit e i args b ≠ .ok none) ∧
    (∀ e i args b t, toQubit e i args b = .ok (some t) → t.avoids fun e i => e = "prelude" ∧ i = "usize") := by
  constructor
  · intro e i args b h
    unfold toQubit
    rw [if_pos h]
    simp
  · intro e i args b t h
    unfold toQubit at h
    split at h
    · cases h
      simp [qubitT, Ty.avoids, avoidsTerms]
    · cases h

/-- C71: transforming a valid type does not panic if the transformer does not. -/
theorem C71_no_panic (env : Env) (Γ : List Term) (tr : Transformer) (htr : ∀ e i args b, tr e i args b ≠ .panic) :
    (∀ t : Ty, t.validate env Γ = true → t.transform env tr ≠ .panic) ∧
    ∀ t : Term, t.validate env Γ = true → t.transform env tr ≠ .panic :=
  ⟨(panic_all env Γ tr htr).2.1, (panic_all env Γ tr htr).1⟩

example : ∀ e i args b, toQubit e i args b ≠ .panic := by
  intro e i args b
  simp [toQubit]

/-- C71: replacing a copyable type by a linear one can fail: no set of qubits. -/
example : (setT usizeT).validate transformEnv [] = true ∧ (setT usizeT).built = true ∧
    (setT usizeT).transform transformEnv toQubit = .error := by decide +kernel

/-- C71: a transformer that never fails and never replaces a copyable type by a linear one makes every valid type
transformable, and copyable types stay copyable. -/
theorem C71_succeeds (env : Env) (Γ : List Term) (tr : Transformer)
    (htr : ∀ e i args b, ∃ r, tr e i args b = .ok r ∧ ∀ t, r = some t → b.contains t.bound = true) :
    (∀ t : Ty, t.validate env Γ = true → t.built = true →
      ∃ t' changed, t.transform env tr = .ok (t', changed) ∧ (t.bound = .copyable → t'.bound = .copyable)) ∧
    ∀ t : Term, t.validate env Γ = true → t.built = true →
      ∃ t' changed, t.transform env tr = .ok (t', changed) ∧ ∀ kind, checkTerm t kind = true → checkTerm t' kind = true := by
  refine ⟨fun t hv hb => ?_, fun t hv hb => ?_⟩
  · obtain ⟨t', c, h1, h2⟩ := (shrink_all env Γ tr htr).2.1 t hv hb
    refine ⟨t', c, h1, fun h => ?_⟩
    rw [h] at h2
    revert h2
    cases t'.bound <;> simp [Bound.contains]
  · obtain ⟨t', c, h1, h2⟩ := (shrink_all env Γ tr htr).1 t hv hb
    exact ⟨t', c, h1, h2.check⟩

example : (∀ e i args b, ∃ r, toUsize e i args b = .ok r ∧ ∀ t, r = some t → b.contains t.bound = true) ∧
    (listT (listT qubitT .linear) .linear).transform transformEnv toUsize =
      .ok (listT (listT usizeT .copyable) .copyable, true) := by
  refine ⟨fun e i args b => ⟨_, rfl, ?_⟩, by decide +kernel⟩
  intro t h
  split at h
  · cases h
    cases b <;> rfl
  · cases h

/-- C71: transforming again changes nothing, if exactly the types with some names are replaced and no replacement has one
of them inside. -/
theorem C71_again (env : Env) (Γ : List Term) (tr : Transformer) (S : String → String → Prop)
    (hall : ∀ e i args b, S e i → tr e i args b ≠ .ok none) (hrest : ∀ e i args b, ¬ S e i → tr e i args b = .ok none)
    (hnew : ∀ e i args b t, tr e i args b = .ok (some t) → t.avoids S ∧ t.validate env Γ = true ∧ t.built = true) :
    (∀ t t' : Ty, ∀ changed, t.validate env Γ = true → t.built = true → t.transform env tr = .ok (t', changed) →
      t'.transform env tr = .ok (t', false)) ∧
    ∀ t t' : Term, ∀ changed, t.validate env Γ = true → t.built = true → t.transform env tr = .ok (t', changed) →
      t'.transform env tr = .ok (t', false) :=
  have hg := C71_valid env Γ tr fun e i args b t _ _ h => (hnew e i args b t h).2
  have ha := C71_none_left env tr S hall fun e i args b t h => (hnew e i args b t h).1
  ⟨fun t t' c hv hb h => (again_all env tr S hrest).2.1 t' (hg.1 t t' c hv hb h).2 (ha.1 t t' c h),
    fun t t' c hv hb h => (again_all env tr S hrest).1 t' (hg.2 t t' c hv hb h).2 (ha.2 t t' c h)⟩

example : (∀ e i args b, ¬ (e = "prelude" ∧ i = "usize") → toQubit e i args b = .ok none) ∧
    (∀ e i args b t, toQubit e i args b = .ok (some t) → (t.avoids fun e i => e = "prelude" ∧ i = "usize") ∧
      t.validate transformEnv [] = true ∧ t.built = true) := by
  constructor
  · intro e i args b h
    unfold toQubit
    rw [if_neg h]
  · intro e i args b t h
    unfold toQubit at h
    split at h
    · cases h
      exact ⟨by simp [qubitT, Ty.avoids, avoidsTerms], by decide +kernel⟩
    · cases h

/-- C71: what a transformer gives is not transformed again, and the arguments of what it replaces are not transformed
before: a set of numbers is replaced as it stands, although no set of qubits is allowed. -/
theorem C71_outermost (env : Env) (tr : Transformer) (e i : String) (args : List Term) (b : Bound) (t : Ty)
    (h : tr e i args b = .ok (some t)) : (Ty.ext e i args b).transform env tr = .ok (t, true) := by
  simp only [Ty.transform, h, Outcome.andThen]

/-- Sets and numbers. -/
def setAndNumber : Transformer := fun e i _ _ =>
  .ok (if e = "coll" ∧ i = "set" then some (listT usizeT .copyable)
    else if e = "prelude" ∧ i = "usize" then some qubitT else none)

example : (Ty.ext "coll" "set" [.runtime usizeT] .copyable).transform transformEnv setAndNumber =
    .ok (listT usizeT .copyable, true) := C71_outermost _ _ _ _ _ _ _ (by decide +kernel)

/-- C71, finding: a variable whose declared kind names a type to be replaced keeps that kind: the declared kinds of
variables are not transformed, so `C71_none_left` does not look at them. -/
theorem C71_variable_kind_ignored : (Term.variable 0 (.constType usizeT)).transform transformEnv toQubit =
    .ok (Term.variable 0 (.constType usizeT), false) := by decide +kernel

end Verif.Types
