import Verif.Types.TransformLemmas
import Verif.Types.BoundProps
import Verif.Types.Subst

namespace Verif.Types

theorem forall₂_right {α β : Type} {p : β → Prop} {l1 : List α} {l2 : List β} (h : List.Forall₂ (fun _ y => p y) l1 l2) :
    ∀ y ∈ l2, p y := by
  induction h with
  | nil => simp
  | cons h1 _ ih =>
    intro y hy
    rcases List.mem_cons.1 hy with rfl | hy
    · exact h1
    · exact ih y hy

theorem forall₂_empty {α β : Type} {R : α → β → Prop} {l1 : List α} {l2 : List β} (h : List.Forall₂ R l1 l2) :
    l2.isEmpty = l1.isEmpty := by
  cases h <;> rfl

theorem forall₂_all_empty {α β : Type} {R : α → β → Prop} {l1 : List (List α)} {l2 : List (List β)}
    (h : List.Forall₂ (List.Forall₂ R) l1 l2) : l2.all List.isEmpty = l1.all List.isEmpty := by
  induction h with
  | nil => rfl
  | cons h1 _ ih => simp only [List.all_cons, ih, forall₂_empty h1]

/-! ## Validity -/

theorem good_all (env : Env) (Γ : List Term) (tr : Transformer)
    (htr : ∀ e i args b t, (Ty.ext e i args b).validate env Γ = true → (Ty.ext e i args b).built = true →
      tr e i args b = .ok (some t) → t.validate env Γ = true ∧ t.built = true) :
    (∀ t : Term, t.validate env Γ = true → t.built = true → ∀ t' c, t.transform env tr = .ok (t', c) →
      t'.validate env Γ = true ∧ t'.built = true) ∧
    (∀ t : Ty, t.validate env Γ = true → t.built = true → ∀ t' c, t.transform env tr = .ok (t', c) →
      t'.validate env Γ = true ∧ t'.built = true) ∧
    ∀ t : RTy, t.validate env Γ = true → t.built = true → ∀ t' c, t.transform env tr = .ok (t', c) →
      t'.validate env Γ = true ∧ t'.built = true := by
  apply syntax_induction
  case list | listConcat | tuple | tupleConcat =>
    intro ts ih hv hb t' c h
    simp only [Term.built, builtTerms_iff] at hb
    simp only [Term.validate, validateTerms_iff] at hv
    simp only [Term.transform, wrap_ok, transformTerms_seq] at h
    obtain ⟨ts', h, rfl⟩ := h
    have := forall₂_right (seq_forall (R := fun _ t' => t'.validate env Γ = true ∧ t'.built = true)
      (fun t ht t' c h' => ih t ht (hv t ht) (hb t ht) t' c h') h)
    simp only [Term.built, builtTerms_iff, Term.validate, validateTerms_iff]
    exact ⟨fun t ht => (this t ht).1, fun t ht => (this t ht).2⟩
  case listType | tupleType | runtime | constType =>
    intro ts ih hv hb t' c h
    simp only [Term.built] at hb
    simp only [Term.validate] at hv
    simp only [Term.transform, wrap_ok] at h
    obtain ⟨a, h, rfl⟩ := h
    exact ih hv hb a c h
  case ext =>
    intro e i args b ih hv hb t' c h
    have hv0 := hv
    have hb0 := hb
    simp only [Ty.built, builtTerms_iff] at hb
    simp only [Ty.validate, Bool.and_eq_true, validateTerms_iff] at hv
    obtain ⟨hv, hd⟩ := hv
    have hres := ((result_all env Γ tr).2.1 _ hv0 hb0 t').1 ⟨c, h⟩
    cases hres with
    | replaced hr => exact htr _ _ _ _ _ hv0 hb0 hr
    | kept hr h1 hd' hck hb' =>
      rename_i args' b' d
      obtain ⟨c', h1⟩ := (seq_rel fun t ht t' => (result_all env Γ tr).1 t (hv t ht) (hb t ht) t').2 h1
      have := forall₂_right (seq_forall (R := fun _ t' => t'.validate env Γ = true ∧ t'.built = true)
        (fun t ht t' c h' => ih t ht (hv t ht) (hb t ht) t' c h') h1)
      simp only [Ty.built, builtTerms_iff, Ty.validate, validateTerms_iff, Bool.and_eq_true, hd', hck, hb', decide_true,
        and_true]
      exact ⟨fun t ht => (this t ht).1, fun t ht => (this t ht).2⟩
  case function =>
    intro i o ih1 ih2 hv hb t' c h
    simp only [Ty.built, Bool.and_eq_true, builtRow_iff] at hb
    simp only [Ty.validate, Bool.and_eq_true, validateRow_iff] at hv
    simp only [Ty.transform, andThen_ok, transformRow_seq] at h
    obtain ⟨⟨i', c1⟩, h1, ⟨o', c2⟩, h2, h⟩ := h
    cases h
    have g1 := forall₂_right (seq_forall (R := fun _ t' => t'.validate env Γ = true ∧ t'.built = true)
      (fun t ht t' c h' => ih1 t ht (hv.1 t ht) (hb.1 t ht) t' c h') h1)
    have g2 := forall₂_right (seq_forall (R := fun _ t' => t'.validate env Γ = true ∧ t'.built = true)
      (fun t ht t' c h' => ih2 t ht (hv.2 t ht) (hb.2 t ht) t' c h') h2)
    simp only [Ty.built, Ty.validate, Bool.and_eq_true, builtRow_iff, validateRow_iff]
    exact ⟨⟨fun t ht => (g1 t ht).1, fun t ht => (g2 t ht).1⟩, fun t ht => (g1 t ht).2, fun t ht => (g2 t ht).2⟩
  case sumGen =>
    intro rows b ih hv hb t' c h
    simp only [Ty.built, Bool.and_eq_true, builtRows_iff, decide_eq_true_eq] at hb
    simp only [Ty.validate, validateRows_iff] at hv
    simp only [Ty.transform, wrap_ok, transformRows_seq] at h
    obtain ⟨rows', h, rfl⟩ := h
    have hrel := seq_forall (R := List.Forall₂ fun _ t' => t'.validate env Γ = true ∧ t'.built = true)
      (fun r hr r' c h' => seq_forall (fun t ht t' c h'' => ih r hr t ht (hv r hr t ht) (hb.1.1 r hr t ht) t' c h'') h') h
    have hlen := hrel.length_eq
    have hemp := forall₂_all_empty hrel
    have g : ∀ r ∈ rows', ∀ t ∈ r, t.validate env Γ = true ∧ t.built = true := by
      intro r hr
      have := forall₂_right (p := fun r : List RTy => ∀ t ∈ r, t.validate env Γ = true ∧ t.built = true)
        (List.Forall₂.imp (fun _ _ h => forall₂_right h) hrel)
      exact this r hr
    simp only [Ty.general, Ty.built, Ty.validate, Bool.and_eq_true, builtRows_iff, validateRows_iff, decide_true, and_true]
    refine ⟨fun r hr t ht => (g r hr t ht).1, fun r hr t ht => (g r hr t ht).2, ?_⟩
    rw [← hlen, hemp]
    exact hb.2
  case rty =>
    intro t ih hv hb t' c h
    simp only [RTy.built] at hb
    simp only [RTy.validate] at hv
    simp only [RTy.transform, wrap_ok] at h
    obtain ⟨a, h, rfl⟩ := h
    exact ih hv hb a c h
  all_goals
    intros
    simp_all [Term.transform, Ty.transform, RTy.transform]

/-! ## What is left -/

mutual
/-- No extension type of the given names occurs. -/
def Term.avoids (S : String → String → Prop) : Term → Prop
  | .listType t => t.avoids S
  | .tupleType t => t.avoids S
  | .runtime t => t.avoids S
  | .list es => avoidsTerms S es
  | .listConcat es => avoidsTerms S es
  | .tuple es => avoidsTerms S es
  | .tupleConcat es => avoidsTerms S es
  | .constType t => t.avoids S
  | _ => True
def avoidsTerms (S : String → String → Prop) : List Term → Prop
  | [] => True
  | t :: ts => t.avoids S ∧ avoidsTerms S ts
def Ty.avoids (S : String → String → Prop) : Ty → Prop
  | .ext e i args _ => ¬ S e i ∧ avoidsTerms S args
  | .function i o => avoidsRow S i ∧ avoidsRow S o
  | .sumGen rows _ => avoidsRows S rows
  | _ => True
def RTy.avoids (S : String → String → Prop) : RTy → Prop
  | .ty t => t.avoids S
  | .rowVar _ _ => True
def avoidsRow (S : String → String → Prop) : List RTy → Prop
  | [] => True
  | t :: ts => t.avoids S ∧ avoidsRow S ts
def avoidsRows (S : String → String → Prop) : List (List RTy) → Prop
  | [] => True
  | r :: rs => avoidsRow S r ∧ avoidsRows S rs
end

theorem avoidsTerms_iff {S : String → String → Prop} (ts : List Term) : avoidsTerms S ts ↔ ∀ t ∈ ts, t.avoids S := by
  induction ts with
  | nil => simp [avoidsTerms]
  | cons t ts ih => simp [avoidsTerms, ih]
theorem avoidsRow_iff {S : String → String → Prop} (ts : List RTy) : avoidsRow S ts ↔ ∀ t ∈ ts, t.avoids S := by
  induction ts with
  | nil => simp [avoidsRow]
  | cons t ts ih => simp [avoidsRow, ih]
theorem avoidsRows_iff {S : String → String → Prop} (ts : List (List RTy)) :
    avoidsRows S ts ↔ ∀ r ∈ ts, ∀ t ∈ r, t.avoids S := by
  induction ts with
  | nil => simp [avoidsRows]
  | cons t ts ih => simp [avoidsRows, ih, avoidsRow_iff]

theorem avoids_all (env : Env) (tr : Transformer) (S : String → String → Prop)
    (h1 : ∀ e i args b, S e i → tr e i args b ≠ .ok none)
    (h2 : ∀ e i args b t, tr e i args b = .ok (some t) → t.avoids S) :
    (∀ (t t' : Term) c, t.transform env tr = .ok (t', c) → t'.avoids S) ∧
    (∀ (t t' : Ty) c, t.transform env tr = .ok (t', c) → t'.avoids S) ∧
    ∀ (t t' : RTy) c, t.transform env tr = .ok (t', c) → t'.avoids S := by
  apply syntax_induction
  case list | listConcat | tuple | tupleConcat =>
    intro ts ih t' c h
    simp only [Term.transform, wrap_ok, transformTerms_seq] at h
    obtain ⟨ts', h, rfl⟩ := h
    simp only [Term.avoids, avoidsTerms_iff]
    exact forall₂_right (seq_forall (R := fun _ t' => t'.avoids S) (fun t ht t' c h' => ih t ht t' c h') h)
  case listType | tupleType | runtime | constType =>
    intro ts ih t' c h
    simp only [Term.transform, wrap_ok] at h
    obtain ⟨a, h, rfl⟩ := h
    exact ih a c h
  case ext =>
    intro e i args b ih t' c h
    simp only [Ty.transform, andThen_ok] at h
    obtain ⟨r, hr, h⟩ := h
    cases r with
    | some nt => cases h; exact h2 _ _ _ _ _ hr
    | none =>
      have hS : ¬ S e i := fun hS => h1 _ _ _ _ hS hr
      simp only [andThen_ok] at h
      obtain ⟨⟨args', c'⟩, h3, h⟩ := h
      rw [transformTerms_seq] at h3
      have ha := forall₂_right (seq_forall (R := fun _ t' => t'.avoids S) (fun t ht t' c h' => ih t ht t' c h') h3)
      cases c' with
      | true =>
        simp only [if_true, andThen_ok] at h
        obtain ⟨nt, hn, h⟩ := h
        cases h
        unfold reinstantiate at hn
        split at hn
        · cases hn
        · split at hn
          · split at hn
            · cases hn
              simp only [Ty.avoids, avoidsTerms_iff]
              exact ⟨hS, ha⟩
            · cases hn
          · cases hn
      | false =>
        cases h
        simp only [Ty.avoids, avoidsTerms_iff]
        exact ⟨hS, ha⟩
  case function =>
    intro i o ih1 ih2 t' c h
    simp only [Ty.transform, andThen_ok, transformRow_seq] at h
    obtain ⟨⟨i', c1⟩, h1, ⟨o', c2⟩, h2, h⟩ := h
    cases h
    simp only [Ty.avoids, avoidsRow_iff]
    exact ⟨forall₂_right (seq_forall (R := fun _ t' => t'.avoids S) (fun t ht t' c h' => ih1 t ht t' c h') h1),
      forall₂_right (seq_forall (R := fun _ t' => t'.avoids S) (fun t ht t' c h' => ih2 t ht t' c h') h2)⟩
  case sumGen =>
    intro rows b ih t' c h
    simp only [Ty.transform, wrap_ok, transformRows_seq] at h
    obtain ⟨rows', h, rfl⟩ := h
    simp only [Ty.general, Ty.avoids, avoidsRows_iff]
    exact forall₂_right (seq_forall (R := fun _ r' => ∀ t ∈ r', t.avoids S) (fun r hr r' c h' =>
      forall₂_right (p := fun t' : RTy => t'.avoids S)
        (seq_forall (R := fun _ t' => t'.avoids S) (fun t ht t' c h'' => ih r hr t ht t' c h'') h')) h)
  case rty =>
    intro t ih t' c h
    simp only [RTy.transform, wrap_ok] at h
    obtain ⟨a, h, rfl⟩ := h
    exact ih a c h
  all_goals
    intros
    rename_i h
    cases h
    trivial

end Verif.Types
