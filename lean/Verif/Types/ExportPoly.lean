import Verif.Types.ExportBack
/-
Polymorphic function types: the variables of a symbol, and what is exported is imported again.
-/
namespace Verif.Types

theorem argsToModel_eq (ts : List Term) : argsToModel ts = ts.map Term.toModel := by
  induction ts with
  | nil => rfl
  | cons t ts ih => simp [argsToModel, ih]

/-- The bound that the constraints give a parameter. -/
def Term.paramBound : Term → Bound
  | .runtimeType .copyable => .copyable
  | _ => .linear

theorem enterParams_at (vars : LocalVars) (k : Nat) (ts : List MTerm) (hk : k + ts.length ≤ 2 ^ 16)
    (j : Nat) :
    enterParams vars k ts j =
      if k ≤ j then
        match ts[j - k]? with
        | some t => some ⟨t, .linear⟩
        | none => vars j
      else vars j := by
  induction ts generalizing vars k with
  | nil => simp [enterParams]
  | cons t ts ih =>
    simp only [List.length_cons] at hk
    have hv : varIndex k = k := Nat.mod_eq_of_lt (by omega)
    rw [enterParams, ih _ _ (by omega), hv]
    by_cases h1 : k + 1 ≤ j
    · have h2 : k ≤ j := by omega
      rw [if_pos h1, if_pos h2]
      have h3 : j - k = (j - (k + 1)) + 1 := by omega
      rw [h3, List.getElem?_cons_succ]
      cases ts[j - (k + 1)]? with
      | some t => rfl
      | none => simp only [LocalVars.set]; rw [if_neg (by omega)]
    · rw [if_neg h1]
      by_cases h2 : j = k
      · subst h2; simp [LocalVars.set]
      · rw [if_neg (by omega)]; simp [LocalVars.set, h2]

theorem enterConstraints_at (vars : LocalVars) (k : Nat) (ts : List Term)
    (hk : k + ts.length ≤ 2 ^ 16)
    (hvars : ∀ j, k ≤ j → j < k + ts.length → ∃ v, vars j = some v) :
    ∃ vars', enterConstraints vars (constraintsFrom k ts) = some vars' ∧ ∀ j, vars' j =
      if k ≤ j ∧ ts[j - k]? = some (.runtimeType .copyable) then
        (vars j).map (fun v => { v with bound := .copyable })
      else vars j := by
  induction ts generalizing vars k with
  | nil => exact ⟨vars, by simp [constraintsFrom, enterConstraints], by simp⟩
  | cons t ts ih =>
    simp only [List.length_cons] at hk hvars
    have shift : ∀ j, k + 1 ≤ j → (t :: ts)[j - k]? = ts[j - (k + 1)]? := by
      intro j hj
      have h3 : j - k = (j - (k + 1)) + 1 := by omega
      rw [h3, List.getElem?_cons_succ]
    by_cases ht : t = .runtimeType .copyable
    · subst ht
      have hv : varIndex k = k := Nat.mod_eq_of_lt (by omega)
      obtain ⟨v, hkv⟩ := hvars k (Nat.le_refl _) (by omega)
      obtain ⟨vars', h1, h2⟩ := ih (vars.set k { v with bound := .copyable }) (k + 1) (by omega) (by
        intro j h1 h2
        obtain ⟨w, hw⟩ := hvars j (by omega) (by omega)
        exact ⟨w, by simp only [LocalVars.set]; rw [if_neg (by omega), hw]⟩)
      refine ⟨vars', ?_, ?_⟩
      · rw [constraintsFrom, hv, enterConstraints, if_pos rfl, hkv]; exact h1
      · intro j
        rw [h2 j]
        by_cases hj : j = k
        · subst hj
          rw [if_neg (by omega), if_pos (by simp)]
          simp [LocalVars.set, hkv]
        · by_cases hj' : k + 1 ≤ j
          · rw [shift j hj']
            simp only [LocalVars.set, if_neg hj, hj', true_and, show k ≤ j by omega]
          · rw [if_neg (by omega), if_neg (by omega)]
            simp [LocalVars.set, hj]
    · obtain ⟨vars', h1, h2⟩ := ih vars (k + 1) (by omega)
        (fun j h1 h2 => hvars j (by omega) (by omega))
      refine ⟨vars', ?_, ?_⟩
      · rw [← h1]
        congr 1
        rw [constraintsFrom]
        intro h; exact ht h
      · intro j
        rw [h2 j]
        by_cases hj : j = k
        · subst hj
          rw [if_neg (by omega), if_neg (by simp [ht])]
        · by_cases hj' : k + 1 ≤ j
          · rw [shift j hj']
            simp only [hj', true_and, show k ≤ j by omega]
          · rw [if_neg (by omega), if_neg (by omega)]

/-- The variables that importing an exported symbol works with. -/
theorem exported_vars (Γ : List Term) (hΓ : Γ.length ≤ 2 ^ 16) :
    ∃ vars, enterConstraints (enterParams (fun _ => none) 0 (argsToModel Γ)) (constraintsFrom 0 Γ)
        = some vars ∧
      ∀ j, vars j = Γ[j]?.map (fun d => ⟨d.toModel, d.paramBound⟩) := by
  have h0 : ∀ j, enterParams (fun _ => none) 0 (argsToModel Γ) j
      = Γ[j]?.map (fun d => ⟨d.toModel, .linear⟩) := by
    intro j
    rw [enterParams_at _ _ _ (by simpa [argsToModel_eq] using hΓ)]
    simp only [Nat.zero_le, if_true, Nat.sub_zero, argsToModel_eq, List.getElem?_map]
    cases Γ[j]? <;> rfl
  obtain ⟨vars, h1, h2⟩ := enterConstraints_at (enterParams (fun _ => none) 0 (argsToModel Γ)) 0 Γ
    (by simpa using hΓ) (by
      intro j _ hj
      rw [h0 j, List.getElem?_eq_getElem (by omega)]
      exact ⟨_, rfl⟩)
  refine ⟨vars, h1, ?_⟩
  intro j
  rw [h2 j, h0 j]
  simp only [Nat.zero_le, true_and, Nat.sub_zero]
  cases hd : Γ[j]? with
  | none => simp
  | some d =>
    by_cases h : d = .runtimeType .copyable
    · subst h; simp [Term.paramBound]
    · rw [if_neg (by simpa using h)]
      have : d.paramBound = .linear := by
        unfold Term.paramBound
        split
        · exact absurd rfl h
        · rfl
      simp [this]

section
variable {E : ImportEnv} {Γ : List Term} {vars : LocalVars}

theorem param_back (hC : E.classes.word '.' = false) (hΓ : Γ.length ≤ 2 ^ 16)
    (hvars : ∀ j, vars j = Γ[j]?.map (fun d => ⟨d.toModel, d.paramBound⟩))
    {decl : Nat → Option Term} {d : Term} (hd : DeclUpTo Γ decl d.nesting)
    (hv : d.validate E.types Γ = true) (hb : d.built = true) (hl : LosslessParam E.classes d) :
    importTerm E vars.boundOf decl d.paramBound d.toModel = some d := by
  have hbnd : ∀ (i : Nat) (b : Bound), Γ[i]? = some (.runtimeType b) → vars.boundOf i = some b := by
    intro i b hi
    simp only [LocalVars.boundOf, hvars, hi]
    cases b <;> simp [Term.paramBound]
  by_cases hr : ∃ b, d = .runtimeType b
  · obtain ⟨b, rfl⟩ := hr
    cases b <;> simp [Term.toModel, importTerm, Term.paramBound]
  · have hl' : d.Lossless E.classes := by
      rcases hl with h | h
      · exact absurd h hr
      · exact h
    have : d.paramBound = .linear := by
      unfold Term.paramBound
      split
      · exact absurd ⟨_, rfl⟩ hr
      · rfl
    rw [this]
    exact (export_back_all hC hΓ hbnd).1 d hd hv hb hl'

theorem decl_back (hC : E.classes.word '.' = false) (hΓ : Γ.length ≤ 2 ^ 16)
    (hvars : ∀ j, vars j = Γ[j]?.map (fun d => ⟨d.toModel, d.paramBound⟩))
    (hp : ∀ p ∈ Γ, p.validate E.types Γ = true ∧ p.built = true)
    (hl : ∀ p ∈ Γ, LosslessParam E.classes p) (n : Nat) :
    DeclUpTo Γ (vars.declOf E n) n := by
  induction n with
  | zero => intro i d _ h; omega
  | succ n ih =>
    intro i d hi hd
    have hm := List.mem_of_getElem? hi
    rw [LocalVars.declOf, hvars, hi]
    simp only [Option.map_some]
    exact param_back hC hΓ hvars (ih.le (by omega)) (hp d hm).1 (hp d hm).2 (hl d hm)

theorem params_back (hC : E.classes.word '.' = false) (hΓ : Γ.length ≤ 2 ^ 16)
    (hvars : ∀ j, vars j = Γ[j]?.map (fun d => ⟨d.toModel, d.paramBound⟩))
    (hp : ∀ p ∈ Γ, p.validate E.types Γ = true ∧ p.built = true)
    (hl : ∀ p ∈ Γ, LosslessParam E.classes p) (n : Nat) (hn : nestingTerms Γ ≤ n)
    (pre post : List Term) (he : Γ = pre ++ post) :
    importParams E vars n pre.length (argsToModel post) = some post := by
  induction post generalizing pre with
  | nil => simp [argsToModel, importParams]
  | cons d post ih =>
    have hi : Γ[pre.length]? = some d := by simp [he]
    have hm := List.mem_of_getElem? hi
    have hlt := (List.getElem?_eq_some_iff.1 hi).1
    have hv : varIndex pre.length = pre.length := Nat.mod_eq_of_lt (by omega)
    have hnest : d.nesting ≤ nestingTerms Γ := by
      clear hn hp hl hvars hΓ hi hlt ih he
      induction Γ with
      | nil => simp at hm
      | cons a as ih =>
        simp only [nestingTerms]
        rcases List.mem_cons.1 hm with rfl | hm
        · exact Nat.le_max_left _ _
        · exact Nat.le_trans (ih hm) (Nat.le_max_right _ _)
    have h1 := param_back hC hΓ hvars ((decl_back hC hΓ hvars hp hl n).le (by omega))
      (hp d hm).1 (hp d hm).2 (hl d hm)
    have h2 := ih (pre ++ [d]) (by simp [he])
    simp only [List.length_append, List.length_cons, List.length_nil] at h2
    rw [argsToModel, importParams, hv, hvars, hi]
    simp only [Option.map_some, h1, h2]

end

theorem poly_back (E : ImportEnv) (hC : E.classes.word '.' = false) (params : List Term)
    (i o : List RTy) (hok : PolyOk E.types params i o) (hl : PolyLossless E.classes params i o) :
    ImportsTo E (polyToModel params i o) (params, i, o) := by
  obtain ⟨hv1, hv2, hb1, hb2, hp⟩ := hok
  obtain ⟨hΓ, hlp, hl1, hl2⟩ := hl
  obtain ⟨vars, h1, hvars⟩ := exported_vars params hΓ
  refine ⟨max (nestingTerms params) (max (nestingRow i) (nestingRow o)), fun n hn => ?_⟩
  have hbnd : ∀ (i : Nat) (b : Bound), params[i]? = some (.runtimeType b) →
      vars.boundOf i = some b := by
    intro i b hi
    simp only [LocalVars.boundOf, hvars, hi]
    cases b <;> simp [Term.paramBound]
  have hdecl := decl_back hC hΓ hvars hp hlp n
  have h2 := params_back hC hΓ hvars hp hlp n (by omega) [] params rfl
  have hall := export_back_all (E := E) (decl := vars.declOf E n) hC hΓ hbnd
  have h3 := export_back_row i (fun t _ => hall.2.2 t) (hdecl.le (by omega)) hv1 hb1 hl1
  have h4 := export_back_row o (fun t _ => hall.2.2 t) (hdecl.le (by omega)) hv2 hb2 hl2
  simp only [List.length_nil] at h2
  simp only [polyToModel, importPoly, h1, h2, Ty.toModel, importFunc, if_true, h3, h4]

end Verif.Types
