import Verif.Types.ExportLemmas
/-
What is exported is imported again.
-/
namespace Verif.Types

variable {E : ImportEnv} {Γ : List Term} {bnd : Nat → Option Bound} {decl : Nat → Option Term}

/-- Declarations nested less than `N` deep are imported. -/
def DeclUpTo (Γ : List Term) (decl : Nat → Option Term) (N : Nat) : Prop :=
  ∀ (i : Nat) (d : Term), Γ[i]? = some d → d.nesting < N → decl i = some d

theorem DeclUpTo.le {N M : Nat} (h : DeclUpTo Γ decl N) (hm : M ≤ N) : DeclUpTo Γ decl M :=
  fun i d hi hd => h i d hi (Nat.lt_of_lt_of_le hd hm)

/-- The term survives. -/
def BackTerm (E : ImportEnv) (Γ : List Term) (bnd : Nat → Option Bound) (decl : Nat → Option Term)
    (t : Term) : Prop :=
  DeclUpTo Γ decl t.nesting → t.validate E.types Γ = true → t.built = true → t.Lossless E.classes →
    importTerm E bnd decl .linear t.toModel = some t

/-- The type survives, as a type and as a term. -/
def BackTy (E : ImportEnv) (Γ : List Term) (bnd : Nat → Option Bound) (decl : Nat → Option Term)
    (t : Ty) : Prop :=
  DeclUpTo Γ decl t.nesting → t.validate E.types Γ = true → t.built = true → t.Lossless E.classes →
    importType E bnd decl t.toModel = some t ∧
    ∀ b, importTerm E bnd decl b t.toModel = some (.runtime t)

/-- The element of a row survives. -/
def BackElem (E : ImportEnv) (Γ : List Term) (bnd : Nat → Option Bound) (decl : Nat → Option Term)
    (t : RTy) : Prop :=
  DeclUpTo Γ decl t.nesting → t.validate E.types Γ = true → t.built = true → t.Lossless E.classes →
    ∀ ps rs, importRowParts E bnd decl ps = some rs →
      importRowParts E bnd decl (t.toModel :: ps) = some (t :: rs)

theorem export_back_args (ts : List Term) (h : ∀ t ∈ ts, BackTerm E Γ bnd decl t)
    (hd : DeclUpTo Γ decl (nestingTerms ts)) (hv : validateTerms E.types Γ ts = true)
    (hb : builtTerms ts = true) (hl : LosslessTerms E.classes ts) :
    importArgs E bnd decl (argsToModel ts) = some ts ∧
    importParts E bnd decl (itemsToModel ts) = some (ts.map .item) ∧
    importParts E bnd decl (splicesToModel ts) = some (ts.map .splice) := by
  induction ts with
  | nil => simp [argsToModel, itemsToModel, splicesToModel, importArgs, importParts]
  | cons t ts ih =>
    simp only [validateTerms, Bool.and_eq_true] at hv
    simp only [builtTerms, Bool.and_eq_true] at hb
    simp only [LosslessTerms] at hl
    simp only [nestingTerms] at hd
    have h1 := h t (by simp) (hd.le (Nat.le_max_left _ _)) hv.1 hb.1 hl.1
    obtain ⟨a, b, c⟩ := ih (fun t ht => h t (by simp [ht])) (hd.le (Nat.le_max_right _ _)) hv.2 hb.2
      hl.2
    simp [argsToModel, itemsToModel, splicesToModel, importArgs, importParts, h1, a, b, c]

theorem export_back_row (ts : List RTy) (h : ∀ t ∈ ts, BackElem E Γ bnd decl t)
    (hd : DeclUpTo Γ decl (nestingRow ts)) (hv : validateRow E.types Γ ts = true)
    (hb : builtRow ts = true) (hl : LosslessRow E.classes ts) :
    importRow E bnd decl (.list (rowToModel ts)) = some ts := by
  rw [importRow]
  induction ts with
  | nil => simp [rowToModel, importRowParts]
  | cons t ts ih =>
    simp only [validateRow, Bool.and_eq_true] at hv
    simp only [builtRow, Bool.and_eq_true] at hb
    simp only [LosslessRow] at hl
    simp only [nestingRow] at hd
    rw [rowToModel]
    exact h t (by simp) (hd.le (Nat.le_max_left _ _)) hv.1 hb.1 hl.1 _ _
      (ih (fun t ht => h t (by simp [ht])) (hd.le (Nat.le_max_right _ _)) hv.2 hb.2 hl.2)

theorem export_back_rows (rows : List (List RTy)) (h : ∀ r ∈ rows, ∀ t ∈ r, BackElem E Γ bnd decl t)
    (hd : DeclUpTo Γ decl (nestingRows rows)) (hv : validateRows E.types Γ rows = true)
    (hb : builtRows rows = true) (hl : LosslessRows E.classes rows) :
    importVariants E bnd decl (.list (rowsToModel rows)) = some rows := by
  rw [importVariants]
  induction rows with
  | nil => simp [rowsToModel, importVariantParts]
  | cons r rs ih =>
    simp only [validateRows, Bool.and_eq_true] at hv
    simp only [builtRows, Bool.and_eq_true] at hb
    simp only [LosslessRows] at hl
    simp only [nestingRows] at hd
    have h1 := export_back_row r (h r (by simp)) (hd.le (Nat.le_max_left _ _)) hv.1 hb.1 hl.1
    have h2 := ih (fun t ht => h t (by simp [ht])) (hd.le (Nat.le_max_right _ _)) hv.2 hb.2 hl.2
    simp [rowsToModel, importVariantParts, h1, h2]

theorem export_back_unit (n : Nat) :
    importVariants E bnd decl (.list (List.replicate n (.item (.list []))))
      = some (List.replicate n []) := by
  rw [importVariants]
  induction n with
  | zero => simp [importVariantParts]
  | succ n ih =>
    simp [List.replicate_succ, importVariantParts, importRow, importRowParts, ih]

theorem importType_custom {s : String} {args : List MTerm} {t : Ty} (h1 : s ≠ "core.adt")
    (h2 : s ≠ "core.fn") (h : importCustom E bnd decl s args = some t) :
    importType E bnd decl (.apply s args) = some t := by
  match args with
  | [] => simp [importType, typeRefused, h1, h2, h]
  | [a] => simp [importType, typeRefused, h1, h2, h]
  | [a, b] => simp [importType, h2, h]
  | a :: b :: c :: args => simp [importType, h]

theorem importTerm_custom {s : String} {args : List MTerm} {t : Ty} (b : Bound)
    (hs : ∀ x : String, '.' ∉ x.toList → s ≠ "core." ++ x)
    (h : importCustom E bnd decl s args = some t) :
    importTerm E bnd decl b (.apply s args) = some (.runtime t) := by
  have a1 : s ≠ "core.str" := hs "str" (by decide)
  have a2 : s ≠ "core.nat" := hs "nat" (by decide)
  have a3 : s ≠ "core.bytes" := hs "bytes" (by decide)
  have a4 : s ≠ "core.float" := hs "float" (by decide)
  have a5 : s ≠ "core.type" := hs "type" (by decide)
  have a6 : s ≠ "core.static" := hs "static" (by decide)
  have a7 : s ≠ "core.constraint" := hs "constraint" (by decide)
  have a8 : s ≠ "core.const" := hs "const" (by decide)
  have a9 : s ≠ "core.list" := hs "list" (by decide)
  have a10 : s ≠ "core.tuple" := hs "tuple" (by decide)
  have a11 : s ≠ "core.adt" := hs "adt" (by decide)
  have a12 : s ≠ "core.fn" := hs "fn" (by decide)
  match args with
  | [] => simp [importTerm, termRefused, *]
  | [a] => simp [importTerm, termRefused, *]
  | [a, b] => simp [importTerm, *]
  | a :: b :: c :: args => simp [importTerm, *]

theorem export_back_all (hC : E.classes.word '.' = false) (hΓ : Γ.length ≤ 2 ^ 16)
    (hb : ∀ (i : Nat) (b : Bound), Γ[i]? = some (.runtimeType b) → bnd i = some b) :
    (∀ t, BackTerm E Γ bnd decl t) ∧ (∀ t, BackTy E Γ bnd decl t) ∧
    (∀ t, BackElem E Γ bnd decl t) := by
  have hvar : ∀ (i : Nat) (d : Term), Γ[i]? = some d → varIndex i = i := by
    intro i d hi
    have := (List.getElem?_eq_some_iff.1 hi).1
    unfold varIndex
    exact Nat.mod_eq_of_lt (Nat.lt_of_lt_of_le this hΓ)
  apply syntax_induction
  · intro b hd hv hb hl; simp only [Term.Lossless] at hl; subst hl
    simp [Term.toModel, importTerm]
  · intro hd hv hb hl; simp [Term.toModel, importTerm]
  · intro ub hd hv hb hl; simp only [Term.Lossless] at hl; subst hl
    simp [Term.toModel, importTerm]
  · intro hd hv hb hl; simp [Term.toModel, importTerm]
  · intro hd hv hb hl; simp [Term.toModel, importTerm]
  · intro hd hv hb hl; simp [Term.toModel, importTerm]
  · intro t ih hd hv hb hl
    have := ih hd hv hb hl
    simp [Term.toModel, importTerm, this]
  · intro t ih hd hv hb hl
    have := ih hd hv hb hl
    simp [Term.toModel, importTerm, this]
  · intro t ih hd hv hb hl
    exact (ih hd hv hb hl).2 _
  · intro n hd hv hb hl; simp [Term.toModel, importTerm]
  · intro n hd hv hb hl; simp [Term.toModel, importTerm]
  · intro n hd hv hb hl; simp [Term.toModel, importTerm]
  · intro n hd hv hb hl; simp [Term.toModel, importTerm]
  · intro ts ih hd hv hb hl
    have := (export_back_args ts ih hd hv hb hl).2.1
    simp [Term.toModel, importTerm, this, list_back]
  · intro ts ih hd hv hb hl
    have := (export_back_args ts ih hd hv hb hl.1).2.2
    simp [Term.toModel, importTerm, this, concat_back hl.2]
  · intro ts ih hd hv hb hl
    have := (export_back_args ts ih hd hv hb hl).2.1
    simp [Term.toModel, importTerm, this, tuple_back]
  · intro ts ih hd hv hb hl
    have := (export_back_args ts ih hd hv hb hl.1).2.2
    simp [Term.toModel, importTerm, this, tupleConcat_back hl.2]
  · intro i d _ hd hv hb hl
    simp only [Term.validate, Bool.and_eq_true, Bool.not_eq_true'] at hv
    have hg := checkDecl_get hv.2
    have := hd i d hg (by simp [Term.nesting])
    simp [Term.toModel, importTerm, hvar i d hg, this, newVarUse_of hv.1]
  · intro t ih hd hv hb hl
    have := (ih hd hv hb hl).1
    simp [Term.toModel, importTerm, this]
  · intro e i args b ih hd hv hb hl
    simp only [Ty.validate, Bool.and_eq_true] at hv
    simp only [Ty.Lossless] at hl
    obtain ⟨hn, hla⟩ := hl
    have ha := (export_back_args args ih hd hv.1 hb hla).1
    have hv2 := hv.2
    have hc : importCustom E bnd decl (e ++ "." ++ i) (argsToModel args)
        = some (.ext e i args b) := by
      rw [importCustom, ha, importName_of hC hn]
      simp only []
      cases hD : E.types e i with
      | none => rw [hD] at hv2; simp at hv2
      | some D =>
        rw [hD] at hv2
        simp only [Bool.and_eq_true, decide_eq_true_eq] at hv2
        simp [hv2.2]
    rw [Ty.toModel]
    refine ⟨importType_custom ?_ ?_ hc, fun b => importTerm_custom b ?_ hc⟩
    · exact goodName_ne hC hn "adt" (by decide)
    · exact goodName_ne hC hn "fn" (by decide)
    · exact fun x hx => goodName_ne hC hn x hx
  · intro n b hd hv hb hl; simp [Ty.Lossless] at hl
  · intro i o ih1 ih2 hd hv hb hl
    simp only [Ty.validate, Bool.and_eq_true] at hv
    simp only [Ty.built, Bool.and_eq_true] at hb
    simp only [Ty.Lossless] at hl
    have h1 := export_back_row i ih1 (hd.le (Nat.le_max_left _ _)) hv.1 hb.1 hl.1
    have h2 := export_back_row o ih2 (hd.le (Nat.le_max_right _ _)) hv.2 hb.2 hl.2
    simp [Ty.toModel, importType, importTerm, h1, h2]
  · intro i b hd hv _ hl
    simp only [Ty.validate] at hv
    have hg := checkDecl_get hv
    have h2 := hd i _ hg (by simp [Ty.nesting, Term.nesting])
    simp [Ty.toModel, importType, importTerm, hvar i _ hg, hb i b hg, h2, Term.newVarUse]
  · intro n hd hv hb hl
    have h1 := export_back_unit (E := E) (bnd := bnd) (decl := decl) n
    simp only [Ty.built, decide_eq_true_eq] at hb
    have h2 : Ty.newSum (List.replicate n []) = .sumUnit n := by
      simp [Ty.newSum, hb]
    simp [Ty.toModel, importType, importTerm, h1, h2]
  · intro rows b ih hd hv hb hl
    simp only [Ty.built, Bool.and_eq_true, decide_eq_true_eq] at hb
    have h1 := export_back_rows rows ih hd hv hb.1.1 hl
    have h2 : Ty.newSum rows = .sumGen rows b := by
      have h3 : ¬ (rows.length < 256 ∧ rows.all List.isEmpty = true) := by
        intro h; have := hb.2; simp [h.1, h.2] at this
      rw [Ty.newSum, if_neg h3, Ty.general, hb.1.2]
    simp [Ty.toModel, importType, importTerm, h1, h2]
  · intro t ih hd hv hb hl ps rs hp
    have := (ih hd hv hb hl).1
    simp [RTy.toModel, importRowParts, this, hp]
  · intro i b hd hv hb hl ps rs hp
    simp only [RTy.Lossless] at hl
    obtain ⟨rfl, hi⟩ := hl
    have hi' : varIndex i = i := Nat.mod_eq_of_lt hi
    simp [RTy.toModel, importRowParts, importRow, hp, hi']

end Verif.Types
