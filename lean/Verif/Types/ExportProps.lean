import Verif.Types.ExportImported
/-
C63: types, terms and polymorphic function types in the exchange format `hugr-model`.
-/
namespace Verif.Types

/-! ## Examples used below -/

/-- A registry with the types `int` (with a width below 7) and `array`. -/
def exportEnv : Env := fun e i =>
  if e = "arithmetic.int.types" ∧ i = "int" then some ⟨[.boundedNatType (some 7)], .explicit .copyable⟩
  else if e = "collections.array" ∧ i = "array" then
    some ⟨[.boundedNatType none, .runtimeType .linear], .fromParams [1]⟩
  else none

/-- See `exportEnv`. -/
def exportCtx : ImportEnv := ⟨Ident.asciiClasses, exportEnv⟩

/-- Parameters: a copyable type, a number, a row of types, a list of lists of the row's kind. -/
def exportParams : List Term :=
  [.runtimeType .copyable, .boundedNatType none, .listType (.runtimeType .linear),
    .tupleType (.listConcat [.list [.boundedNatType none], .variable 4 (.listType .stringType)]),
    .listType .stringType]

/-- Inputs: the type, an array of it, the row, a function on the row. -/
def exportInputs : List RTy :=
  [.ty (.variable 0 .copyable),
    .ty (.ext "collections.array" "array"
      [.variable 1 (.boundedNatType none), .runtime (.variable 0 .copyable)] .copyable),
    .rowVar 2 .linear,
    .ty (.function [.rowVar 2 .linear] [.ty (.sumUnit 2)]),
    .ty (.sumGen [[], [.ty (.variable 0 .copyable)]] .copyable)]

theorem exportParams_ok : PolyOk exportCtx.types exportParams exportInputs [.ty (.sumUnit 1)] := by
  refine ⟨by decide +kernel, by decide +kernel, by decide +kernel, by decide +kernel, ?_⟩
  have : exportParams.all (fun p => p.validate exportCtx.types exportParams && p.built) = true := by
    decide +kernel
  intro p hp
  have := List.all_eq_true.1 this p hp
  simpa using this

theorem array_name : GoodName Ident.asciiClasses "collections.array" "array" := by
  refine ⟨⟨["collections".toList, "array".toList], by simp, ?_, by decide⟩, ?_, by decide⟩
  · intro c hc
    simp only [List.mem_cons, List.not_mem_nil, or_false] at hc
    rcases hc with rfl | rfl
    · exact ⟨'c', "ollections".toList, by decide, by decide, by decide, by decide⟩
    · exact ⟨'a', "rray".toList, by decide, by decide, by decide, by decide⟩
  · exact ⟨'a', "rray".toList, by decide, by decide, by decide, by decide⟩

theorem exportParams_lossless :
    PolyLossless exportCtx.classes exportParams exportInputs [.ty (.sumUnit 1)] := by
  have hcat : ∃ parts, Term.listConcat [.list [.boundedNatType none],
      .variable 4 (.listType .stringType)] = newListFromParts parts :=
    ⟨[.item (.boundedNatType none), .splice (.variable 4 (.listType .stringType))], rfl⟩
  refine ⟨by decide, ?_, ?_, by simp [LosslessRow, RTy.Lossless, Ty.Lossless]⟩
  · intro p hp
    simp only [exportParams, List.mem_cons, List.not_mem_nil, or_false] at hp
    rcases hp with rfl | rfl | rfl | rfl | rfl
    · exact .inl ⟨_, rfl⟩
    · exact .inr rfl
    · exact .inr rfl
    · exact .inr ⟨⟨⟨rfl, trivial⟩, trivial, trivial⟩, hcat⟩
    · exact .inr trivial
  · simp only [exportInputs, LosslessRow, RTy.Lossless, Ty.Lossless, LosslessTerms, Term.Lossless,
      LosslessRows, and_true, true_and]
    exact ⟨array_name, by decide, by decide⟩

/-! ## Round trips -/

/-- C63: a valid polymorphic function type in which there is nothing that the exchange format cannot
express is the same after export and import: same parameters, same bounds, same inputs and
outputs. -/
theorem C63_signature_roundtrip (E : ImportEnv) (hC : E.classes.word '.' = false)
    (params : List Term) (i o : List RTy) (hok : PolyOk E.types params i o)
    (hl : PolyLossless E.classes params i o) :
    ImportsTo E (polyToModel params i o) (params, i, o) :=
  poly_back E hC params i o hok hl

example : ImportsTo exportCtx (polyToModel exportParams exportInputs [.ty (.sumUnit 1)])
    (exportParams, exportInputs, [.ty (.sumUnit 1)]) :=
  C63_signature_roundtrip exportCtx (by decide) _ _ _ exportParams_ok exportParams_lossless

/-- C63: in the scope of the parameters of an exported symbol, a valid term that the exchange format
can express is the same after export and import, and so is a valid type. -/
theorem C63_term_roundtrip (E : ImportEnv) (hC : E.classes.word '.' = false) (params : List Term)
    (hlen : params.length ≤ 2 ^ 16)
    (hp : ∀ p ∈ params, p.validate E.types params = true ∧ p.built = true ∧
      LosslessParam E.classes p) :
    ∃ vars, enterConstraints (enterParams (fun _ => none) 0 (polyToModel params [] []).params)
        (polyToModel params [] []).constraints = some vars ∧
      (∀ t : Term, t.validate E.types params = true → t.built = true → t.Lossless E.classes →
        ∃ k, ∀ n, k ≤ n →
          importTerm E vars.boundOf (vars.declOf E n) .linear t.toModel = some t) ∧
      (∀ t : Ty, t.validate E.types params = true → t.built = true → t.Lossless E.classes →
        ∃ k, ∀ n, k ≤ n → importType E vars.boundOf (vars.declOf E n) t.toModel = some t) := by
  obtain ⟨vars, h1, hvars⟩ := exported_vars params hlen
  have hbnd : ∀ (i : Nat) (b : Bound), params[i]? = some (.runtimeType b) →
      vars.boundOf i = some b := by
    intro i b hi
    simp only [LocalVars.boundOf, hvars, hi]
    cases b <;> simp [Term.paramBound]
  have hdecl := decl_back hC hlen hvars (fun p h => ⟨(hp p h).1, (hp p h).2.1⟩)
    (fun p h => (hp p h).2.2)
  refine ⟨vars, h1, ?_, ?_⟩
  · intro t hv hb hl
    exact ⟨t.nesting, fun n hn => (export_back_all hC hlen hbnd).1 t ((hdecl n).le hn) hv hb hl⟩
  · intro t hv hb hl
    exact ⟨t.nesting, fun n hn =>
      ((export_back_all hC hlen hbnd).2.1 t ((hdecl n).le hn) hv hb hl).1⟩

example : exportParams.length ≤ 2 ^ 16 ∧ ∀ p ∈ exportParams,
    p.validate exportCtx.types exportParams = true ∧ p.built = true ∧
      LosslessParam exportCtx.classes p :=
  ⟨by decide, fun p hp => ⟨(exportParams_ok.2.2.2.2 p hp).1, (exportParams_ok.2.2.2.2 p hp).2,
    exportParams_lossless.2.1 p hp⟩⟩

/-- C63: two valid polymorphic function types that the exchange format can express and that have the
same export are equal. -/
theorem C63_injective (E : ImportEnv) (hC : E.classes.word '.' = false)
    (params params' : List Term) (i o i' o' : List RTy) (hok : PolyOk E.types params i o)
    (hl : PolyLossless E.classes params i o) (hok' : PolyOk E.types params' i' o')
    (hl' : PolyLossless E.classes params' i' o')
    (h : polyToModel params i o = polyToModel params' i' o') :
    params = params' ∧ i = i' ∧ o = o' := by
  obtain ⟨k, hk⟩ := C63_signature_roundtrip E hC params i o hok hl
  obtain ⟨k', hk'⟩ := C63_signature_roundtrip E hC params' i' o' hok' hl'
  have h1 := hk (max k k') (Nat.le_max_left _ _)
  have h2 := hk' (max k k') (Nat.le_max_right _ _)
  rw [h, h2] at h1
  simpa [eq_comm] using h1

/-! ## What is imported -/

/-- All indices of variables in a symbol are `u16`. -/
def MSymbol.fits (s : MSymbol) : Prop := fitsArgs s.params ∧ s.signature.fits

theorem decl_fine {E : ImportEnv} (hC : E.classes.word '.' = false)
    (hcore : ∀ i, E.types "core" i = none) (vars : LocalVars)
    (hf : ∀ i v, vars i = some v → v.type.fits) (n : Nat) :
    ∀ i d, vars.declOf E n i = some d → LosslessParam E.classes d ∧ d.built = true := by
  induction n with
  | zero => intro i d h; simp [LocalVars.declOf] at h
  | succ n ih =>
    intro i d h
    rw [LocalVars.declOf] at h
    cases hv : vars i with
    | none => rw [hv] at h; simp at h
    | some v =>
      rw [hv] at h
      have := imported_term hC hcore ih v.bound v.type d (hf i v hv) h
      exact ⟨this.1.imp (fun h => ⟨_, h⟩) id, this.2⟩

theorem enterParams_fits (ts : List MTerm) (h : fitsArgs ts) (vars : LocalVars)
    (hv : ∀ i v, vars i = some v → v.type.fits) (k : Nat) :
    ∀ i v, enterParams vars k ts i = some v → v.type.fits := by
  induction ts generalizing vars k with
  | nil => exact hv
  | cons t ts ih =>
    rw [enterParams]
    apply ih h.2
    intro i v hi
    simp only [LocalVars.set] at hi
    split at hi
    · simp only [Option.some.injEq] at hi; subst hi; exact h.1
    · exact hv i v hi

theorem enterConstraints_fits (cs : List MTerm) (vars vars' : LocalVars)
    (hv : ∀ i v, vars i = some v → v.type.fits) (h : enterConstraints vars cs = some vars') :
    ∀ i v, vars' i = some v → v.type.fits := by
  induction cs generalizing vars with
  | nil => simp only [enterConstraints, Option.some.injEq] at h; subst h; exact hv
  | cons c cs ih =>
    unfold enterConstraints at h
    split at h
    · simp_all
    · next s i cs' heq =>
      obtain ⟨rfl, rfl⟩ := List.cons.inj heq
      split at h
      · cases hi : vars i with
        | none => rw [hi] at h; simp at h
        | some v =>
          rw [hi] at h
          refine ih _ ?_ h
          intro j w hj
          simp only [LocalVars.set] at hj
          split at hj
          · simp only [Option.some.injEq] at hj; subst hj; exact hv i v hi
          · exact hv j w hj
      · simp at h
    · simp at h

theorem importParams_fine {E : ImportEnv} (hC : E.classes.word '.' = false)
    (hcore : ∀ i, E.types "core" i = none) (vars : LocalVars)
    (hf : ∀ i v, vars i = some v → v.type.fits) (n : Nat) (ts : List MTerm) (hts : fitsArgs ts)
    (k : Nat) (ps : List Term) (h : importParams E vars n k ts = some ps) :
    ps.length = ts.length ∧ ∀ p ∈ ps, LosslessParam E.classes p ∧ p.built = true := by
  induction ts generalizing k ps with
  | nil => simp only [importParams, Option.some.injEq] at h; subst h; simp
  | cons t ts ih =>
    rw [importParams] at h
    cases hv : vars (varIndex k) with
    | none => rw [hv] at h; simp at h
    | some v =>
      rw [hv] at h; simp only [] at h
      cases h1 : importTerm E vars.boundOf (vars.declOf E n) v.bound t with
      | none => rw [h1] at h; simp at h
      | some x =>
        cases h2 : importParams E vars n (k + 1) ts with
        | none => rw [h1, h2] at h; simp at h
        | some xs =>
          rw [h1, h2] at h
          simp only [Option.some.injEq] at h; subst h
          have a := imported_term hC hcore (decl_fine hC hcore vars hf n) v.bound t x hts.1 h1
          have c := ih hts.2 _ _ h2
          refine ⟨by simp [c.1], ?_⟩
          intro p hp
          rcases List.mem_cons.1 hp with rfl | hp
          · exact ⟨a.1.imp (fun h => ⟨_, h⟩) id, a.2⟩
          · exact c.2 p hp

/-- C63: whatever is imported, from any module, is something that the exchange format can express,
and is made as the constructors make it.  The registry has no extension called `core`. -/
theorem C63_imported_lossless (E : ImportEnv) (hC : E.classes.word '.' = false)
    (hcore : ∀ i, E.types "core" i = none) (s : MSymbol) (hs : s.fits)
    (hlen : s.params.length ≤ 2 ^ 16) (n : Nat) (params : List Term) (i o : List RTy)
    (h : importPoly E n s = some (params, i, o)) :
    PolyLossless E.classes params i o ∧ builtRow i = true ∧ builtRow o = true ∧
      ∀ p ∈ params, p.built = true := by
  unfold importPoly at h
  cases h1 : enterConstraints (enterParams (fun _ => none) 0 s.params) s.constraints with
  | none => rw [h1] at h; simp at h
  | some vars =>
    rw [h1] at h; simp only [] at h
    have hf : ∀ i v, vars i = some v → v.type.fits :=
      enterConstraints_fits _ _ _ (enterParams_fits _ hs.1 _ (by simp) 0) h1
    cases h2 : importParams E vars n 0 s.params with
    | none => rw [h2] at h; simp at h
    | some ps =>
      rw [h2] at h
      have a := importParams_fine hC hcore vars hf n s.params hs.1 0 ps h2
      obtain ⟨sp, sc, sg⟩ := s
      cases sg with
      | apply f args =>
        match args with
        | [] => simp [importFunc] at h
        | [_] => simp [importFunc] at h
        | _ :: _ :: _ :: _ => simp [importFunc] at h
        | [t, u] =>
          simp only [importFunc] at h
          have hsig := hs.2
          simp only [MTerm.fits, fitsArgs] at hsig
          split at h
          · next x xi xo e1 e2 =>
            simp only [Option.some.injEq, Prod.mk.injEq] at e1 h
            obtain ⟨rfl, rfl, rfl⟩ := h
            subst e1
            split at e2
            · cases h3 : importRow E vars.boundOf (vars.declOf E n) t with
              | none => rw [h3] at e2; simp at e2
              | some r =>
                cases h4 : importRow E vars.boundOf (vars.declOf E n) u with
                | none => rw [h3, h4] at e2; simp at e2
                | some r' =>
                  rw [h3, h4] at e2
                  simp only [Option.some.injEq, Prod.mk.injEq] at e2
                  obtain ⟨rfl, rfl⟩ := e2
                  have b := imported_row hC hcore (decl_fine hC hcore vars hf n) t r hsig.1 h3
                  have c := imported_row hC hcore (decl_fine hC hcore vars hf n) u r' hsig.2.1 h4
                  exact ⟨⟨by rw [a.1]; exact hlen, fun p hp => (a.2 p hp).1, b.1, c.1⟩, b.2, c.2,
                    fun p hp => (a.2 p hp).2⟩
            · simp at e2
          · simp at h
      | _ => simp [importFunc] at h

/-- C63: when a valid polymorphic function type was imported, another export and import does not
change it.  (So everything that an export and import loses is lost the first time.) -/
theorem C63_second_roundtrip (E : ImportEnv) (hC : E.classes.word '.' = false)
    (hcore : ∀ i, E.types "core" i = none) (s : MSymbol) (hs : s.fits)
    (hlen : s.params.length ≤ 2 ^ 16) (n : Nat) (params : List Term) (i o : List RTy)
    (h : importPoly E n s = some (params, i, o))
    (hv : validateRow E.types params i = true ∧ validateRow E.types params o = true ∧
      ∀ p ∈ params, p.validate E.types params = true) :
    ImportsTo E (polyToModel params i o) (params, i, o) := by
  obtain ⟨h1, h2, h3, h4⟩ := C63_imported_lossless E hC hcore s hs hlen n params i o h
  exact C63_signature_roundtrip E hC params i o
    ⟨hv.1, hv.2.1, h2, h3, fun p hp => ⟨hv.2.2 p hp, h4 p hp⟩⟩ h1

/-- The symbol of a function that copies an array. -/
def copySymbol : MSymbol where
  params := [.apply "core.type" [], .apply "core.nat" []]
  constraints := [.apply "core.nonlinear" [.var 0]]
  signature := .apply "core.fn" [.list [.item (.apply "collections.array.array" [.var 1, .var 0])],
    .list [.splice (.list [.item (.apply "collections.array.array" [.var 1, .var 0])])]]

/-- The array type in `copySymbol`. -/
def copiedArray : RTy := .ty (.ext "collections.array" "array"
  [.variable 1 (.boundedNatType none), .runtime (.variable 0 .copyable)] .copyable)

example : copySymbol.fits ∧ importPoly exportCtx 1 copySymbol
      = some ([.runtimeType .copyable, .boundedNatType none], [copiedArray], [copiedArray])
    ∧ validateRow exportEnv [.runtimeType .copyable, .boundedNatType none] [copiedArray] = true := by
  refine ⟨?_, ?_, by decide +kernel⟩
  · simp [copySymbol, MSymbol.fits, MTerm.fits, fitsArgs, fitsParts]
  · have hname : importName Ident.asciiClasses "collections.array.array"
      = some ("collections.array", "array") := by decide +kernel
    simp [copySymbol, importPoly, enterParams, enterConstraints, importParams, importFunc,
      LocalVars.set, varIndex, importTerm, importRow, importRowParts, importType, importCustom,
      importArgs, LocalVars.declOf, LocalVars.boundOf, Term.newVarUse, exportCtx, exportEnv, hname,
      TypeDef.boundOf, argBounds, copiedArray]
    decide

/-! ## What is lost -/

/-- A function on integers of any width. -/
def widthParams : List Term := [.boundedNatType (some 7)]
/-- See `widthParams`. -/
def widthInputs : List RTy :=
  [.ty (.ext "arithmetic.int.types" "int" [.variable 0 (.boundedNatType (some 7))] .copyable)]

/-- Finding: the upper bound of a number parameter is not exported.  A valid function that is
polymorphic in the width of an integer type is imported with a type that is not valid: the imported
parameter is any number, and a width has to be below 7. -/
theorem C63_nat_bound_refuted :
    PolyOk exportEnv widthParams widthInputs [] ∧
    ∃ params i, (∀ n, 1 ≤ n → importPoly exportCtx n (polyToModel widthParams widthInputs [])
        = some (params, i, [])) ∧ params ≠ widthParams ∧
      validateRow exportEnv params i = false := by
  refine ⟨⟨by decide +kernel, by decide +kernel, by decide +kernel, by decide +kernel, ?_⟩, ?_⟩
  · intro p hp; simp [widthParams] at hp; subst hp; exact ⟨by decide +kernel, by decide +kernel⟩
  · refine ⟨[.boundedNatType none], [.ty (.ext "arithmetic.int.types" "int"
      [.variable 0 (.boundedNatType none)] .copyable)], ?_, by decide, by decide +kernel⟩
    intro n hn
    obtain ⟨m, rfl⟩ : ∃ m, n = m + 1 := ⟨n - 1, by omega⟩
    have hname : importName Ident.asciiClasses "arithmetic.int.types.int"
      = some ("arithmetic.int.types", "int") := by decide +kernel
    simp [polyToModel, widthParams, widthInputs, importPoly, argsToModel, Term.toModel,
      constraintsFrom, enterParams, enterConstraints, importParams, importFunc, Ty.toModel,
      rowToModel, RTy.toModel, LocalVars.set, varIndex, importTerm, importRow, importRowParts,
      importType, typeRefused, importCustom, importArgs, LocalVars.declOf, Term.newVarUse,
      exportCtx, exportEnv, hname, TypeDef.boundOf]

/-- Finding: that the types in a list have to be copyable is not exported.  The parameter of a
function on a row of copyable types is imported as a row of any types, so that the imported function
accepts arguments that the exported function does not. -/
theorem C63_nested_copyable_refuted :
    ∀ E n, 1 ≤ n →
      importPoly E n (polyToModel [.listType (.runtimeType .copyable)] [.rowVar 0 .copyable] [])
        = some ([.listType (.runtimeType .linear)], [.rowVar 0 .linear], []) := by
  intro E n hn
  simp [polyToModel, importPoly, argsToModel, Term.toModel, constraintsFrom, enterParams,
    enterConstraints, importParams, importFunc, Ty.toModel, rowToModel, RTy.toModel, LocalVars.set,
    varIndex, importTerm, importRow, importRowParts]

example : PolyOk exportEnv [.listType (.runtimeType .copyable)] [.rowVar 0 .copyable] [] := by
  refine ⟨by decide +kernel, by decide +kernel, by decide +kernel, by decide +kernel, ?_⟩
  intro p hp; simp at hp; subst hp; exact ⟨by decide +kernel, by decide +kernel⟩

/-- Finding: a type whose name has a dot is exported under the name of another type. -/
theorem C63_dotted_name_wrong :
    (Ty.ext "x" "a.b" [] .copyable).toModel = (Ty.ext "x.a" "b" [] .linear).toModel ∧
    Ty.ext "x" "a.b" [] .copyable ≠ Ty.ext "x.a" "b" [] .linear := by
  refine ⟨?_, by simp⟩
  simp only [Ty.toModel, argsToModel]
  congr 1

/-- Finding: an alias is exported as the application of a symbol and cannot be imported, unless there
is a type with the name of the alias; then that type is imported. -/
theorem C63_alias_refuted :
    importType exportCtx (fun _ => none) (fun _ => none) (Ty.alias "A" .copyable).toModel = none ∧
    importType ⟨Ident.asciiClasses, fun _ _ => some ⟨[], .explicit .linear⟩⟩ (fun _ => none)
        (fun _ => none) (Ty.alias "prelude.qubit" .copyable).toModel
      = some (.ext "prelude" "qubit" [] .linear) := by
  have h1 : importName Ident.asciiClasses "A" = none := by decide +kernel
  have h2 : importName Ident.asciiClasses "prelude.qubit" = some ("prelude", "qubit") := by
    decide +kernel
  simp [Ty.toModel, importType, typeRefused, importCustom, importArgs, exportCtx, h1, h2,
    TypeDef.boundOf]

/-- Finding: indices of variables are cut to 16 bits, so the 65537th parameter is exported as the
first. -/
theorem C63_index_truncated (d d' : Term) :
    (Term.variable (2 ^ 16) d).toModel = (Term.variable 0 d').toModel := rfl

/-- Finding: when the type of a parameter mentions the parameter itself, the import does not end:
however many uses are followed, there is no result.  Nothing refuses such a symbol before. -/
theorem C63_self_reference_refuted (E : ImportEnv) (n : Nat) :
    importPoly E n ⟨[.apply "core.list" [.var 0]], [], .apply "core.fn" [.list [], .list []]⟩
      = none := by
  have hd : ∀ n, LocalVars.declOf E (LocalVars.set (fun _ => none) 0
      ⟨.apply "core.list" [.var 0], .linear⟩) n 0 = none := by
    intro n
    induction n with
    | zero => rfl
    | succ n ih => simp [LocalVars.declOf, importTerm, ih, show LocalVars.set (fun _ => none) 0
        ⟨.apply "core.list" [.var 0], .linear⟩ 0
          = some ⟨.apply "core.list" [.var 0], .linear⟩ from rfl]
  simp [importPoly, enterParams, enterConstraints, importParams, varIndex, importTerm, hd,
    show LocalVars.set (fun _ => none) 0 ⟨.apply "core.list" [.var 0], .linear⟩ 0
      = some ⟨.apply "core.list" [.var 0], .linear⟩ from rfl]

end Verif.Types
