import Verif.Types.JsonRead
/-
C62: types, terms and signatures survive being written as JSON and read back.
-/
namespace Verif.Types

/-! ## Round trip -/

/-- **C62.**  A term (type argument or type parameter) that a program can hold is read back from
its JSON form exactly if it contains no NaN and no infinity; then it is the same term. -/
theorem C62_term_roundtrip (t : Term) (hb : t.built = true) (hf : t.fits = true) :
    t.toJson.toTerm = some t ↔ t.finite = true :=
  ⟨fun h => ((read_ok _ _).1 t h).2.2,
    fun h => (back_all.1 t).1 ⟨hb, hf, h⟩ _ (Nat.le_refl _)⟩

/-- **C62.**  The same for types, alone and as elements of rows. -/
theorem C62_type_roundtrip (t : Ty) (hb : t.built = true) (hf : t.fits = true) :
    (t.toJson.toTy = some t ↔ t.finite = true) ∧
      (t.toJson.toElem = some (.ty t) ↔ t.finite = true) := by
  have back : t.finite = true → t.toJson.toElem = some (.ty t) := fun h =>
    back_all.2.1 t ⟨hb, hf, h⟩ _ (Nat.le_refl _)
  have forth : t.toJson.toElem = some (.ty t) → t.finite = true := fun h =>
    ((read_ok _ _).2 (.ty t) h).2.2
  refine ⟨⟨fun h => forth (asTy_some h), fun h => ?_⟩, forth, back⟩
  rw [Json.toTy, back h]; rfl

/-- **C62.**  A row variable is read back as an element of a row and refused as a type. -/
theorem C62_row_variable (i : Nat) (b : Bound) (hi : i < 2 ^ 64) :
    (RTy.rowVar i b).toJson.toElem = some (.rowVar i b) ∧
      (RTy.rowVar i b).toJson.toTy = none := by
  have e : (RTy.rowVar i b).toJson.toElem = some (.rowVar i b) :=
    back_all.2.2 (.rowVar i b) ⟨rfl, by simp [RTy.fits, RTy.every, hi], rfl⟩ _ (Nat.le_refl _)
  exact ⟨e, by rw [Json.toTy, e]; rfl⟩

/-- **C62.**  A polymorphic function type is read back. -/
theorem C62_signature_roundtrip (ps : List Term) (i o : List RTy)
    (hp : ∀ t ∈ ps, t.built = true ∧ t.fits = true ∧ t.finite = true)
    (hi : ∀ t ∈ i, t.built = true ∧ t.fits = true ∧ t.finite = true)
    (ho : ∀ t ∈ o, t.built = true ∧ t.fits = true ∧ t.finite = true) :
    (polyToJson ps i o).toPoly = some (ps, i, o) := by
  have d : (polyToJson ps i o).depth = max (depthElems (termsToJson ps) + 1)
      (max (depthElems (rowToJson i) + 1) (depthElems (rowToJson o) + 1) + 1) + 1 := by
    simp [polyToJson, sigToJson, Json.depth, depthMembers]
  have e1 := readAll_terms (n := (polyToJson ps i o).depth) (fun t _ => (back_all.1 t).1) hp
    (by omega)
  have e2 := readAll_row (n := (polyToJson ps i o).depth) (fun t _ => back_all.2.2 t) hi (by omega)
  have e3 := readAll_row (n := (polyToJson ps i o).depth) (fun t _ => back_all.2.2 t) ho (by omega)
  unfold Json.toPoly
  generalize (polyToJson ps i o).depth = n at e1 e2 e3 ⊢
  simp [polyToJson, sigToJson, readPoly, readSig, readField, field, readVec, e1, e2, e3]

/-- **C62.**  Different terms have different JSON forms, and so have different types. -/
theorem C62_injective :
    (∀ t u : Term, t.built = true → t.fits = true → t.finite = true → u.built = true →
      u.fits = true → u.finite = true → t.toJson = u.toJson → t = u) ∧
    (∀ t u : Ty, t.built = true → t.fits = true → t.finite = true → u.built = true →
      u.fits = true → u.finite = true → t.toJson = u.toJson → t = u) := by
  constructor
  · intro t u h1 h2 h3 h4 h5 h6 e
    have a := (C62_term_roundtrip t h1 h2).mpr h3
    rw [e, (C62_term_roundtrip u h4 h5).mpr h6] at a
    exact (Option.some.inj a).symm
  · intro t u h1 h2 h3 h4 h5 h6 e
    have a := (C62_type_roundtrip t h1 h2).1.mpr h3
    rw [e, (C62_type_roundtrip u h4 h5).1.mpr h6] at a
    exact (Option.some.inj a).symm

/-! ## Reading arbitrary documents -/

/-- **C62.**  Whatever document is read, the result is well formed (cached bounds are right, sums
are normalised, numbers fit, floats are finite), and writing and reading it again changes
nothing. -/
theorem C62_read_wellformed (j : Json) :
    (∀ t, j.toTerm = some t →
      t.built = true ∧ t.fits = true ∧ t.finite = true ∧ t.toJson.toTerm = some t) ∧
    (∀ t, j.toTy = some t →
      t.built = true ∧ t.fits = true ∧ t.finite = true ∧ t.toJson.toTy = some t) := by
  constructor
  · intro t h
    have ok := (read_ok _ _).1 t h
    exact ⟨ok.1, ok.2.1, ok.2.2, (C62_term_roundtrip t ok.1 ok.2.1).mpr ok.2.2⟩
  · intro t h
    have ok := (read_ok _ _).2 (.ty t) (asTy_some h)
    have ok : t.built = true ∧ t.fits = true ∧ t.finite = true := ok
    exact ⟨ok.1, ok.2.1, ok.2.2, (C62_type_roundtrip t ok.1 ok.2.1).1.mpr ok.2.2⟩

/-- **C62.**  Reading does not depend on the order of the members of the objects in the document
nor on members with names the format does not use. -/
theorem C62_member_order {j k : Json} (h : Relation.ReflTransGen Json.Step j k) :
    j.toTerm = k.toTerm ∧ j.toElem = k.toElem ∧ j.toTy = k.toTy := by
  have key : j.toTerm = k.toTerm ∧ j.toElem = k.toElem := by
    induction h with
    | refl => exact ⟨rfl, rfl⟩
    | @tail b c _ hs ih =>
      have a := step_alike hs (max b.depth c.depth)
      have e1 := a.term
      have e2 := a.elem
      rw [readTerm_stable (Nat.le_max_left _ _), readTerm_stable (Nat.le_max_right _ _)] at e1
      rw [readElem_stable (Nat.le_max_left _ _), readElem_stable (Nat.le_max_right _ _)] at e2
      exact ⟨ih.1.trans e1, ih.2.trans e2⟩
  exact ⟨key.1, key.2, by rw [Json.toTy, Json.toTy, key.2]⟩

/-- **C62.**  A type is read back from the text of its JSON form exactly if it has no NaN and no
infinity inside and its form nests fewer than 128 arrays and objects. -/
theorem C62_text_roundtrip (t : Ty) (hb : t.built = true) (hf : t.fits = true) :
    readDoc Json.toTy t.toJson = some t ↔ t.finite = true ∧ t.toJson.depth < 128 := by
  unfold readDoc
  split
  · next h =>
    rw [(C62_type_roundtrip t hb hf).1]
    exact ⟨fun a => ⟨a, h⟩, fun a => a.1⟩
  · next h => exact ⟨nofun, fun a => absurd a.2 h⟩

/-! ## Findings -/

/-- **C62, finding.**  A float argument that is NaN or infinite is a valid term and is written
without an error, as `null`, and cannot be read back. -/
theorem C62_nonfinite_float_refuted (bits : Nat) (h : bits < 2 ^ 64)
    (hn : finiteBits bits = false) :
    (Term.float bits).built = true ∧ (Term.float bits).fits = true ∧
      (Term.float bits).toJson = .obj [("tya", .str "Float"), ("value", .null)] ∧
      (Term.float bits).toJson.toTerm = none := by
  refine ⟨rfl, by simp [Term.fits, Term.every, fitsHere, h], ?_, ?_⟩
  · simp [Term.toJson, floatToJson, hn]
  · simp [Json.toTerm, Term.toJson, floatToJson, hn, Json.depth, depthMembers, readTerm, readArg,
      readParam, strField, field, floatField]

/-- NaN (`f64::NAN`) and the infinities meet the hypotheses. -/
example : finiteBits 0x7ff8000000000000 = false ∧ finiteBits 0x7ff0000000000000 = false ∧
    finiteBits 0xfff0000000000000 = false ∧ finiteBits 0x3ff0000000000000 = true := by decide

/-- A tuple of a tuple of … of a Boolean. -/
def nestedTuple : Nat → Ty
  | 0 => .sumUnit 2
  | n + 1 => .newTuple [.ty (nestedTuple n)]

theorem nestedTuple_succ (n : Nat) :
    nestedTuple (n + 1) = .sumGen [[.ty (nestedTuple n)]]
      (leastUpperBound [(nestedTuple n).bound]) := by
  simp [nestedTuple, Ty.newTuple, Ty.newSum, Ty.general, RTy.bound]

theorem nestedTuple_ok (n : Nat) : (nestedTuple n).built = true ∧ (nestedTuple n).fits = true ∧
    (nestedTuple n).finite = true ∧ (nestedTuple n).toJson.depth = 3 * n + 1 := by
  induction n with
  | zero => exact ⟨rfl, rfl, rfl, rfl⟩
  | succ n ih =>
    have e := nestedTuple_succ n
    obtain ⟨h1, h2, h3, h4⟩ := ih
    refine ⟨?_, ?_, ?_, ?_⟩
    · rw [nestedTuple, Ty.newTuple, if_neg (by simp)]
      exact built_newSum (by simp [builtRows, builtRow, RTy.built, h1])
    · rw [e]
      simp only [Ty.fits] at h2
      simp [Ty.fits, Ty.every, everyRow, everyElem, RTy.every, h2]
    · rw [e]
      simp only [Ty.finite] at h3
      simp [Ty.finite, Ty.every, everyRow, everyElem, RTy.every, h3]
    · rw [e]
      simp only [Ty.toJson, rowsToJson, rowToJson, RTy.toJson, Json.depth, depthMembers, depthElems,
        h4]
      omega

/-- **C62, finding.**  A tuple nested 42 deep can be read back from its text; nested 43 deep or
deeper it is still written, but the text is refused: `serde_json` allows 127 levels of arrays and
objects and each tuple takes three. -/
theorem C62_deep_nesting_refuted :
    (∀ n, n ≤ 42 → readDoc Json.toTy (nestedTuple n).toJson = some (nestedTuple n)) ∧
    (∀ n, 43 ≤ n → (nestedTuple n).built = true ∧ (nestedTuple n).fits = true ∧
      (nestedTuple n).finite = true ∧
      readDoc Json.toTy (nestedTuple n).toJson = none) := by
  constructor
  · intro n hn
    obtain ⟨h1, h2, h3, h4⟩ := nestedTuple_ok n
    exact (C62_text_roundtrip _ h1 h2).mpr ⟨h3, by omega⟩
  · intro n hn
    obtain ⟨h1, h2, h3, h4⟩ := nestedTuple_ok n
    refine ⟨h1, h2, h3, ?_⟩
    unfold readDoc
    rw [if_neg (by omega)]

/-- **C62, finding.**  The name of the extension of a custom type is read without a check that it is
a dotted list of identifiers: the empty name, for example, which `IdentList::new` refuses, is
accepted. -/
theorem C62_empty_extension_accepted :
    (Json.obj [("t", .str "Opaque"), ("extension", .str ""), ("id", .str "T"),
      ("args", .arr []), ("bound", .str "A")]).toTy = some (.ext "" "T" [] .linear) := by
  decide +kernel

/-- The former bound `E` is read as copyable. -/
theorem C62_legacy_bound (i : Nat) (hi : i < 2 ^ 64) :
    (Json.obj [("t", .str "V"), ("i", .num i), ("b", .str "E")]).toTy =
      some (.variable i .copyable) := by
  simp at hi
  simp [Json.toTy, Json.toElem, Json.depth, depthMembers, readElem, readSer, strField, field,
    natField, boundField, hi, RTy.asTy]

/-! ## Non-vacuity -/

/-- A term that uses every part of the format. -/
def jsonSample : Term :=
  .tuple [
    .runtime (.function [.ty qubitTy, .rowVar 1 .linear]
      [.ty (Ty.newSum [[.ty usizeTy], [.ty (.variable 0 .copyable)], []]), .ty (.sumUnit 3),
        .ty (.alias "A" .linear), .ty (.ext "arr" "array" [.boundedNat 5, .runtime qubitTy] .linear)]),
    .list [.string "x", .bytes [0, 255, 17, 4], .float 0x3ff8000000000000],
    .listConcat [.variable 2 (.listType (.runtimeType .copyable))],
    .tupleConcat [.tupleType (.list [.boundedNatType (some 8), .boundedNatType none, .stringType])],
    .tupleType (.variable 0 (.listType .staticType)),
    .constType usizeTy, .bytesType, .floatType]

example : jsonSample.built = true ∧ jsonSample.fits = true ∧ jsonSample.finite = true := by
  decide +kernel

example : jsonSample.toJson.toTerm = some jsonSample :=
  (C62_term_roundtrip _ (by decide +kernel) (by decide +kernel)).mpr (by decide +kernel)

example : (Ty.newSum [[.ty qubitTy], [.rowVar 0 .copyable]]).toJson.toTy =
    some (Ty.newSum [[.ty qubitTy], [.rowVar 0 .copyable]]) :=
  (C62_type_roundtrip _ (by decide +kernel) (by decide +kernel)).1.mpr (by decide +kernel)

example : (polyToJson [.runtimeType .linear] [.ty (.variable 0 .linear)]
      [.ty (.variable 0 .linear), .rowVar 1 .copyable]).toPoly =
    some ([.runtimeType .linear], [.ty (.variable 0 .linear)],
      [.ty (.variable 0 .linear), .rowVar 1 .copyable]) :=
  C62_signature_roundtrip _ _ _ (by decide +kernel) (by decide +kernel) (by decide +kernel)

/-- A general sum of empty rows in a document is read as a unit sum. -/
example : (Json.obj [("t", .str "Sum"), ("s", .str "General"), ("rows", .arr [.arr [], .arr []])]).toTy
    = some (.sumUnit 2) := by decide +kernel

/-- Members in another order, and one that is not known. -/
example : Relation.ReflTransGen Json.Step
    (.obj [("t", .str "V"), ("i", .num 1), ("b", .str "C")])
    (.obj [("note", .null), ("b", .str "C"), ("i", .num 1), ("t", .str "V")]) :=
  (Relation.ReflTransGen.single (.perm (List.reverse_perm _).symm)).tail (.extra (by decide))

/-- The largest `u64` is read, the next number is refused. -/
example : (Json.obj [("tya", .str "BoundedNat"), ("n", .num (2 ^ 64 - 1))]).toTerm =
      some (.boundedNat (2 ^ 64 - 1)) ∧
    (Json.obj [("tya", .str "BoundedNat"), ("n", .num (2 ^ 64))]).toTerm = none := by
  decide +kernel

end Verif.Types
