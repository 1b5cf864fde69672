import Verif.Types.JsonSpec
/-
Lemmas on the JSON form of types and terms: what is written can be read back.
-/
namespace Verif.Types

/-- Hypotheses under which a term can be read back. -/
def Term.ok (t : Term) : Prop := t.built = true ∧ t.fits = true ∧ t.finite = true
/-- See `Term.ok`. -/
def Ty.ok (t : Ty) : Prop := t.built = true ∧ t.fits = true ∧ t.finite = true
/-- See `Term.ok`. -/
def RTy.ok (t : RTy) : Prop := t.built = true ∧ t.fits = true ∧ t.finite = true

/-- A term can be read back with enough recursion. -/
def Term.Back (t : Term) : Prop :=
  t.ok → ∀ n, t.toJson.depth ≤ n → readTerm n t.toJson = some t
/-- See `Term.Back`. -/
def RTy.Back (t : RTy) : Prop :=
  t.ok → ∀ n, t.toJson.depth ≤ n → readElem n t.toJson = some t

theorem readAll_terms {ts : List Term} {n : Nat} (h : ∀ t ∈ ts, t.Back) (ok : ∀ t ∈ ts, t.ok)
    (hd : depthElems (termsToJson ts) ≤ n) : readAll (readTerm n) (termsToJson ts) = some ts := by
  induction ts with
  | nil => rfl
  | cons t ts ih =>
    simp only [termsToJson, depthElems] at hd
    have e := h t (by simp) (ok t (by simp)) n (by omega)
    have es := ih (fun x hx => h x (by simp [hx])) (fun x hx => ok x (by simp [hx])) (by omega)
    simp only [termsToJson, readAll, e, es]

theorem readAll_row {ts : List RTy} {n : Nat} (h : ∀ t ∈ ts, t.Back) (ok : ∀ t ∈ ts, t.ok)
    (hd : depthElems (rowToJson ts) ≤ n) : readAll (readElem n) (rowToJson ts) = some ts := by
  induction ts with
  | nil => rfl
  | cons t ts ih =>
    simp only [rowToJson, depthElems] at hd
    have e := h t (by simp) (ok t (by simp)) n (by omega)
    have es := ih (fun x hx => h x (by simp [hx])) (fun x hx => ok x (by simp [hx])) (by omega)
    simp only [rowToJson, readAll, e, es]

theorem readAll_rows {rs : List (List RTy)} {n : Nat} (h : ∀ r ∈ rs, ∀ t ∈ r, t.Back)
    (ok : ∀ r ∈ rs, ∀ t ∈ r, t.ok)
    (hd : depthElems (rowsToJson rs) ≤ n) :
    readAll (readVec (readElem n)) (rowsToJson rs) = some rs := by
  induction rs with
  | nil => rfl
  | cons r rs ih =>
    simp only [rowsToJson, depthElems, Json.depth] at hd
    have e := readAll_row (h r (by simp)) (ok r (by simp)) (n := n) (by omega)
    have es := ih (fun x hx => h x (by simp [hx])) (fun x hx => ok x (by simp [hx])) (by omega)
    simp only [rowsToJson, readAll, readVec, e, es]

theorem toJson_obj (t : Term) : ∃ ms, t.toJson = .obj ms := by
  cases t <;> try exact ⟨_, rfl⟩
  next t => cases t <;> exact ⟨_, rfl⟩

theorem newSum_built {rows : List (List RTy)} {b : Bound} (h : (Ty.sumGen rows b).built = true) :
    Ty.newSum rows = .sumGen rows b := by
  simp only [Ty.built, Bool.and_eq_true, decide_eq_true_eq, Bool.not_eq_true'] at h
  obtain ⟨⟨_, rfl⟩, h⟩ := h
  unfold Ty.newSum
  rw [if_neg, Ty.general]
  rintro ⟨h1, h2⟩
  simp [h1, h2] at h


theorem back_all : (∀ t : Term, t.Back ∧ ∀ ts, t = .list ts → ∀ x ∈ ts, x.Back) ∧
    (∀ t : Ty, RTy.Back (.ty t)) ∧ (∀ t : RTy, t.Back) := by
  apply syntax_induction
  case rty => intro t h; exact h
  case list =>
    intro ts h
    refine ⟨?_, fun ts' e => by cases e; exact fun x hx => (h x hx).1⟩
    intro ok n hd
    obtain ⟨ob, of', on⟩ := ok
    simp only [Term.built, builtTerms_iff, Term.fits, Term.finite, Term.every, fitsHere, finiteHere,
      Bool.true_and, everyTerm_iff] at ob of' on
    simp only [Term.toJson, Json.depth, depthMembers] at hd ⊢
    obtain ⟨n, rfl⟩ : ∃ m, n = m + 1 := ⟨n - 1, by omega⟩
    have e := readAll_terms (n := n) (fun x hx => (h x hx).1)
      (fun x hx => ⟨ob x hx, of' x hx, on x hx⟩) (by omega)
    simp [readTerm, readArg, strField, field, readField, readVec, e]
  case listConcat =>
    intro ts h
    refine ⟨?_, nofun⟩
    intro ok n hd
    obtain ⟨ob, of', on⟩ := ok
    simp only [Term.built, builtTerms_iff, Term.fits, Term.finite, Term.every, fitsHere, finiteHere,
      Bool.true_and, everyTerm_iff] at ob of' on
    simp only [Term.toJson, Json.depth, depthMembers] at hd ⊢
    obtain ⟨n, rfl⟩ : ∃ m, n = m + 1 := ⟨n - 1, by omega⟩
    have e := readAll_terms (n := n) (fun x hx => (h x hx).1)
      (fun x hx => ⟨ob x hx, of' x hx, on x hx⟩) (by omega)
    simp [readTerm, readArg, strField, field, readField, readVec, e]
  case tuple =>
    intro ts h
    refine ⟨?_, nofun⟩
    intro ok n hd
    obtain ⟨ob, of', on⟩ := ok
    simp only [Term.built, builtTerms_iff, Term.fits, Term.finite, Term.every, fitsHere, finiteHere,
      Bool.true_and, everyTerm_iff] at ob of' on
    simp only [Term.toJson, Json.depth, depthMembers] at hd ⊢
    obtain ⟨n, rfl⟩ : ∃ m, n = m + 1 := ⟨n - 1, by omega⟩
    have e := readAll_terms (n := n) (fun x hx => (h x hx).1)
      (fun x hx => ⟨ob x hx, of' x hx, on x hx⟩) (by omega)
    simp [readTerm, readArg, strField, field, readField, readVec, e]
  case tupleConcat =>
    intro ts h
    refine ⟨?_, nofun⟩
    intro ok n hd
    obtain ⟨ob, of', on⟩ := ok
    simp only [Term.built, builtTerms_iff, Term.fits, Term.finite, Term.every, fitsHere, finiteHere,
      Bool.true_and, everyTerm_iff] at ob of' on
    simp only [Term.toJson, Json.depth, depthMembers] at hd ⊢
    obtain ⟨n, rfl⟩ : ∃ m, n = m + 1 := ⟨n - 1, by omega⟩
    have e := readAll_terms (n := n) (fun x hx => (h x hx).1)
      (fun x hx => ⟨ob x hx, of' x hx, on x hx⟩) (by omega)
    simp [readTerm, readArg, strField, field, readField, readVec, e]
  case listType =>
    intro t h
    refine ⟨?_, nofun⟩
    intro ok n hd
    obtain ⟨ob, of', on⟩ := ok
    simp only [Term.built, Term.fits, Term.finite, Term.every, fitsHere, finiteHere,
      Bool.true_and] at ob of' on
    simp only [Term.toJson, Json.depth, depthMembers] at hd ⊢
    obtain ⟨n, rfl⟩ : ∃ m, n = m + 1 := ⟨n - 1, by omega⟩
    have e := h.1 ⟨ob, of', on⟩ n (by omega)
    simp [readTerm, readArg, readParam, strField, field, readField, e]
  case tupleType =>
    intro t h
    refine ⟨?_, nofun⟩
    intro ok n hd
    obtain ⟨ob, of', on⟩ := ok
    simp only [Term.built, Term.fits, Term.finite, Term.every, fitsHere, finiteHere,
      Bool.true_and] at ob of' on
    by_cases hl : ∃ ts, t = .list ts
    · obtain ⟨ts, rfl⟩ := hl
      simp only [Term.built, builtTerms_iff, Term.every, fitsHere, finiteHere,
        Bool.true_and, everyTerm_iff] at ob of' on
      simp only [Term.toJson, Json.depth, depthMembers] at hd ⊢
      obtain ⟨n, rfl⟩ : ∃ m, n = m + 1 := ⟨n - 1, by omega⟩
      have e := readAll_terms (n := n) (h.2 ts rfl)
        (fun x hx => ⟨ob x hx, of' x hx, on x hx⟩) (by omega)
      simp [readTerm, readArg, readParam, strField, field, readField, readArrayOrTerm, readVec, e]
    · have e0 : (Term.tupleType t).toJson =
          .obj [("tp", .str "Tuple"), ("params", t.toJson)] := by
        cases t <;> first | rfl | exact absurd ⟨_, rfl⟩ hl
      rw [e0] at hd ⊢
      simp only [Json.depth, depthMembers] at hd ⊢
      obtain ⟨n, rfl⟩ : ∃ m, n = m + 1 := ⟨n - 1, by omega⟩
      have e := h.1 ⟨ob, of', on⟩ n (by omega)
      obtain ⟨ms, em⟩ := toJson_obj t
      have ev : readVec (readTerm n) t.toJson = none := by rw [em]; rfl
      simp [readTerm, readArg, readParam, strField, field, readField, readArrayOrTerm, ev, e]
  case runtime =>
    intro t h
    refine ⟨?_, nofun⟩
    intro ok n hd
    obtain ⟨ob, of', on⟩ := ok
    simp only [Term.built, Term.fits, Term.finite, Term.every, fitsHere, finiteHere,
      Bool.true_and] at ob of' on
    simp only [Term.toJson, Json.depth, depthMembers] at hd ⊢
    obtain ⟨n, rfl⟩ : ∃ m, n = m + 1 := ⟨n - 1, by omega⟩
    have e := h ⟨ob, of', on⟩ n (by simp only [RTy.toJson]; omega)
    simp only [RTy.toJson] at e
    simp [readTerm, readArg, readParam, strField, field, readField, e, RTy.asTy]
  case constType =>
    intro t h
    refine ⟨?_, nofun⟩
    intro ok n hd
    obtain ⟨ob, of', on⟩ := ok
    simp only [Term.built, Term.fits, Term.finite, Term.every, fitsHere, finiteHere,
      Bool.true_and] at ob of' on
    simp only [Term.toJson, Json.depth, depthMembers] at hd ⊢
    obtain ⟨n, rfl⟩ : ∃ m, n = m + 1 := ⟨n - 1, by omega⟩
    have e := h ⟨ob, of', on⟩ n (by simp only [RTy.toJson]; omega)
    simp only [RTy.toJson] at e
    simp [readTerm, readArg, readParam, strField, field, readField, e, RTy.asTy]
  case var =>
    intro i d h
    refine ⟨?_, nofun⟩
    intro ok n hd
    obtain ⟨ob, of', on⟩ := ok
    simp only [Term.built, Term.fits, Term.finite, Term.every, fitsHere, finiteHere,
      Bool.true_and, Bool.and_eq_true, decide_eq_true_eq] at ob of' on
    simp only [Term.toJson, Json.depth, depthMembers] at hd ⊢
    obtain ⟨n, rfl⟩ : ∃ m, n = m + 1 := ⟨n - 1, by omega⟩
    have e := h.1 ⟨ob, of'.2, on⟩ n (by omega)
    have hi := of'.1
    simp at hi
    simp [readTerm, readArg, readParam, strField, field, readField, e, natField, hi]
  case ext =>
    intro e i args b h ok n hd
    obtain ⟨ob, of', on⟩ := ok
    simp only [RTy.built, Ty.built, builtTerms_iff, RTy.fits, RTy.finite, RTy.every, Ty.every,
      everyTerm_iff] at ob of' on
    simp only [RTy.toJson, Ty.toJson] at hd ⊢
    by_cases h1 : e = "prelude" ∧ i = "qubit" ∧ args.isEmpty ∧ b = .linear
    · rw [if_pos h1] at hd ⊢
      obtain ⟨rfl, rfl, h3, rfl⟩ := h1
      rw [List.isEmpty_iff] at h3
      subst h3
      simp only [Json.depth, depthMembers] at hd
      obtain ⟨n, rfl⟩ : ∃ m, n = m + 1 := ⟨n - 1, by omega⟩
      simp [readElem, readSer, strField, field, qubitTy]
    · rw [if_neg h1] at hd ⊢
      by_cases h2 : e = "prelude" ∧ i = "usize" ∧ args.isEmpty ∧ b = .copyable
      · rw [if_pos h2] at hd ⊢
        obtain ⟨rfl, rfl, h3, rfl⟩ := h2
        rw [List.isEmpty_iff] at h3
        subst h3
        simp only [Json.depth, depthMembers] at hd
        obtain ⟨n, rfl⟩ : ∃ m, n = m + 1 := ⟨n - 1, by omega⟩
        simp [readElem, readSer, strField, field, usizeTy]
      · rw [if_neg h2] at hd ⊢
        simp only [Json.depth, depthMembers] at hd
        obtain ⟨n, rfl⟩ : ∃ m, n = m + 1 := ⟨n - 1, by omega⟩
        have e := readAll_terms (n := n) (fun x hx => (h x hx).1)
          (fun x hx => ⟨ob x hx, of' x hx, on x hx⟩) (by omega)
        cases b <;>
        simp [readElem, readSer, strField, field, readField, readVec, e, boundField, Bound.toJson]
  case alias =>
    intro i b ok n hd
    simp only [RTy.toJson, Ty.toJson, Json.depth, depthMembers] at hd ⊢
    obtain ⟨n, rfl⟩ : ∃ m, n = m + 1 := ⟨n - 1, by omega⟩
    cases b <;> simp [readElem, readSer, strField, field, boundField, Bound.toJson]
  case function =>
    intro i o hi ho ok n hd
    obtain ⟨ob, of', on⟩ := ok
    simp only [RTy.built, Ty.built, builtRow_iff, RTy.fits, RTy.finite, RTy.every, Ty.every,
      everyElem_iff, Bool.and_eq_true] at ob of' on
    simp only [RTy.toJson, Ty.toJson, Json.depth, depthMembers] at hd ⊢
    obtain ⟨n, rfl⟩ : ∃ m, n = m + 1 := ⟨n - 1, by omega⟩
    have e := readAll_row (n := n) hi
      (fun x hx => ⟨ob.1 x hx, of'.1 x hx, on.1 x hx⟩) (by omega)
    have e' := readAll_row (n := n) ho
      (fun x hx => ⟨ob.2 x hx, of'.2 x hx, on.2 x hx⟩) (by omega)
    simp [readElem, readSer, strField, field, readField, readVec, e, e']
  case tyVar =>
    intro i b ok n hd
    have hi := ok.2.1
    simp [RTy.fits, RTy.every, Ty.every] at hi
    simp only [RTy.toJson, Ty.toJson, Json.depth, depthMembers] at hd ⊢
    obtain ⟨n, rfl⟩ : ∃ m, n = m + 1 := ⟨n - 1, by omega⟩
    cases b <;> simp [readElem, readSer, strField, field, boundField, Bound.toJson, natField, hi]
  case sumUnit =>
    intro k ok n hd
    have hi := ok.1
    simp [RTy.built, Ty.built] at hi
    simp only [RTy.toJson, Ty.toJson, Json.depth, depthMembers] at hd ⊢
    obtain ⟨n, rfl⟩ : ∃ m, n = m + 1 := ⟨n - 1, by omega⟩
    simp [readElem, readSer, strField, field, natField, hi]
  case sumGen =>
    intro rows b h ok n hd
    obtain ⟨ob0, of', on⟩ := ok
    have ob := ob0
    simp only [RTy.built, Ty.built, builtRows_iff, RTy.fits, RTy.finite, RTy.every, Ty.every,
      everyRow_iff, Bool.and_eq_true] at ob of' on
    simp only [RTy.toJson, Ty.toJson, Json.depth, depthMembers] at hd ⊢
    obtain ⟨n, rfl⟩ : ∃ m, n = m + 1 := ⟨n - 1, by omega⟩
    have e := readAll_rows (n := n) h
      (fun r hr x hx => ⟨ob.1.1 r hr x hx, of' r hr x hx, on r hr x hx⟩) (by omega)
    have e2 := newSum_built ob0
    simp [readElem, readSer, strField, field, readField, readVec, e, e2]
  case rowVar =>
    intro i b ok n hd
    have hi := ok.2.1
    simp [RTy.fits, RTy.every] at hi
    simp only [RTy.toJson, Json.depth, depthMembers] at hd ⊢
    obtain ⟨n, rfl⟩ : ∃ m, n = m + 1 := ⟨n - 1, by omega⟩
    cases b <;> simp [readElem, readSer, strField, field, boundField, Bound.toJson, natField, hi]
  case bytes =>
    intro bs
    refine ⟨?_, nofun⟩
    intro ok n hd
    have hi := ok.2.1
    simp only [Term.fits, Term.every, fitsHere, List.all_eq_true, decide_eq_true_eq] at hi
    simp only [Term.toJson, Json.depth, depthMembers] at hd ⊢
    obtain ⟨n, rfl⟩ : ∃ m, n = m + 1 := ⟨n - 1, by omega⟩
    simp [readTerm, readArg, strField, field, bytesField, Base64.decode_encode bs hi]
  case float =>
    intro bits
    refine ⟨?_, nofun⟩
    intro ok n hd
    have hi := ok.2.2
    simp only [Term.finite, Term.every, finiteHere] at hi
    simp only [Term.toJson, Json.depth, depthMembers] at hd ⊢
    obtain ⟨n, rfl⟩ : ∃ m, n = m + 1 := ⟨n - 1, by omega⟩
    simp [readTerm, readArg, strField, field, floatField, floatToJson, hi]
  case boundedNat =>
    intro k
    refine ⟨?_, nofun⟩
    intro ok n hd
    have hi := ok.2.1
    simp [Term.fits, Term.every, fitsHere] at hi
    simp only [Term.toJson, Json.depth, depthMembers] at hd ⊢
    obtain ⟨n, rfl⟩ : ∃ m, n = m + 1 := ⟨n - 1, by omega⟩
    simp [readTerm, readArg, strField, field, natField, hi]
  case boundedNatType =>
    intro k
    refine ⟨?_, nofun⟩
    intro ok n hd
    have hi := ok.2.1
    simp only [Term.toJson, Json.depth, depthMembers] at hd ⊢
    obtain ⟨n, rfl⟩ : ∃ m, n = m + 1 := ⟨n - 1, by omega⟩
    cases k with
    | none => simp [readTerm, readArg, readParam, strField, field, ubField, ubToJson]
    | some k =>
      simp [Term.fits, Term.every, fitsHere] at hi
      simp [readTerm, readArg, readParam, strField, field, ubField, ubToJson, hi]
  case runtimeType =>
    intro b
    refine ⟨?_, nofun⟩
    intro ok n hd
    simp only [Term.toJson, Json.depth, depthMembers] at hd ⊢
    obtain ⟨n, rfl⟩ : ∃ m, n = m + 1 := ⟨n - 1, by omega⟩
    cases b <;>
      simp [readTerm, readArg, readParam, strField, field, boundField, Bound.toJson]
  case string =>
    intro s
    refine ⟨?_, nofun⟩
    intro ok n hd
    simp only [Term.toJson, Json.depth, depthMembers] at hd ⊢
    obtain ⟨n, rfl⟩ : ∃ m, n = m + 1 := ⟨n - 1, by omega⟩
    simp [readTerm, readArg, strField, field]
  all_goals
    refine ⟨?_, nofun⟩
    intro ok n hd
    simp only [Term.toJson, Json.depth, depthMembers] at hd ⊢
    obtain ⟨n, rfl⟩ : ∃ m, n = m + 1 := ⟨n - 1, by omega⟩
    simp [readTerm, readArg, readParam, strField, field]

end Verif.Types
