import Verif.Types.Parts
/-
C08: list and tuple concatenation terms denote concatenation.
-/
namespace Verif.Types

/-! ## Helper lemmas on `newSeqFromParts` -/

/-- Meaning of a finished pair `(items, seqs)` of the loop, for an arbitrary interpretation of the
sequences pushed. -/
theorem seqStep_fold (mk : List Term → Term) (val : Term → List Term)
    (hmk : ∀ es, val (mk es) = es) (parts : List SeqPart) (s : List Term × List Term) :
    (parts.foldl (seqStep mk) s).2.flatMap val ++ (parts.foldl (seqStep mk) s).1
      = s.2.flatMap val ++ s.1 ++ parts.flatMap (fun p => match p with
          | .item t => [t]
          | .splice t => val t) := by
  induction parts generalizing s with
  | nil => simp
  | cons p ps ih =>
    rw [List.foldl_cons, ih]
    cases p with
    | item t => simp [seqStep]
    | splice t =>
      simp only [seqStep]
      split
      · next h => simp at h; simp [h]
      · simp [hmk]

theorem newSeq_value (mkItems mkConcat : List Term → Term) (val : Term → List Term)
    (h1 : ∀ es, val (mkItems es) = es) (h2 : ∀ ts, val (mkConcat ts) = ts.flatMap val)
    (parts : List SeqPart) :
    val (newSeqFromParts mkItems mkConcat parts) = parts.flatMap (fun p => match p with
          | .item t => [t]
          | .splice t => val t) := by
  have h := seqStep_fold mkItems val h1 parts ([], [])
  simp only [List.flatMap_nil, List.append_nil, List.nil_append] at h
  unfold newSeqFromParts
  simp only []
  rw [← h]
  split
  · next h' => simp at h'; simp [h1, h']
  · split
    · next h' => simp at h'; simp [h2, h']
    · simp [h1, h2]

theorem listValues_eq (ρ : Term → List Term) (ts : List Term) :
    listValues ρ ts = ts.flatMap (Term.listValue ρ) := by
  induction ts with
  | nil => rfl
  | cons t ts ih => simp [listValues, ih]
theorem tupleValues_eq (ρ : Term → List Term) (ts : List Term) :
    tupleValues ρ ts = ts.flatMap (Term.tupleValue ρ) := by
  induction ts with
  | nil => rfl
  | cons t ts ih => simp [tupleValues, ih]

/-- Flattening the parts of a list does not change what it denotes. -/
theorem listParts_value (ρ : Term → List Term) (t : Term) :
    t.listParts.flatMap (SeqPart.listValue ρ) = t.listValue ρ := by
  induction t using list_induction with
  | list es =>
    simp only [Term.listParts, Term.listValue]
    induction es with
    | nil => rfl
    | cons e es ih => simp [SeqPart.listValue, ih]
  | concat ts ih =>
    simp only [Term.listParts, Term.listValue]
    induction ts with
    | nil => rfl
    | cons x xs ihx =>
      simp only [listPartsAll, listValues, List.flatMap_append]
      rw [ih x (by simp), ihx (fun y hy => ih y (by simp [hy]))]
  | other t h => simp [listParts_other h, SeqPart.listValue]

theorem tupleParts_value (ρ : Term → List Term) (t : Term) :
    t.tupleParts.flatMap (SeqPart.tupleValue ρ) = t.tupleValue ρ := by
  induction t using tuple_induction with
  | tuple es =>
    simp only [Term.tupleParts, Term.tupleValue]
    induction es with
    | nil => rfl
    | cons e es ih => simp [SeqPart.tupleValue, ih]
  | concat ts ih =>
    simp only [Term.tupleParts, Term.tupleValue]
    induction ts with
    | nil => rfl
    | cons x xs ihx =>
      simp only [tuplePartsAll, tupleValues, List.flatMap_append]
      rw [ih x (by simp), ihx (fun y hy => ih y (by simp [hy]))]
  | other t h => simp [tupleParts_other h, SeqPart.tupleValue]

/-- A part of a list is open if it is an item or the splice of a non-literal. -/
theorem listParts_open (t u : Term) (h : SeqPart.splice u ∈ t.listParts) :
    u.isListLit = false := by
  induction t using list_induction with
  | list es => simp [Term.listParts] at h
  | concat ts ih =>
    simp only [Term.listParts, listPartsAll_eq, List.mem_flatMap] at h
    obtain ⟨e, he, h⟩ := h
    exact ih e he h
  | other t ht =>
    simp only [listParts_other ht, List.mem_singleton, SeqPart.splice.injEq] at h
    rw [h]; exact ht

theorem tupleParts_open (t u : Term) (h : SeqPart.splice u ∈ t.tupleParts) :
    u.isTupleLit = false := by
  induction t using tuple_induction with
  | tuple es => simp [Term.tupleParts] at h
  | concat ts ih =>
    simp only [Term.tupleParts, tuplePartsAll_eq, List.mem_flatMap] at h
    obtain ⟨e, he, h⟩ := h
    exact ih e he h
  | other t ht =>
    simp only [tupleParts_other ht, List.mem_singleton, SeqPart.splice.injEq] at h
    rw [h]; exact ht

/-- For atomic parts, the parts of the built term are the given parts. -/
theorem seqStep_parts (mk : List Term → Term) (parts' : Term → List SeqPart)
    (hmk : ∀ es, parts' (mk es) = es.map .item)
    (parts : List SeqPart) (hp : ∀ t, SeqPart.splice t ∈ parts → parts' t = [.splice t])
    (s : List Term × List Term) :
    (parts.foldl (seqStep mk) s).2.flatMap parts' ++ (parts.foldl (seqStep mk) s).1.map .item
      = s.2.flatMap parts' ++ s.1.map .item ++ parts := by
  induction parts generalizing s with
  | nil => simp
  | cons p ps ih =>
    rw [List.foldl_cons, ih (fun t ht => hp t (by simp [ht]))]
    cases p with
    | item t => simp [seqStep]
    | splice t =>
      have := hp t (by simp)
      simp only [seqStep]
      split
      · next h => simp at h; simp [h, this]
      · simp [hmk, this]

theorem newSeq_parts (mkItems mkConcat : List Term → Term) (parts' : Term → List SeqPart)
    (h1 : ∀ es, parts' (mkItems es) = es.map .item)
    (h2 : ∀ ts, parts' (mkConcat ts) = ts.flatMap parts')
    (parts : List SeqPart) (hp : ∀ t, SeqPart.splice t ∈ parts → parts' t = [.splice t]) :
    parts' (newSeqFromParts mkItems mkConcat parts) = parts := by
  have h := seqStep_parts mkItems parts' h1 parts hp ([], [])
  simp only [List.flatMap_nil, List.map_nil, List.append_nil, List.nil_append] at h
  unfold newSeqFromParts
  simp only []
  split
  · next h' => simp at h'; rw [h'] at h; simpa [h1] using h
  · split
    · next h' => simp at h'; rw [h'] at h; simpa [h2] using h
    · rw [h2]; simp only [List.flatMap_append, List.flatMap_cons, List.flatMap_nil, h1,
        List.append_nil]; exact h

theorem listParts_newList (parts : List SeqPart) :
    (newListFromParts parts).listParts = parts.flatMap SeqPart.listExpand := by
  unfold newListFromParts
  apply newSeq_parts
  · intro es; rfl
  · intro ts; simp [Term.listParts, listPartsAll_eq]
  · intro t ht
    obtain ⟨p, _, hp⟩ := List.mem_flatMap.mp ht
    cases p with
    | item t' => simp [SeqPart.listExpand] at hp
    | splice t' =>
      exact listParts_other (listParts_open t' _ hp)

theorem tupleParts_newTuple (parts : List SeqPart) :
    (newTupleFromParts parts).tupleParts = parts.flatMap SeqPart.tupleExpand := by
  unfold newTupleFromParts
  apply newSeq_parts
  · intro es; rfl
  · intro ts; simp [Term.tupleParts, tuplePartsAll_eq]
  · intro t ht
    obtain ⟨p, _, hp⟩ := List.mem_flatMap.mp ht
    cases p with
    | item t' => simp [SeqPart.tupleExpand] at hp
    | splice t' =>
      exact tupleParts_other (tupleParts_open t' _ hp)

theorem listExpand_idem (ps : List SeqPart) :
    (ps.flatMap SeqPart.listExpand).flatMap SeqPart.listExpand
      = ps.flatMap SeqPart.listExpand := by
  have h : ∀ qs : List SeqPart, (∀ u, SeqPart.splice u ∈ qs → u.isListLit = false) →
      qs.flatMap SeqPart.listExpand = qs := by
    intro qs hq
    induction qs with
    | nil => rfl
    | cons q qs ih =>
      rw [List.flatMap_cons, ih (fun u hu => hq u (by simp [hu]))]
      cases q with
      | item t => rfl
      | splice t => simp [SeqPart.listExpand, listParts_other (hq t (by simp))]
  apply h
  intro u hu
  obtain ⟨p, _, hp⟩ := List.mem_flatMap.mp hu
  cases p with
  | item t => simp [SeqPart.listExpand] at hp
  | splice t => exact listParts_open t u hp

theorem tupleExpand_idem (ps : List SeqPart) :
    (ps.flatMap SeqPart.tupleExpand).flatMap SeqPart.tupleExpand
      = ps.flatMap SeqPart.tupleExpand := by
  have h : ∀ qs : List SeqPart, (∀ u, SeqPart.splice u ∈ qs → u.isTupleLit = false) →
      qs.flatMap SeqPart.tupleExpand = qs := by
    intro qs hq
    induction qs with
    | nil => rfl
    | cons q qs ih =>
      rw [List.flatMap_cons, ih (fun u hu => hq u (by simp [hu]))]
      cases q with
      | item t => rfl
      | splice t => simp [SeqPart.tupleExpand, tupleParts_other (hq t (by simp))]
  apply h
  intro u hu
  obtain ⟨p, _, hp⟩ := List.mem_flatMap.mp hu
  cases p with
  | item t => simp [SeqPart.tupleExpand] at hp
  | splice t => exact tupleParts_open t u hp

theorem newSeq_items (mkItems mkConcat : List Term → Term) (es : List Term) :
    newSeqFromParts mkItems mkConcat (es.map .item) = mkItems es := by
  have h : ∀ s : List Term × List Term,
      (es.map SeqPart.item).foldl (seqStep mkItems) s = (s.1 ++ es, s.2) := by
    induction es with
    | nil => intro s; simp
    | cons e es ih => intro s; simp [seqStep, ih]
  unfold newSeqFromParts
  simp [h]

theorem closedList_parts (t : Term) (h : t.closedList = true) :
    t.listParts = (t.listValue (fun _ => [])).map .item := by
  induction t using list_induction with
  | list es => rfl
  | concat ts ih =>
    simp only [Term.closedList] at h
    simp only [Term.listParts, Term.listValue]
    induction ts with
    | nil => rfl
    | cons x xs ihx =>
      simp only [closedLists, Bool.and_eq_true] at h
      simp only [listPartsAll, listValues, List.map_append]
      rw [ih x (by simp) h.1, ihx (fun y hy => ih y (by simp [hy])) h.2]
  | other t ht => rw [closedList_other ht] at h; cases h

theorem closedTuple_parts (t : Term) (h : t.closedTuple = true) :
    t.tupleParts = (t.tupleValue (fun _ => [])).map .item := by
  induction t using tuple_induction with
  | tuple es => rfl
  | concat ts ih =>
    simp only [Term.closedTuple] at h
    simp only [Term.tupleParts, Term.tupleValue]
    induction ts with
    | nil => rfl
    | cons x xs ihx =>
      simp only [closedTuples, Bool.and_eq_true] at h
      simp only [tuplePartsAll, tupleValues, List.map_append]
      rw [ih x (by simp) h.1, ihx (fun y hy => ih y (by simp [hy])) h.2]
  | other t ht => rw [closedTuple_other ht] at h; cases h

/-! ## Properties -/

/-- C08 (lists): a list built from items and spliced lists denotes, for every meaning of the
spliced open terms, the concatenation of the items and of what the splices denote, in order. -/
theorem C08_new_list_denotes_concatenation (ρ : Term → List Term) (parts : List SeqPart) :
    (newListFromParts parts).listValue ρ = parts.flatMap (SeqPart.listValue ρ) := by
  unfold newListFromParts
  rw [newSeq_value Term.list Term.listConcat (Term.listValue ρ) (fun _ => rfl)
    (fun ts => by simp [Term.listValue, listValues_eq])]
  rw [List.flatMap_assoc]
  congr 1
  funext p
  cases p with
  | item t => rfl
  | splice t => exact listParts_value ρ t

/-- C08 (tuples). -/
theorem C08_new_tuple_denotes_concatenation (ρ : Term → List Term) (parts : List SeqPart) :
    (newTupleFromParts parts).tupleValue ρ = parts.flatMap (SeqPart.tupleValue ρ) := by
  unfold newTupleFromParts
  rw [newSeq_value Term.tuple Term.tupleConcat (Term.tupleValue ρ) (fun _ => rfl)
    (fun ts => by simp [Term.tupleValue, tupleValues_eq])]
  rw [List.flatMap_assoc]
  congr 1
  funext p
  cases p with
  | item t => rfl
  | splice t => exact tupleParts_value ρ t

/-- C08 (closed results are plain): if every splice is a closed list (tuple), the result is the
plain list (tuple) of all elements. -/
theorem C08_closed_results_are_plain (parts : List SeqPart) :
    ((∀ t, SeqPart.splice t ∈ parts → t.closedList = true) →
      newListFromParts parts = .list (parts.flatMap (SeqPart.listValue (fun _ => [])))) ∧
    ((∀ t, SeqPart.splice t ∈ parts → t.closedTuple = true) →
      newTupleFromParts parts = .tuple (parts.flatMap (SeqPart.tupleValue (fun _ => [])))) := by
  constructor
  · intro h
    have : parts.flatMap SeqPart.listExpand
        = (parts.flatMap (SeqPart.listValue (fun _ => []))).map .item := by
      induction parts with
      | nil => rfl
      | cons p ps ih =>
        simp only [List.flatMap_cons, List.map_append]
        rw [ih (fun t ht => h t (by simp [ht]))]
        congr 1
        cases p with
        | item t => rfl
        | splice t => exact closedList_parts t (h t (by simp))
    unfold newListFromParts
    rw [this, newSeq_items]
  · intro h
    have : parts.flatMap SeqPart.tupleExpand
        = (parts.flatMap (SeqPart.tupleValue (fun _ => []))).map .item := by
      induction parts with
      | nil => rfl
      | cons p ps ih =>
        simp only [List.flatMap_cons, List.map_append]
        rw [ih (fun t ht => h t (by simp [ht]))]
        congr 1
        cases p with
        | item t => rfl
        | splice t => exact closedTuple_parts t (h t (by simp))
    unfold newTupleFromParts
    rw [this, newSeq_items]

/-- C08 (iterators): the iterators over the parts (explicit stacks in the source) return, for one
spliced term, items and splices of open terms only, that denote what the term denotes. -/
theorem C08_iterators_flatten (ρ : Term → List Term) (t : Term) :
    (drainList [.splice t]).flatMap (SeqPart.listValue ρ) = t.listValue ρ ∧
    (∀ u, SeqPart.splice u ∈ drainList [.splice t] →
      (∀ es, u ≠ .list es) ∧ (∀ es, u ≠ .listConcat es)) ∧
    (drainTuple [.splice t]).flatMap (SeqPart.tupleValue ρ) = t.tupleValue ρ ∧
    (∀ u, SeqPart.splice u ∈ drainTuple [.splice t] →
      (∀ es, u ≠ .tuple es) ∧ (∀ es, u ≠ .tupleConcat es)) := by
  have e1 : drainList [.splice t] = t.listParts := by
    rw [drainList_eq]; simp [SeqPart.listExpand]
  have e2 : drainTuple [.splice t] = t.tupleParts := by
    rw [drainTuple_eq]; simp [SeqPart.tupleExpand]
  rw [e1, e2]
  refine ⟨listParts_value ρ t, ?_, tupleParts_value ρ t, ?_⟩
  · intro u hu
    have := listParts_open t _ hu
    constructor <;> (rintro es rfl; cases this)
  · intro u hu
    have := tupleParts_open t _ hu
    constructor <;> (rintro es rfl; cases this)

/-- C08 (rebuilding): decomposing a term that was built from parts and rebuilding it returns the
same term, and the parts are the flattened parts it was built from. -/
theorem C08_decompose_rebuild (parts : List SeqPart) :
    drainList [.splice (newListFromParts parts)] = drainList parts ∧
    newListFromParts (drainList [.splice (newListFromParts parts)]) = newListFromParts parts ∧
    drainTuple [.splice (newTupleFromParts parts)] = drainTuple parts ∧
    newTupleFromParts (drainTuple [.splice (newTupleFromParts parts)])
      = newTupleFromParts parts := by
  have e1 : drainList [.splice (newListFromParts parts)] = parts.flatMap SeqPart.listExpand := by
    rw [drainList_eq]; simp [SeqPart.listExpand, listParts_newList]
  have e2 : drainTuple [.splice (newTupleFromParts parts)]
      = parts.flatMap SeqPart.tupleExpand := by
    rw [drainTuple_eq]; simp [SeqPart.tupleExpand, tupleParts_newTuple]
  rw [e1, e2, drainList_eq, drainTuple_eq]
  refine ⟨rfl, ?_, rfl, ?_⟩
  · unfold newListFromParts; rw [listExpand_idem]
  · unfold newTupleFromParts; rw [tupleExpand_idem]

/-! ### Non-vacuity -/

/-- A list made of items, a literal splice, a nested concatenation and a variable. -/
def exampleParts : List SeqPart :=
  [.item (.string "a"), .splice (.listConcat [.list [.string "b"], .list []]),
   .splice (.variable 0 (.listType .stringType)), .item (.string "c")]

example : newListFromParts exampleParts = .listConcat
    [.list [.string "a", .string "b"], .variable 0 (.listType .stringType),
     .list [.string "c"]] := by decide
example : (newListFromParts exampleParts).listValue (fun _ => [.string "x", .string "y"])
    = [.string "a", .string "b", .string "x", .string "y", .string "c"] := by decide
example : newListFromParts (exampleParts.take 2) = .list [.string "a", .string "b"] := by decide

end Verif.Types
