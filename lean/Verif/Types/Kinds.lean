import Verif.Types.Parts
/-
C07: kind checking respects the subtype relation of kinds.
Also: the tuple case of `checkTerm` is the loop of the source.
-/
namespace Verif.Types

/-! ## The tuple case is the loop of the source -/

/-- The loop over the zipped parts and the final length comparison of `check_term_type`,
hugr-core/src/types/type_param.rs:663-693, literally: `ps` are the parts of the tuple still to be
checked, `qs` the remaining parts of its type.  The final comparison of the total lengths is a
comparison of the remaining lengths, since both lists were advanced together. -/
def tupleLoop : List SeqPart → List SeqPart → Bool
  | .item t :: ps, .item ty :: qs => if checkTerm t ty then tupleLoop ps qs else false
  | _ :: _, .splice _ :: _ => true
  | .splice _ :: _, _ :: _ => true
  | [], [] => true
  | [], _ :: _ => false
  | _ :: _, [] => false

/-- `tupleLoop` on a prefix of the parts of the tuple. -/
def tuplePrefix : List SeqPart → List SeqPart → TupleCheck
  | [], qs => .rest qs
  | .item t :: ps, .item ty :: qs => if checkTerm t ty then tuplePrefix ps qs else .fail
  | .item _ :: _, .splice _ :: _ => .done
  | .splice _ :: _, _ :: _ => .done
  | _ :: _, [] => .fail

theorem tuplePrefix_append (a b qs : List SeqPart) :
    tuplePrefix (a ++ b) qs = match tuplePrefix a qs with
      | .fail => .fail
      | .done => .done
      | .rest qs' => tuplePrefix b qs' := by
  induction a generalizing qs with
  | nil => simp [tuplePrefix]
  | cons p ps ih =>
    cases p with
    | item t =>
      cases qs with
      | nil => simp [tuplePrefix]
      | cons q qs =>
        cases q with
        | item ty =>
          simp only [List.cons_append, tuplePrefix]
          split
          · exact ih qs
          · rfl
        | splice ty => simp [tuplePrefix]
    | splice t => cases qs <;> simp [tuplePrefix]

theorem tuplePrefix_items (es : List Term) (qs : List SeqPart) :
    checkTupleItems es qs = tuplePrefix (es.map .item) qs := by
  induction es generalizing qs with
  | nil => simp [checkTupleItems, tuplePrefix]
  | cons e es ih =>
    cases qs with
    | nil => simp [checkTupleItems, tuplePrefix]
    | cons q qs => cases q <;> simp [checkTupleItems, tuplePrefix, ih]

theorem checkTupleSplice_other {t : Term} (h : t.isTupleLit = false) (qs : List SeqPart) :
    checkTupleSplice t qs = tuplePrefix [.splice t] qs := by
  cases t <;> first | (cases h; done) | (cases qs <;> simp [checkTupleSplice, tuplePrefix])

theorem tuplePrefix_splice (t : Term) (qs : List SeqPart) :
    checkTupleSplice t qs = tuplePrefix t.tupleParts qs := by
  induction t using tuple_induction generalizing qs with
  | tuple es => simp only [checkTupleSplice, Term.tupleParts, tuplePrefix_items]
  | concat ts ih =>
    simp only [checkTupleSplice, Term.tupleParts]
    induction ts generalizing qs with
    | nil => simp [checkTupleSplices, tuplePartsAll, tuplePrefix]
    | cons x xs ihx =>
      simp only [checkTupleSplices, tuplePartsAll]
      rw [tuplePrefix_append, ih x (by simp)]
      cases tuplePrefix x.tupleParts qs with
      | fail => rfl
      | done => rfl
      | rest qs' => exact ihx (fun y hy => ih y (by simp [hy])) qs'
  | other t h => rw [checkTupleSplice_other h, tupleParts_other h]

theorem tupleLoop_prefix (ps qs : List SeqPart) :
    tupleLoop ps qs = (tuplePrefix ps qs == .rest [] || tuplePrefix ps qs == .done) := by
  induction ps generalizing qs with
  | nil => cases qs <;> simp [tupleLoop, tuplePrefix]
  | cons p ps ih =>
    cases qs with
    | nil => cases p <;> simp [tupleLoop, tuplePrefix]
    | cons q qs =>
      cases p <;> cases q <;> simp only [tupleLoop, tuplePrefix]
      · split
        · exact ih qs
        · rfl
      all_goals rfl

/-- The tuple case of `checkTerm` is the source's loop over the two part iterators. -/
theorem checkTerm_tuple_loop (t items : Term) (h : t.isTupleLit = true) :
    checkTerm t (.tupleType items)
      = tupleLoop (drainTuple [.splice t]) (drainList [.splice items]) := by
  have e1 : drainTuple [.splice t] = t.tupleParts := by
    rw [drainTuple_eq]; simp [SeqPart.tupleExpand]
  have e2 : drainList [.splice items] = items.listParts := by
    rw [drainList_eq]; simp [SeqPart.listExpand]
  rw [e1, e2, tupleLoop_prefix, ← tuplePrefix_splice]
  cases t <;> first | (cases h; done) | simp [checkTerm, checkTupleSplice]

/-! ## Transitivity of the supertype relation -/

theorem contains_trans {a b c : Bound} (h1 : a.contains b = true) (h2 : b.contains c = true) :
    a.contains c = true := by
  cases a <;> cases b <;> cases c <;> simp_all [Bound.contains]

theorem ubContains_trans {a b c : Option Nat} (h1 : ubContains a b = true)
    (h2 : ubContains b c = true) : ubContains a c = true := by
  cases a <;> cases b <;> cases c <;> simp_all [ubContains]
  omega

theorem isSupertypes_trans {as : List Term}
    (h : ∀ a ∈ as, ∀ b c : Term, a.isSupertype b = true → b.isSupertype c = true →
      a.isSupertype c = true) :
    ∀ bs cs, isSupertypes as bs = true → isSupertypes bs cs = true → isSupertypes as cs = true := by
  induction as with
  | nil => intro bs cs h1 h2; cases bs <;> cases cs <;> simp_all [isSupertypes]
  | cons a as ih =>
    intro bs cs h1 h2
    cases bs with
    | nil => simp [isSupertypes] at h1
    | cons b bs =>
      cases cs with
      | nil => simp [isSupertypes] at h2
      | cons c cs =>
        simp only [isSupertypes, Bool.and_eq_true] at h1 h2 ⊢
        exact ⟨h a (by simp) b c h1.1 h2.1,
          ih (fun x hx => h x (by simp [hx])) bs cs h1.2 h2.2⟩

theorem isSupertype_trans (a b c : Term) (h1 : a.isSupertype b = true)
    (h2 : b.isSupertype c = true) : a.isSupertype c = true := by
  revert b c
  refine (syntax_induction (P := fun a => ∀ b c : Term, a.isSupertype b = true →
    b.isSupertype c = true → a.isSupertype c = true) (Q := fun _ => True) (R := fun _ => True)
    ?_ ?_ ?_ ?_ ?_ ?_ ?_ ?_ ?_ ?_ ?_ ?_ ?_ ?_ ?_ ?_ ?_ ?_ ?_ ?_ ?_ ?_ ?_ ?_ ?_ ?_ ?_).1 a
  case refine_1 =>
    intro x b c h1 h2
    cases b <;> simp [Term.isSupertype] at h1
    cases c <;> simp [Term.isSupertype] at h2
    simpa [Term.isSupertype] using contains_trans h1 h2
  case refine_3 =>
    intro x b c h1 h2
    cases b <;> simp [Term.isSupertype] at h1
    cases c <;> simp [Term.isSupertype] at h2
    simpa [Term.isSupertype] using ubContains_trans h1 h2
  case refine_7 =>
    intro x ih b c h1 h2
    cases b <;> simp [Term.isSupertype] at h1
    cases c <;> simp [Term.isSupertype] at h2
    simpa [Term.isSupertype] using ih _ _ h1 h2
  case refine_8 =>
    intro x ih b c h1 h2
    cases b <;> simp [Term.isSupertype] at h1
    cases c <;> simp [Term.isSupertype] at h2
    simpa [Term.isSupertype] using ih _ _ h1 h2
  case refine_14 =>
    intro ts ih b c h1 h2
    cases b <;> simp [Term.isSupertype] at h1
    cases c <;> simp [Term.isSupertype] at h2
    simpa [Term.isSupertype] using isSupertypes_trans ih _ _ h1 h2
  case refine_16 =>
    intro ts ih b c h1 h2
    cases b <;> simp [Term.isSupertype] at h1
    cases c <;> simp [Term.isSupertype] at h2
    simpa [Term.isSupertype] using isSupertypes_trans ih _ _ h1 h2
  case refine_18 =>
    intro i d _ b c h1 h2
    cases b <;> simp [Term.isSupertype] at h1
    cases c <;> simp [Term.isSupertype] at h2
    obtain ⟨rfl, rfl⟩ := h1
    obtain ⟨rfl, rfl⟩ := h2
    simp [Term.isSupertype]
  all_goals first
    | (intros; trivial)
    | (intros
       rename_i b c h1 h2
       cases b <;> simp [Term.isSupertype] at h1
       cases c <;> simp [Term.isSupertype] at h2
       simp_all [Term.isSupertype])

/-! ## Monotonicity of checking -/

/-- Parts of one type above the parts of another, position by position. -/
inductive SupParts : List SeqPart → List SeqPart → Prop
  | nil : SupParts [] []
  | item {a b : Term} {as bs : List SeqPart} : a.isSupertype b = true → SupParts as bs →
      SupParts (.item a :: as) (.item b :: bs)
  | splice {a b : Term} {as bs : List SeqPart} : SupParts as bs →
      SupParts (.splice a :: as) (.splice b :: bs)

/-- Outcome on the larger type given the outcome on the smaller one. -/
def TupleCheck.le : TupleCheck → TupleCheck → Prop
  | .fail, _ => True
  | .done, x => x = .done
  | .rest qs, x => ∃ qs', x = .rest qs' ∧ SupParts qs' qs

theorem supParts_listParts {a b : Term} (h : a.isSupertype b = true) :
    SupParts a.listParts b.listParts := by
  by_cases ha : a.isListLit = true
  · cases a <;> first | (cases ha; done) | skip
    · rename_i es
      cases b <;> simp [Term.isSupertype] at h
      rename_i es'
      simp only [Term.listParts]
      clear ha
      induction es generalizing es' with
      | nil => cases es' <;> simp [isSupertypes] at h; exact .nil
      | cons e es ih =>
        cases es' with
        | nil => simp [isSupertypes] at h
        | cons e' es' =>
          simp only [isSupertypes, Bool.and_eq_true] at h
          exact .item h.1 (ih _ h.2)
    · simp [Term.isSupertype] at h
  · simp only [Bool.not_eq_true] at ha
    have hb : b.isListLit = false := by
      cases a <;> cases b <;> first | rfl | (cases ha; done) | (simp [Term.isSupertype] at h)
    rw [listParts_other ha, listParts_other hb]
    exact .splice .nil

theorem checkTupleItems_mono {es : List Term}
    (h : ∀ e ∈ es, ∀ k k' : Term, k'.isSupertype k = true → checkTerm e k = true →
      checkTerm e k' = true) :
    ∀ qs qs', SupParts qs' qs → (checkTupleItems es qs).le (checkTupleItems es qs') := by
  induction es with
  | nil => intro qs qs' hq; exact ⟨qs', by simp [checkTupleItems], hq⟩
  | cons e es ih =>
    intro qs qs' hq
    cases hq with
    | nil => simp [checkTupleItems, TupleCheck.le]
    | item hab hrest =>
      simp only [checkTupleItems]
      split
      · next hc =>
        rw [if_pos (h e (by simp) _ _ hab hc)]
        exact ih (fun x hx => h x (by simp [hx])) _ _ hrest
      · trivial
    | splice hrest => simp [checkTupleItems, TupleCheck.le]

theorem checkTupleSplices_mono {ts : List Term}
    (h : ∀ t ∈ ts, ∀ qs qs', SupParts qs' qs →
      (checkTupleSplice t qs).le (checkTupleSplice t qs')) :
    ∀ qs qs', SupParts qs' qs → (checkTupleSplices ts qs).le (checkTupleSplices ts qs') := by
  induction ts with
  | nil => intro qs qs' hq; exact ⟨qs', by simp [checkTupleSplices], hq⟩
  | cons t ts ih =>
    intro qs qs' hq
    simp only [checkTupleSplices]
    have h1 := h t (by simp) qs qs' hq
    cases hc : checkTupleSplice t qs with
    | fail => trivial
    | done => rw [hc] at h1; rw [show checkTupleSplice t qs' = .done from h1]; rfl
    | rest r =>
      rw [hc] at h1
      obtain ⟨r', hr', hs⟩ := h1
      rw [hr']
      exact ih (fun x hx => h x (by simp [hx])) _ _ hs

theorem tupleCheck_result {a b : TupleCheck} (h : a.le b)
    (ha : (a == .rest [] || a == .done) = true) : (b == .rest [] || b == .done) = true := by
  cases a with
  | fail => simp at ha
  | done => simp [show b = .done from h]
  | rest r =>
    have : r = [] := by simpa using ha
    subst this
    obtain ⟨r', hr', hs⟩ := h
    cases hs
    simp [hr']

theorem ubValid_mono {u u' : Option Nat} {n : Nat} (h : ubContains u' u = true)
    (hv : ubValid u n = true) : ubValid u' n = true := by
  cases u <;> cases u' <;> simp_all [ubContains, ubValid]
  omega

theorem rowVarFits_mono {t k k' : Term} (h : k'.isSupertype k = true)
    (hv : rowVarFits t k = true) : rowVarFits t k' = true := by
  cases t <;> simp [rowVarFits] at hv
  cases k <;> simp [rowVarFits] at hv
  cases k' <;> simp [Term.isSupertype] at h
  rename_i d b b'
  simp only [rowVarFits]
  split at hv
  · next hb => exact contains_trans h hv
  · cases hv

theorem check_mono :
    (∀ t : Term, (∀ k k' : Term, k'.isSupertype k = true → checkTerm t k = true →
      checkTerm t k' = true) ∧
      (∀ qs qs', SupParts qs' qs → (checkTupleSplice t qs).le (checkTupleSplice t qs'))) := by
  have splice_other : ∀ t : Term, t.isTupleLit = false → ∀ qs qs', SupParts qs' qs →
      (checkTupleSplice t qs).le (checkTupleSplice t qs') := by
    intro t ht qs qs' hq
    rw [checkTupleSplice_other ht, checkTupleSplice_other ht]
    cases hq <;> simp [tuplePrefix, TupleCheck.le]
  refine (syntax_induction (P := fun t => (∀ k k' : Term, k'.isSupertype k = true →
      checkTerm t k = true → checkTerm t k' = true) ∧
      (∀ qs qs', SupParts qs' qs → (checkTupleSplice t qs).le (checkTupleSplice t qs')))
    (Q := fun _ => True) (R := fun _ => True)
    ?_ ?_ ?_ ?_ ?_ ?_ ?_ ?_ ?_ ?_ ?_ ?_ ?_ ?_ ?_ ?_ ?_ ?_ ?_ ?_ ?_ ?_ ?_ ?_ ?_ ?_ ?_).1
  case refine_9 =>
    intro t _
    refine ⟨?_, splice_other _ rfl⟩
    intro k k' h hc
    cases k <;> simp [checkTerm] at hc
    cases k' <;> simp [Term.isSupertype] at h
    simpa [checkTerm] using contains_trans h hc
  case refine_10 =>
    intro n
    refine ⟨?_, splice_other _ rfl⟩
    intro k k' h hc
    cases k <;> simp [checkTerm] at hc
    cases k' <;> simp [Term.isSupertype] at h
    simpa [checkTerm] using ubValid_mono h hc
  case refine_14 =>
    intro es ih
    refine ⟨?_, splice_other _ rfl⟩
    intro k k' h hc
    cases k <;> simp [checkTerm] at hc
    cases k' <;> simp [Term.isSupertype] at h
    rename_i k k'
    simp only [checkTerm]
    induction es with
    | nil => rfl
    | cons e es ihe =>
      simp only [checkItems, Bool.and_eq_true, Bool.or_eq_true] at hc ⊢
      refine ⟨?_, ihe (fun x hx => ih x (by simp [hx])) hc.2⟩
      rcases hc.1 with h1 | h1
      · exact .inl (rowVarFits_mono h h1)
      · exact .inr ((ih e (by simp)).1 _ _ h h1)
  case refine_15 =>
    intro es ih
    refine ⟨?_, splice_other _ rfl⟩
    intro k k' h hc
    cases k <;> simp [checkTerm] at hc
    cases k' <;> simp [Term.isSupertype] at h
    rename_i k k'
    simp only [checkTerm]
    induction es with
    | nil => rfl
    | cons e es ihe =>
      simp only [checkLists, Bool.and_eq_true] at hc ⊢
      exact ⟨(ih e (by simp)).1 _ _ h hc.1, ihe (fun x hx => ih x (by simp [hx])) hc.2⟩
  case refine_16 =>
    intro es ih
    have hm := checkTupleItems_mono (es := es) (fun e he => (ih e he).1)
    refine ⟨?_, fun qs qs' hq => by simpa [checkTupleSplice] using hm qs qs' hq⟩
    intro k k' h hc
    cases k with
    | tupleType k =>
      cases k' <;> simp [Term.isSupertype] at h
      simp only [checkTerm] at hc ⊢
      exact tupleCheck_result (hm _ _ (supParts_listParts h)) hc
    | _ => simp [checkTerm] at hc
  case refine_17 =>
    intro ts ih
    have hm := checkTupleSplices_mono (ts := ts) (fun e he => (ih e he).2)
    refine ⟨?_, fun qs qs' hq => by simpa [checkTupleSplice] using hm qs qs' hq⟩
    intro k k' h hc
    cases k with
    | tupleType k =>
      cases k' <;> simp [Term.isSupertype] at h
      simp only [checkTerm] at hc ⊢
      exact tupleCheck_result (hm _ _ (supParts_listParts h)) hc
    | _ => simp [checkTerm] at hc
  case refine_18 =>
    intro i d _
    refine ⟨?_, splice_other _ rfl⟩
    intro k k' h hc
    simp only [checkTerm] at hc ⊢
    exact isSupertype_trans _ _ _ h hc
  all_goals first
    | (intros; trivial)
    | (intros
       refine ⟨?_, splice_other _ rfl⟩
       intro k k' h hc
       cases k <;> simp [checkTerm] at hc
       cases k' <;> simp [Term.isSupertype] at h
       simp [checkTerm])

/-! ## Properties -/

/-- Kinds built without concatenation terms and constant types: the fragment on which the code's
supertype relation is reflexive. -/
def Term.concatFree : Term → Bool
  | .listType t => t.concatFree
  | .tupleType t => t.concatFree
  | .list es => concatFreeAll es
  | .tuple es => concatFreeAll es
  | .listConcat _ => false
  | .tupleConcat _ => false
  | .constType _ => false
  | _ => true
where
  concatFreeAll : List Term → Bool
    | [] => true
    | t :: ts => t.concatFree && concatFreeAll ts

/-- C07 (transitivity): the supertype relation on kinds is transitive. -/
theorem C07_supertype_transitive (a b c : Term) (h1 : a.isSupertype b = true)
    (h2 : b.isSupertype c = true) : a.isSupertype c = true :=
  isSupertype_trans a b c h1 h2

/-- C07 (subsumption): an argument accepted for a kind is accepted for every superkind of it. -/
theorem C07_check_monotone (t k k' : Term) (hsup : k'.isSupertype k = true)
    (h : checkTerm t k = true) : checkTerm t k' = true :=
  (check_mono t).1 k k' hsup h

/-- C07 (argument lists): the same for whole argument lists. -/
theorem C07_check_terms_monotone (ts ks ks' : List Term) (hsup : isSupertypes ks' ks = true)
    (h : checkTerms ts ks = true) : checkTerms ts ks' = true := by
  induction ts generalizing ks ks' with
  | nil => cases ks <;> cases ks' <;> simp_all [checkTerms, isSupertypes]
  | cons t ts ih =>
    cases ks with
    | nil => simp [checkTerms] at h
    | cons k ks =>
      cases ks' with
      | nil => simp [isSupertypes] at hsup
      | cons k' ks' =>
        simp only [checkTerms, isSupertypes, Bool.and_eq_true] at h hsup ⊢
        exact ⟨C07_check_monotone t k k' hsup.1 h.1, ih ks ks' hsup.2 h.2⟩

/-- C07 (reflexivity, partial): every kind without concatenations and constant types is a
supertype of itself.  Missing: kinds containing them, see `C07_supertype_reflexive_refuted`. -/
theorem C07_supertype_reflexive_partial (t : Term) (h : t.concatFree = true) :
    t.isSupertype t = true := by
  revert h
  refine (syntax_induction (P := fun t => t.concatFree = true → t.isSupertype t = true)
    (Q := fun _ => True) (R := fun _ => True)
    ?_ ?_ ?_ ?_ ?_ ?_ ?_ ?_ ?_ ?_ ?_ ?_ ?_ ?_ ?_ ?_ ?_ ?_ ?_ ?_ ?_ ?_ ?_ ?_ ?_ ?_ ?_).1 t
  case refine_1 => intro b _; cases b <;> rfl
  case refine_3 => intro u _; cases u <;> simp [Term.isSupertype, ubContains]
  case refine_7 => intro t ih h; simpa [Term.isSupertype] using ih (by simpa [Term.concatFree] using h)
  case refine_8 => intro t ih h; simpa [Term.isSupertype] using ih (by simpa [Term.concatFree] using h)
  case refine_14 =>
    intro es ih h
    simp only [Term.concatFree] at h
    simp only [Term.isSupertype]
    induction es with
    | nil => rfl
    | cons e es ihe =>
      simp only [Term.concatFree.concatFreeAll, Bool.and_eq_true] at h
      simp only [isSupertypes, Bool.and_eq_true]
      exact ⟨ih e (by simp) h.1, ihe (fun x hx => ih x (by simp [hx])) h.2⟩
  case refine_16 =>
    intro es ih h
    simp only [Term.concatFree] at h
    simp only [Term.isSupertype]
    induction es with
    | nil => rfl
    | cons e es ihe =>
      simp only [Term.concatFree.concatFreeAll, Bool.and_eq_true] at h
      simp only [isSupertypes, Bool.and_eq_true]
      exact ⟨ih e (by simp) h.1, ihe (fun x hx => ih x (by simp [hx])) h.2⟩
  all_goals (intros; first | trivial | simp_all [Term.isSupertype, Term.concatFree])

/-- C07 (finding): the documented reflexivity of the supertype relation ("it is reflexive so that
every term ... is considered a subtype of itself") fails for constant types and for tuple types
given by a concatenation; a variable of such a kind is rejected for its own kind. -/
theorem C07_supertype_reflexive_refuted :
    ∃ k : Term, k.isSupertype k = false ∧ checkTerm (.variable 0 k) k = false ∧
      checkTerm k .staticType = true :=
  ⟨.constType (.sumUnit 2), by decide, by decide, by decide⟩

/-! ### Non-vacuity -/

example : (Term.listType (.tupleType (.list [.runtimeType .linear, .boundedNatType none]))).isSupertype
    (.listType (.tupleType (.list [.runtimeType .copyable, .boundedNatType (some 7)]))) = true := by
  decide
example : checkTerm (.list [.tuple [.runtime (.sumUnit 2), .boundedNat 3]])
    (.listType (.tupleType (.list [.runtimeType .copyable, .boundedNatType (some 7)]))) = true := by
  decide
example : checkTerm (.list [.tuple [.runtime (.sumUnit 2), .boundedNat 7]])
    (.listType (.tupleType (.list [.runtimeType .copyable, .boundedNatType (some 7)]))) = false := by
  decide

end Verif.Types
