import Verif.Types.ExportSpec
import Verif.Types.PartsProps
/-
Lemmas about export to and import from the exchange format.
-/
namespace Verif.Types

/-! ## Names -/

theorem importName_of {C : Ident.Classes} (hd : C.word '.' = false) {e i : String}
    (h : GoodName C e i) : importName C (e ++ "." ++ i) = some (e, i) := by
  obtain ⟨⟨cs, hcs⟩, hi, _⟩ := h
  have hl : (e ++ "." ++ i).toList = e.toList ++ '.' :: i.toList := by simp
  have hp : Ident.IsPath C (cs ++ [i.toList]) (e ++ "." ++ i).toList := by
    obtain ⟨h1, h2, h3⟩ := hcs
    refine ⟨by simp, ?_, ?_⟩
    · intro c hc
      rcases List.mem_append.1 hc with hc | hc
      · exact h2 c hc
      · simp at hc; subst hc; exact hi
    · rw [Ident.joinDots_snoc _ _ h1, hl, h3]
  have hn : Ident.IdentList.new C (e ++ "." ++ i).toList = some (e ++ "." ++ i).toList :=
    (Ident.C41_new_iff C _ _).2 ⟨rfl, _, hp⟩
  have hs : Ident.IdentList.splitLast (e ++ "." ++ i).toList = some (e.toList, i.toList) := by
    rw [hl]; exact Ident.rsplit_append _ _ (Ident.ident_no_dot hd hi)
  unfold importName
  rw [hn]; simp only []; rw [hs]; simp

/-- A good name is not the name of a built-in constructor. -/
theorem goodName_ne {C : Ident.Classes} (hd : C.word '.' = false) {e i : String}
    (h : GoodName C e i) (x : String) (hx : '.' ∉ x.toList) : e ++ "." ++ i ≠ "core." ++ x := by
  intro he
  have hl : e.toList ++ '.' :: i.toList = "core".toList ++ '.' :: x.toList := by
    have := congrArg String.toList he
    simpa using this
  have h1 := Ident.rsplit_append e.toList i.toList (Ident.ident_no_dot hd h.2.1)
  have h2 := Ident.rsplit_append "core".toList x.toList hx
  rw [hl, h2] at h1
  have : "core".toList = e.toList := by
    have := Option.some.inj h1
    exact (Prod.mk.inj this).1
  exact h.2.2 (String.ext this).symm

/-! ## How deep uses of variables are nested -/

mutual
/-- How many declarations of variables have to be imported one inside the other. -/
def Term.nesting : Term → Nat
  | .listType t => t.nesting
  | .tupleType t => t.nesting
  | .runtime t => t.nesting
  | .constType t => t.nesting
  | .list ts => nestingTerms ts
  | .listConcat ts => nestingTerms ts
  | .tuple ts => nestingTerms ts
  | .tupleConcat ts => nestingTerms ts
  | .variable _ d => d.nesting + 1
  | _ => 0
def nestingTerms : List Term → Nat
  | [] => 0
  | t :: ts => max t.nesting (nestingTerms ts)
def Ty.nesting : Ty → Nat
  | .ext _ _ args _ => nestingTerms args
  | .function i o => max (nestingRow i) (nestingRow o)
  | .variable _ _ => 1
  | .sumGen rows _ => nestingRows rows
  | _ => 0
def RTy.nesting : RTy → Nat
  | .ty t => t.nesting
  | .rowVar _ _ => 0
def nestingRow : List RTy → Nat
  | [] => 0
  | t :: ts => max t.nesting (nestingRow ts)
def nestingRows : List (List RTy) → Nat
  | [] => 0
  | r :: rs => max (nestingRow r) (nestingRows rs)
end

/-! ## Concatenations -/

theorem concat_back {ts : List Term} (h : ∃ parts, Term.listConcat ts = newListFromParts parts) :
    newListFromParts (ts.map .splice) = .listConcat ts := by
  obtain ⟨parts, hp⟩ := h
  have h1 : (ts.map SeqPart.splice).flatMap SeqPart.listExpand = (Term.listConcat ts).listParts := by
    simp only [Term.listParts, listPartsAll_eq]
    induction ts with
    | nil => rfl
    | cons t ts ih => simp [SeqPart.listExpand, List.flatMap_map]
  rw [hp]
  conv => lhs; unfold newListFromParts
  rw [h1, hp, listParts_newList]
  rfl

theorem tupleConcat_back {ts : List Term}
    (h : ∃ parts, Term.tupleConcat ts = newTupleFromParts parts) :
    newTupleFromParts (ts.map .splice) = .tupleConcat ts := by
  obtain ⟨parts, hp⟩ := h
  have h1 : (ts.map SeqPart.splice).flatMap SeqPart.tupleExpand
      = (Term.tupleConcat ts).tupleParts := by
    simp only [Term.tupleParts, tuplePartsAll_eq]
    induction ts with
    | nil => rfl
    | cons t ts ih => simp [SeqPart.tupleExpand, List.flatMap_map]
  rw [hp]
  conv => lhs; unfold newTupleFromParts
  rw [h1, hp, tupleParts_newTuple]
  rfl

theorem foldl_items (mk : List Term → Term) (ts acc : List Term) :
    (ts.map SeqPart.item).foldl (seqStep mk) (acc, []) = (acc ++ ts, []) := by
  induction ts generalizing acc with
  | nil => simp
  | cons t ts ih => simp [seqStep, ih]

theorem list_back (ts : List Term) : newListFromParts (ts.map .item) = .list ts := by
  have h1 : (ts.map SeqPart.item).flatMap SeqPart.listExpand = ts.map .item := by
    induction ts with
    | nil => rfl
    | cons t ts ih => simp only [List.map_cons, List.flatMap_cons, ih]; rfl
  unfold newListFromParts newSeqFromParts
  rw [h1, foldl_items]; simp

theorem tuple_back (ts : List Term) : newTupleFromParts (ts.map .item) = .tuple ts := by
  have h1 : (ts.map SeqPart.item).flatMap SeqPart.tupleExpand = ts.map .item := by
    induction ts with
    | nil => rfl
    | cons t ts ih => simp only [List.map_cons, List.flatMap_cons, ih]; rfl
  unfold newTupleFromParts newSeqFromParts
  rw [h1, foldl_items]; simp

theorem newVarUse_of {i : Nat} {d : Term} (h : d.isRuntimeType = false) :
    Term.newVarUse i d = .variable i d := by
  cases d <;> simp_all [Term.newVarUse, Term.isRuntimeType]

theorem checkDecl_get {Γ : List Term} {i : Nat} {d : Term} (h : checkDecl Γ i d = true) :
    Γ[i]? = some d := by
  unfold checkDecl at h
  cases hg : Γ[i]? with
  | none => rw [hg] at h; simp at h
  | some a => rw [hg] at h; simp at h; rw [h]

end Verif.Types
