import Verif.Text.LiteralLemmas

/-!
# Lemmas: reading printed terms
-/
namespace Verif.Text

/-! ## Rules that fail on the first character -/

theorem termWildcard_ne {c : Char} (h : c ≠ '_') (s : List Char) : termWildcard (c :: s) = none := by
  unfold termWildcard
  split
  · next e => exact absurd (List.cons.inj e).1 h
  · rfl

theorem termVar_ne {c : Char} (h : c ≠ '?') (s : List Char) : termVar (c :: s) = none := by
  unfold termVar
  split
  · next e => exact absurd (List.cons.inj e).1 h
  · rfl

theorem termList_ne {c : Char} (h : c ≠ '[') (f : Nat) (s : List Char) :
    termList f (c :: s) = none := by
  cases f with
  | zero => rw [termList]
  | succ f =>
    rw [termList]
    simp only [show "[".toList = ['['] from rfl, lit_cons_ne [] s h]

theorem literalString_ne {c : Char} (h : c ≠ '"') (s : List Char) :
    literalString (c :: s) = none := by
  unfold literalString
  split
  · next e => exact absurd (List.cons.inj e).1 h
  · rfl

theorem literalFloat_ne {c : Char} (h : isDigit c = false) (h1 : c ≠ '+') (h2 : c ≠ '-')
    (s : List Char) : literalFloat (c :: s) = none := by
  have : optSign (c :: s) = c :: s := by simp [optSign, h1, h2]
  simp only [literalFloat, this, digits_none h]

theorem literalNat_ne {c : Char} (h : isDigit c = false) (s : List Char) :
    literalNat (c :: s) = none := by
  simp [literalNat, digits_none h]

theorem literalBytes_ne {c : Char} (h : c ≠ '(') (s : List Char) : literalBytes (c :: s) = none := by
  simp only [literalBytes, show "(".toList = ['('] from rfl, lit_cons_ne [] s h]

theorem termTuple_ne {c : Char} (h : c ≠ '(') (f : Nat) (s : List Char) :
    termTuple f (c :: s) = none := by
  cases f with
  | zero => rw [termTuple]
  | succ f =>
    rw [termTuple]
    simp only [show "(".toList = ['('] from rfl, lit_cons_ne [] s h]

theorem termConstFunc_ne {c : Char} (h : c ≠ '(') (f : Nat) (s : List Char) :
    termConstFunc f (c :: s) = none := by
  cases f with
  | zero => rw [termConstFunc]
  | succ f =>
    rw [termConstFunc]
    simp only [show "(".toList = ['('] from rfl, lit_cons_ne [] s h]

theorem termApply_ne {c : Char} (h : c ≠ '(') (hi : isInitial c = false) (f : Nat) (s : List Char) :
    termApply f (c :: s) = none := by
  cases f with
  | zero => rw [termApply]
  | succ f =>
    rw [termApply]
    simp only [symbolName_none hi, show "(".toList = ['('] from rfl, lit_cons_ne [] s h]

theorem literal_ne {c : Char} (h : isDigit c = false) (h1 : c ≠ '+') (h2 : c ≠ '-') (h3 : c ≠ '"')
    (h4 : c ≠ '(') (s : List Char) : literal (c :: s) = none := by
  simp [literal, literalString_ne h3, literalFloat_ne h h1 h2, literalNat_ne h, literalBytes_ne h4]

/-- No term starts with a closing delimiter or a dot. -/
theorem term_close {k : Char} (hk : k = ')' ∨ k = ']' ∨ k = '.') (f : Nat) (w : List Char) :
    term f (k :: w) = none := by
  cases f with
  | zero => rw [term]
  | succ f =>
    rw [term]
    rcases hk with rfl | rfl | rfl <;>
      rw [termWildcard_ne (by decide), termVar_ne (by decide), termList_ne (by decide),
        literal_ne (by decide) (by decide) (by decide) (by decide) (by decide),
        termTuple_ne (by decide), termConstFunc_ne (by decide), termApply_ne (by decide) (by decide)] <;>
      rfl

theorem part_close {k : Char} (hk : k = ')' ∨ k = ']' ∨ k = '.') (f : Nat) (w : List Char) :
    part f (k :: w) = none := by
  cases f with
  | zero => rw [part]
  | succ f =>
    rw [part]
    simp [term_close hk]

theorem close_solid {k : Char} (hk : k = ')' ∨ k = ']' ∨ k = '.') : isSpace k = false ∧ k ≠ ';' := by
  rcases hk with rfl | rfl | rfl <;> decide

theorem moreTerms_close {k : Char} (hk : k = ')' ∨ k = ']' ∨ k = '.') (f : Nat) (w : List Char) :
    moreTerms f (k :: w) = (.nil, k :: w) := by
  cases f with
  | zero => rw [moreTerms]
  | succ f =>
    rw [moreTerms]
    rw [skip_fix (close_solid hk).1 (close_solid hk).2, term_close hk]

theorem moreParts_close {k : Char} (hk : k = ')' ∨ k = ']' ∨ k = '.') (f : Nat) (w : List Char) :
    moreParts f (k :: w) = (.nil, k :: w) := by
  cases f with
  | zero => rw [moreParts]
  | succ f =>
    rw [moreParts]
    rw [skip_fix (close_solid hk).1 (close_solid hk).2, part_close hk]

theorem terms_eq {s : List Char} (h : skip s = s) (f : Nat) : terms f s = moreTerms f s := by
  cases f with
  | zero => rw [terms, moreTerms]
  | succ f => rw [terms, moreTerms, h]

theorem parts_eq {s : List Char} (h : skip s = s) (f : Nat) : parts f s = moreParts f s := by
  cases f with
  | zero => rw [parts, moreParts]
  | succ f => rw [parts, moreParts, h]

/-! ## Layouts -/

theorem rendersAll_cons {d : Doc} {ds : List Doc} {s : List Char} (h : RendersAll (d :: ds) s) :
    ∃ s1 lead s2, s = s1 ++ (lead ++ s2) ∧ Renders d s1 ∧ RendersAll ds s2 ∧
      (ds = [] ∧ lead = [] ∧ s2 = [] ∨ Sep lead ∧ ds ≠ []) := by
  cases h with
  | one h => exact ⟨s, [], [], by simp, h, .nil, Or.inl ⟨rfl, rfl, rfl⟩⟩
  | cons h1 hw h2 => exact ⟨_, _, _, rfl, h1, h2, Or.inr ⟨hw, by simp⟩⟩

theorem renders_text {x s : List Char} (h : Renders (.text x) s) : s = x := by
  cases h; rfl

theorem renders_group {o c : List Char} {ds : List Doc} {s : List Char}
    (h : Renders (.group o c ds) s) : ∃ b, RendersAll ds b ∧ s = o ++ b ++ c := by
  cases h with
  | group h => exact ⟨_, h, rfl⟩

theorem rendersAll_nil {s : List Char} (h : RendersAll [] s) : s = [] := by
  cases h; rfl

/-! ## Flat terms -/

mutual
/-- No list is spliced into a list and no tuple into a tuple. -/
def Term.IsFlat : Term → Prop
  | .wildcard => True
  | .var _ => True
  | .apply _ ts => ts.IsFlat
  | .list ps => ps.IsFlatList
  | .literal _ => True
  | .tuple ps => ps.IsFlatTuple

def Terms.IsFlat : Terms → Prop
  | .nil => True
  | .cons t ts => t.IsFlat ∧ ts.IsFlat

def Parts.IsFlatList : Parts → Prop
  | .nil => True
  | .item t ps => t.IsFlat ∧ ps.IsFlatList
  | .splice t ps => (∀ qs, t ≠ .list qs) ∧ t.IsFlat ∧ ps.IsFlatList

def Parts.IsFlatTuple : Parts → Prop
  | .nil => True
  | .item t ps => t.IsFlat ∧ ps.IsFlatTuple
  | .splice t ps => (∀ qs, t ≠ .tuple qs) ∧ t.IsFlat ∧ ps.IsFlatTuple
end

/-- All parts of the sequence are flat. -/
def Parts.AllFlat : Parts → Prop
  | .nil => True
  | .item t ps => t.IsFlat ∧ ps.AllFlat
  | .splice t ps => t.IsFlat ∧ ps.AllFlat

theorem allFlat_list {ps : Parts} (h : ps.IsFlatList) : ps.AllFlat := by
  match ps with
  | .nil => trivial
  | .item t ps =>
    simp only [Parts.IsFlatList] at h
    exact ⟨h.1, allFlat_list h.2⟩
  | .splice t ps =>
    simp only [Parts.IsFlatList] at h
    exact ⟨h.2.1, allFlat_list h.2.2⟩

theorem allFlat_tuple {ps : Parts} (h : ps.IsFlatTuple) : ps.AllFlat := by
  match ps with
  | .nil => trivial
  | .item t ps =>
    simp only [Parts.IsFlatTuple] at h
    exact ⟨h.1, allFlat_tuple h.2⟩
  | .splice t ps =>
    simp only [Parts.IsFlatTuple] at h
    exact ⟨h.2.1, allFlat_tuple h.2.2⟩

/-- Printing parts one by one. -/
def plainParts : Parts → List Doc
  | .nil => []
  | .item t ps => printTerm t :: plainParts ps
  | .splice t ps => .group [] [] [printTerm t, .text "...".toList] :: plainParts ps

theorem plain_list {ps : Parts} (h : ps.IsFlatList) : printListParts ps = plainParts ps := by
  match ps with
  | .nil => rw [printListParts, plainParts]
  | .item t ps =>
    simp only [Parts.IsFlatList] at h
    rw [printListParts, plainParts, plain_list h.2]
  | .splice t ps =>
    simp only [Parts.IsFlatList] at h
    cases t with
    | list qs => exact absurd rfl (h.1 qs)
    | _ => simp only [printListParts, plainParts, plain_list h.2.2]

theorem plain_tuple {ps : Parts} (h : ps.IsFlatTuple) : printTupleParts ps = plainParts ps := by
  match ps with
  | .nil => rw [printTupleParts, plainParts]
  | .item t ps =>
    simp only [Parts.IsFlatTuple] at h
    rw [printTupleParts, plainParts, plain_tuple h.2]
  | .splice t ps =>
    simp only [Parts.IsFlatTuple] at h
    cases t with
    | tuple qs => exact absurd rfl (h.1 qs)
    | _ => simp only [printTupleParts, plainParts, plain_tuple h.2.2]

/-! ## Flattening does not change what is printed -/

theorem printList_append (ps qs : Parts) :
    printListParts (ps.append qs) = printListParts ps ++ printListParts qs := by
  match ps with
  | .nil => simp [Parts.append, printListParts]
  | .item t ps => simp [Parts.append, printListParts, printList_append ps qs]
  | .splice t ps =>
    cases t <;> simp [Parts.append, printListParts, printList_append ps qs]

theorem printTuple_append (ps qs : Parts) :
    printTupleParts (ps.append qs) = printTupleParts ps ++ printTupleParts qs := by
  match ps with
  | .nil => simp [Parts.append, printTupleParts]
  | .item t ps => simp [Parts.append, printTupleParts, printTuple_append ps qs]
  | .splice t ps =>
    cases t <;> simp [Parts.append, printTupleParts, printTuple_append ps qs]

theorem isFlatList_append {ps qs : Parts} (h1 : ps.IsFlatList) (h2 : qs.IsFlatList) :
    (ps.append qs).IsFlatList := by
  match ps with
  | .nil => exact h2
  | .item t ps =>
    simp only [Parts.append, Parts.IsFlatList] at h1 ⊢
    exact ⟨h1.1, isFlatList_append h1.2 h2⟩
  | .splice t ps =>
    simp only [Parts.append, Parts.IsFlatList] at h1 ⊢
    exact ⟨h1.1, h1.2.1, isFlatList_append h1.2.2 h2⟩

theorem isFlatTuple_append {ps qs : Parts} (h1 : ps.IsFlatTuple) (h2 : qs.IsFlatTuple) :
    (ps.append qs).IsFlatTuple := by
  match ps with
  | .nil => exact h2
  | .item t ps =>
    simp only [Parts.append, Parts.IsFlatTuple] at h1 ⊢
    exact ⟨h1.1, isFlatTuple_append h1.2 h2⟩
  | .splice t ps =>
    simp only [Parts.append, Parts.IsFlatTuple] at h1 ⊢
    exact ⟨h1.1, h1.2.1, isFlatTuple_append h1.2.2 h2⟩

theorem ok_append {ps qs : Parts} (h1 : ps.Ok) (h2 : qs.Ok) : (ps.append qs).Ok := by
  match ps with
  | .nil => exact h2
  | .item t ps =>
    simp only [Parts.append, Parts.Ok] at h1 ⊢
    exact ⟨h1.1, ok_append h1.2 h2⟩
  | .splice t ps =>
    simp only [Parts.append, Parts.Ok] at h1 ⊢
    exact ⟨h1.1, ok_append h1.2 h2⟩

mutual
theorem print_flat (t : Term) : printTerm t.flat = printTerm t := by
  match t with
  | .wildcard => rw [Term.flat]
  | .var x => rw [Term.flat]
  | .apply x .nil => rw [Term.flat, Terms.flat]
  | .apply x (.cons t ts) =>
    rw [Term.flat, Terms.flat, printTerm, printTerm, print_flat t, print_flats ts]
  | .list ps => rw [Term.flat, printTerm, printTerm, printList_flat ps]
  | .literal l => rw [Term.flat]
  | .tuple ps => rw [Term.flat, printTerm, printTerm, printTuple_flat ps]

theorem print_flats (ts : Terms) : printTerms ts.flat = printTerms ts := by
  match ts with
  | .nil => rw [Terms.flat]
  | .cons t ts => rw [Terms.flat, printTerms, printTerms, print_flat t, print_flats ts]

theorem printList_flat (ps : Parts) : printListParts ps.flatList = printListParts ps := by
  match ps with
  | .nil => rw [Parts.flatList]
  | .item t ps => rw [Parts.flatList, printListParts, printListParts, print_flat t, printList_flat ps]
  | .splice .wildcard ps =>
    have := printList_flat ps
    simp [Parts.flatList, printListParts, Term.flat, this]
  | .splice (.var x) ps =>
    have := printList_flat ps
    simp [Parts.flatList, printListParts, Term.flat, this]
  | .splice (.literal x) ps =>
    have := printList_flat ps
    simp [Parts.flatList, printListParts, Term.flat, this]
  | .splice (.apply x ts) ps =>
    have := printList_flat ps
    have h := print_flat (.apply x ts)
    rw [Term.flat] at h
    simp [Parts.flatList, printListParts, Term.flat, this, h]
  | .splice (.tuple qs) ps =>
    have := printList_flat ps
    have h := print_flat (.tuple qs)
    rw [Term.flat] at h
    simp [Parts.flatList, printListParts, Term.flat, this, h]
  | .splice (.list qs) ps =>
    rw [Parts.flatList, printListParts, printList_append, printList_flat qs, printList_flat ps]

theorem printTuple_flat (ps : Parts) : printTupleParts ps.flatTuple = printTupleParts ps := by
  match ps with
  | .nil => rw [Parts.flatTuple]
  | .item t ps =>
    rw [Parts.flatTuple, printTupleParts, printTupleParts, print_flat t, printTuple_flat ps]
  | .splice .wildcard ps =>
    have := printTuple_flat ps
    simp [Parts.flatTuple, printTupleParts, Term.flat, this]
  | .splice (.var x) ps =>
    have := printTuple_flat ps
    simp [Parts.flatTuple, printTupleParts, Term.flat, this]
  | .splice (.literal x) ps =>
    have := printTuple_flat ps
    simp [Parts.flatTuple, printTupleParts, Term.flat, this]
  | .splice (.apply x ts) ps =>
    have := printTuple_flat ps
    have h := print_flat (.apply x ts)
    rw [Term.flat] at h
    simp [Parts.flatTuple, printTupleParts, Term.flat, this, h]
  | .splice (.list qs) ps =>
    have := printTuple_flat ps
    have h := print_flat (.list qs)
    rw [Term.flat] at h
    simp [Parts.flatTuple, printTupleParts, Term.flat, this, h]
  | .splice (.tuple qs) ps =>
    rw [Parts.flatTuple, printTupleParts, printTuple_append, printTuple_flat qs, printTuple_flat ps]
end

mutual
theorem flat_isFlat (t : Term) : t.flat.IsFlat := by
  match t with
  | .wildcard => simp [Term.flat, Term.IsFlat]
  | .var x => simp [Term.flat, Term.IsFlat]
  | .apply x ts => simpa [Term.flat, Term.IsFlat] using flats_isFlat ts
  | .list ps => simpa [Term.flat, Term.IsFlat] using flatList_isFlat ps
  | .literal l => simp [Term.flat, Term.IsFlat]
  | .tuple ps => simpa [Term.flat, Term.IsFlat] using flatTuple_isFlat ps

theorem flats_isFlat (ts : Terms) : ts.flat.IsFlat := by
  match ts with
  | .nil => simp [Terms.flat, Terms.IsFlat]
  | .cons t ts => simpa [Terms.flat, Terms.IsFlat] using ⟨flat_isFlat t, flats_isFlat ts⟩

theorem flatList_isFlat (ps : Parts) : ps.flatList.IsFlatList := by
  match ps with
  | .nil => simp [Parts.flatList, Parts.IsFlatList]
  | .item t ps => simpa [Parts.flatList, Parts.IsFlatList] using ⟨flat_isFlat t, flatList_isFlat ps⟩
  | .splice .wildcard ps =>
    simpa [Parts.flatList, Parts.IsFlatList, Term.flat, Term.IsFlat] using flatList_isFlat ps
  | .splice (.var x) ps =>
    simpa [Parts.flatList, Parts.IsFlatList, Term.flat, Term.IsFlat] using flatList_isFlat ps
  | .splice (.literal x) ps =>
    simpa [Parts.flatList, Parts.IsFlatList, Term.flat, Term.IsFlat] using flatList_isFlat ps
  | .splice (.apply x ts) ps =>
    simpa [Parts.flatList, Parts.IsFlatList, Term.flat, Term.IsFlat] using
      ⟨flats_isFlat ts, flatList_isFlat ps⟩
  | .splice (.tuple qs) ps =>
    simpa [Parts.flatList, Parts.IsFlatList, Term.flat, Term.IsFlat] using
      ⟨flatTuple_isFlat qs, flatList_isFlat ps⟩
  | .splice (.list qs) ps =>
    rw [Parts.flatList]
    exact isFlatList_append (flatList_isFlat qs) (flatList_isFlat ps)

theorem flatTuple_isFlat (ps : Parts) : ps.flatTuple.IsFlatTuple := by
  match ps with
  | .nil => simp [Parts.flatTuple, Parts.IsFlatTuple]
  | .item t ps =>
    simpa [Parts.flatTuple, Parts.IsFlatTuple] using ⟨flat_isFlat t, flatTuple_isFlat ps⟩
  | .splice .wildcard ps =>
    simpa [Parts.flatTuple, Parts.IsFlatTuple, Term.flat, Term.IsFlat] using flatTuple_isFlat ps
  | .splice (.var x) ps =>
    simpa [Parts.flatTuple, Parts.IsFlatTuple, Term.flat, Term.IsFlat] using flatTuple_isFlat ps
  | .splice (.literal x) ps =>
    simpa [Parts.flatTuple, Parts.IsFlatTuple, Term.flat, Term.IsFlat] using flatTuple_isFlat ps
  | .splice (.apply x ts) ps =>
    simpa [Parts.flatTuple, Parts.IsFlatTuple, Term.flat, Term.IsFlat] using
      ⟨flats_isFlat ts, flatTuple_isFlat ps⟩
  | .splice (.list qs) ps =>
    simpa [Parts.flatTuple, Parts.IsFlatTuple, Term.flat, Term.IsFlat] using
      ⟨flatList_isFlat qs, flatTuple_isFlat ps⟩
  | .splice (.tuple qs) ps =>
    rw [Parts.flatTuple]
    exact isFlatTuple_append (flatTuple_isFlat qs) (flatTuple_isFlat ps)
end

mutual
theorem flat_ok (t : Term) (h : t.Ok) : t.flat.Ok := by
  match t with
  | .wildcard => simp [Term.flat, Term.Ok]
  | .var x => simpa [Term.flat, Term.Ok] using h
  | .apply x .nil => simpa [Term.flat, Terms.flat, Term.Ok] using h
  | .apply x (.cons t ts) =>
    simp only [Term.Ok] at h
    simp only [Term.flat, Terms.flat, Term.Ok]
    refine ⟨h.1, h.2.1, fun e => ?_, flat_ok t h.2.2.2.1, flats_ok ts h.2.2.2.2⟩
    have := h.2.2.1 e
    cases ts with
    | nil => exact absurd rfl this
    | cons u us => simp [Terms.flat]
  | .list ps => simpa [Term.flat, Term.Ok] using flatList_ok ps (by simpa [Term.Ok] using h)
  | .literal l => simpa [Term.flat, Term.Ok] using h
  | .tuple ps => simpa [Term.flat, Term.Ok] using flatTuple_ok ps (by simpa [Term.Ok] using h)

theorem flats_ok (ts : Terms) (h : ts.Ok) : ts.flat.Ok := by
  match ts with
  | .nil => simp [Terms.flat, Terms.Ok]
  | .cons t ts =>
    simp only [Terms.Ok] at h
    simpa [Terms.flat, Terms.Ok] using ⟨flat_ok t h.1, flats_ok ts h.2⟩

theorem flatList_ok (ps : Parts) (h : ps.Ok) : ps.flatList.Ok := by
  match ps with
  | .nil => simp [Parts.flatList, Parts.Ok]
  | .item t ps =>
    simp only [Parts.Ok] at h
    simpa [Parts.flatList, Parts.Ok] using ⟨flat_ok t h.1, flatList_ok ps h.2⟩
  | .splice .wildcard ps =>
    simp only [Parts.Ok] at h
    simpa [Parts.flatList, Parts.Ok] using ⟨flat_ok _ h.1, flatList_ok ps h.2⟩
  | .splice (.var x) ps =>
    simp only [Parts.Ok] at h
    simpa [Parts.flatList, Parts.Ok] using ⟨flat_ok _ h.1, flatList_ok ps h.2⟩
  | .splice (.literal x) ps =>
    simp only [Parts.Ok] at h
    simpa [Parts.flatList, Parts.Ok] using ⟨flat_ok _ h.1, flatList_ok ps h.2⟩
  | .splice (.apply x ts) ps =>
    simp only [Parts.Ok] at h
    simpa [Parts.flatList, Parts.Ok] using ⟨flat_ok _ h.1, flatList_ok ps h.2⟩
  | .splice (.tuple qs) ps =>
    simp only [Parts.Ok] at h
    simpa [Parts.flatList, Parts.Ok] using ⟨flat_ok _ h.1, flatList_ok ps h.2⟩
  | .splice (.list qs) ps =>
    simp only [Parts.Ok, Term.Ok] at h
    rw [Parts.flatList]
    exact ok_append (flatList_ok qs h.1) (flatList_ok ps h.2)

theorem flatTuple_ok (ps : Parts) (h : ps.Ok) : ps.flatTuple.Ok := by
  match ps with
  | .nil => simp [Parts.flatTuple, Parts.Ok]
  | .item t ps =>
    simp only [Parts.Ok] at h
    simpa [Parts.flatTuple, Parts.Ok] using ⟨flat_ok t h.1, flatTuple_ok ps h.2⟩
  | .splice .wildcard ps =>
    simp only [Parts.Ok] at h
    simpa [Parts.flatTuple, Parts.Ok] using ⟨flat_ok _ h.1, flatTuple_ok ps h.2⟩
  | .splice (.var x) ps =>
    simp only [Parts.Ok] at h
    simpa [Parts.flatTuple, Parts.Ok] using ⟨flat_ok _ h.1, flatTuple_ok ps h.2⟩
  | .splice (.literal x) ps =>
    simp only [Parts.Ok] at h
    simpa [Parts.flatTuple, Parts.Ok] using ⟨flat_ok _ h.1, flatTuple_ok ps h.2⟩
  | .splice (.apply x ts) ps =>
    simp only [Parts.Ok] at h
    simpa [Parts.flatTuple, Parts.Ok] using ⟨flat_ok _ h.1, flatTuple_ok ps h.2⟩
  | .splice (.list qs) ps =>
    simp only [Parts.Ok] at h
    simpa [Parts.flatTuple, Parts.Ok] using ⟨flat_ok _ h.1, flatTuple_ok ps h.2⟩
  | .splice (.tuple qs) ps =>
    simp only [Parts.Ok, Term.Ok] at h
    rw [Parts.flatTuple]
    exact ok_append (flatTuple_ok qs h.1) (flatTuple_ok ps h.2)
end

end Verif.Text
