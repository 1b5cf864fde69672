import Verif.Text.ModuleProps

/-!
# The fuel for nodes is enough
-/
namespace Verif.Text

/-- What is left is not longer. -/
def Shrinks {α : Type} (p : Parser α) : Prop := ∀ s x r, p s = some (x, r) → r.length ≤ s.length

/-- The parsers do the same up to a length. -/
def Agree {α : Type} (p q : Parser α) (n : Nat) : Prop := ∀ s, s.length ≤ n → p s = q s

theorem lit_shrink {k s r : List Char} (h : lit k s = some r) : r.length ≤ s.length := by
  have := lit_len h; omega

theorem term_shrinks : Shrinks parseTermTree :=
  fun s t r h => Nat.le_of_lt (C34_progress s r t h)

theorem more_shrink {α : Type} {p : Parser α} (hp : Shrinks p) (f : Nat) : ∀ s : List Char,
    (more p f s).2.length ≤ s.length := by
  induction f with
  | zero => intro s; rw [more]; exact Nat.le_refl _
  | succ f ih =>
    intro s
    rw [more]
    cases h : p (skip s) with
    | none => exact Nat.le_refl _
    | some q =>
      obtain ⟨x, r⟩ := q
      have h1 := hp _ _ _ h
      have h2 := skip_le s
      have h3 := ih r
      simp only []
      omega

theorem many_shrink {α : Type} {p : Parser α} (hp : Shrinks p) (s : List Char) :
    (many p s).2.length ≤ s.length := by
  rw [many]
  cases h : p s with
  | none => exact Nat.le_refl _
  | some q =>
    obtain ⟨x, r⟩ := q
    have h1 := hp _ _ _ h
    have h3 := more_shrink hp r.length r
    simp only []
    omega

theorem optional_shrink {α : Type} {p : Parser α} (hp : Shrinks p) (s : List Char) :
    (optional p s).2.length ≤ s.length := by
  rw [optional]
  cases h : p s with
  | none => exact Nat.le_refl _
  | some q =>
    obtain ⟨x, r⟩ := q
    exact hp _ _ _ h

theorem more_agree {α : Type} {p q : Parser α} {n : Nat} (h : Agree p q n) (hp : Shrinks p) (f : Nat) :
    ∀ s : List Char, s.length ≤ n → more p f s = more q f s := by
  induction f with
  | zero => intro s _; rw [more, more]
  | succ f ih =>
    intro s hs
    have h2 := skip_le s
    rw [more, more, ← h (skip s) (by omega)]
    cases h' : p (skip s) with
    | none => rfl
    | some q =>
      obtain ⟨x, r⟩ := q
      have h1 := hp _ _ _ h'
      simp only [ih r (by omega)]

theorem many_agree {α : Type} {p q : Parser α} {n : Nat} (h : Agree p q n) (hp : Shrinks p)
    {s : List Char} (hs : s.length ≤ n) : many p s = many q s := by
  rw [many, many, ← h s hs]
  cases h' : p s with
  | none => rfl
  | some q =>
    obtain ⟨x, r⟩ := q
    have h1 := hp _ _ _ h'
    simp only [more_agree h hp r.length r (by omega)]

theorem link_shrinks : Shrinks linkName := by
  intro s x r h
  unfold linkName at h
  split at h
  · obtain ⟨_, rfl⟩ := Prod.mk.inj (Option.some.inj h)
    have := dropWhile_le isRest ‹List Char›
    simp only [List.length_cons]
    omega
  · cases h

theorem portList_shrinks : Shrinks portList := by
  intro s x r h
  unfold portList at h
  cases h1 : lit "[".toList s with
  | none => rw [h1] at h; cases h
  | some r1 =>
    simp only [h1] at h
    have l1 := lit_shrink h1
    have l2 := skip_le r1
    have l3 := many_shrink link_shrinks (skip r1)
    have l4 := skip_le (many linkName (skip r1)).2
    cases h2 : lit "]".toList (skip (many linkName (skip r1)).2) with
    | none => rw [h2] at h; cases h
    | some r3 =>
      rw [h2] at h
      have l5 := lit_shrink h2
      obtain ⟨_, rfl⟩ := Prod.mk.inj (Option.some.inj h)
      omega

theorem portLists_shrinks : Shrinks portLists := by
  intro s x r h
  unfold portLists at h
  cases h1 : portList s with
  | none => rw [h1] at h; cases h
  | some q =>
    obtain ⟨xs, r1⟩ := q
    simp only [h1] at h
    have l1 := portList_shrinks _ _ _ h1
    have l2 := skip_le r1
    cases h2 : portList (skip r1) with
    | none => rw [h2] at h; cases h
    | some q =>
      obtain ⟨ys, r2⟩ := q
      rw [h2] at h
      have l5 := portList_shrinks _ _ _ h2
      obtain ⟨_, rfl⟩ := Prod.mk.inj (Option.some.inj h)
      omega

theorem wrapped_shrinks (k : List Char) : Shrinks (wrapped k) := by
  intro s x r h
  unfold wrapped at h
  cases h1 : lit "(".toList s with
  | none => simp only [h1] at h; cases h
  | some r1 =>
    simp only [h1] at h
    have l1 := lit_shrink h1
    have l1' := skip_le r1
    cases h2 : lit k (skip r1) with
    | none => simp only [h2] at h; cases h
    | some r2 =>
      simp only [h2] at h
      have l2 := lit_shrink h2
      have l2' := skip_le r2
      cases h3 : parseTermTree (skip r2) with
      | none => simp only [h3] at h; cases h
      | some q =>
        obtain ⟨t, r3⟩ := q
        simp only [h3] at h
        have l3 := term_shrinks _ _ _ h3
        have l3' := skip_le r3
        cases h4 : lit ")".toList (skip r3) with
        | none => simp only [h4] at h; cases h
        | some r4 =>
          simp only [h4] at h
          have l4 := lit_shrink h4
          obtain ⟨_, rfl⟩ := Prod.mk.inj (Option.some.inj h)
          omega

/-- The intermediate lengths of `tail`. -/
theorem tail_parts {α : Type} (item : Parser α) (s : List Char) :
    (skip (many (wrapped "meta".toList) (skip (optional (wrapped "signature".toList)
      (skip (optional portLists s).2)).2)).2).length ≤ s.length := by
  have l1 := optional_shrink portLists_shrinks s
  have l2 := skip_le (optional portLists s).2
  have l3 := optional_shrink (wrapped_shrinks "signature".toList) (skip (optional portLists s).2)
  have l4 := skip_le (optional (wrapped "signature".toList) (skip (optional portLists s).2)).2
  have l5 := many_shrink (wrapped_shrinks "meta".toList)
    (skip (optional (wrapped "signature".toList) (skip (optional portLists s).2)).2)
  have l6 := skip_le (many (wrapped "meta".toList) (skip (optional (wrapped "signature".toList)
      (skip (optional portLists s).2)).2)).2
  omega

theorem tail_agree {α : Type} {p q : Parser α} {n : Nat} (h : Agree p q n) (hp : Shrinks p)
    {s : List Char} (hs : s.length ≤ n) : tail p s = tail q s := by
  have l := tail_parts p s
  simp only [tail]
  rw [many_agree h hp (by omega)]

theorem tail_shrinks {α : Type} {p : Parser α} (hp : Shrinks p) : Shrinks (tail p) := by
  intro s x r h
  have l := tail_parts p s
  simp only [tail] at h
  have l1 := many_shrink hp (skip (many (wrapped "meta".toList) (skip (optional (wrapped "signature".toList)
      (skip (optional portLists s).2)).2)).2)
  have l2 := skip_le (many p (skip (many (wrapped "meta".toList) (skip (optional (wrapped "signature".toList)
      (skip (optional portLists s).2)).2)).2)).2
  cases h4 : lit ")".toList (skip (many p (skip (many (wrapped "meta".toList) (skip (optional
      (wrapped "signature".toList) (skip (optional portLists s).2)).2)).2)).2) with
  | none => rw [h4] at h; cases h
  | some r4 =>
    rw [h4] at h
    have l4 := lit_shrink h4
    obtain ⟨_, rfl⟩ := Prod.mk.inj (Option.some.inj h)
    omega

theorem nodeKeyword_agree {p q : Parser RegionTree} {n : Nat} (h : Agree p q n) (hp : Shrinks p)
    (k : List Char) (op : OpTree) {s : List Char} (hs : s.length ≤ n + 1) :
    nodeKeyword p k op s = nodeKeyword q k op s := by
  simp only [nodeKeyword]
  cases h1 : lit "(".toList s with
  | none => rfl
  | some r1 =>
    have l1 := lit_len h1
    have l1' := skip_le r1
    simp only []
    cases h2 : lit k (skip r1) with
    | none => rfl
    | some r2 =>
      have l2 := lit_shrink h2
      have l2' := skip_le r2
      simp only []
      rw [tail_agree h hp (by simp at l1; omega)]

theorem nodeKeyword_shrinks {p : Parser RegionTree} (hp : Shrinks p) (k : List Char) (op : OpTree) :
    Shrinks (nodeKeyword p k op) := by
  intro s x r h
  unfold nodeKeyword at h
  cases h1 : lit "(".toList s with
  | none => simp only [h1] at h; cases h
  | some r1 =>
    simp only [h1] at h
    have l1 := lit_shrink h1
    have l1' := skip_le r1
    cases h2 : lit k (skip r1) with
    | none => simp only [h2] at h; cases h
    | some r2 =>
      simp only [h2] at h
      have l2 := lit_shrink h2
      have l2' := skip_le r2
      cases h3 : tail p (skip r2) with
      | none => simp only [h3] at h; cases h
      | some q =>
        obtain ⟨t, r3⟩ := q
        simp only [h3] at h
        have l3 := tail_shrinks hp _ _ _ h3
        obtain ⟨_, rfl⟩ := Prod.mk.inj (Option.some.inj h)
        omega

theorem nodeCustom_shrinks {p : Parser RegionTree} (hp : Shrinks p) : Shrinks (nodeCustom p) := by
  intro s x r h
  unfold nodeCustom at h
  cases h1 : lit "(".toList s with
  | none => simp only [h1] at h; cases h
  | some r1 =>
    simp only [h1] at h
    have l1 := lit_shrink h1
    have l1' := skip_le r1
    cases h2 : parseTermTree (skip r1) with
    | none => simp only [h2] at h; cases h
    | some q =>
      obtain ⟨t, r2⟩ := q
      simp only [h2] at h
      have l2 := term_shrinks _ _ _ h2
      have l2' := skip_le r2
      cases h3 : tail p (skip r2) with
      | none => simp only [h3] at h; cases h
      | some q =>
        obtain ⟨t, r3⟩ := q
        simp only [h3] at h
        have l3 := tail_shrinks hp _ _ _ h3
        obtain ⟨_, rfl⟩ := Prod.mk.inj (Option.some.inj h)
        omega

theorem nodeCustom_agree {p q : Parser RegionTree} {n : Nat} (h : Agree p q n) (hp : Shrinks p)
    {s : List Char} (hs : s.length ≤ n + 1) : nodeCustom p s = nodeCustom q s := by
  simp only [nodeCustom]
  cases h1 : lit "(".toList s with
  | none => rfl
  | some r1 =>
    have l1 := lit_len h1
    have l1' := skip_le r1
    simp only []
    cases h2 : parseTermTree (skip r1) with
    | none => rfl
    | some q =>
      obtain ⟨t, r2⟩ := q
      have l2 := term_shrinks _ _ _ h2
      have l2' := skip_le r2
      simp only []
      rw [tail_agree h hp (by simp at l1; omega)]

theorem param_shrinks : Shrinks param := by
  intro s x r h
  unfold param at h
  cases h1 : lit "(".toList s with
  | none => simp only [h1] at h; cases h
  | some r1 =>
    simp only [h1] at h
    have l1 := lit_shrink h1
    have l1' := skip_le r1
    cases h2 : lit "param".toList (skip r1) with
    | none => simp only [h2] at h; cases h
    | some r2 =>
      simp only [h2] at h
      have l2 := lit_shrink h2
      have l2' := skip_le r2
      cases h3 : varName (skip r2) with
      | none => simp only [h3] at h; cases h
      | some q =>
        obtain ⟨v, r3⟩ := q
        simp only [h3] at h
        have l3 : r3.length ≤ (skip r2).length := by
          unfold varName at h3
          split at h3
          · next s' e =>
            split at h3
            · cases h3
            · next h5 =>
              obtain ⟨_, rfl⟩ := Prod.mk.inj (Option.some.inj h3)
              have := identifier_lt h5
              have := skip_le s'
              rw [e]; simp; omega
          · cases h3
        have l3' := skip_le r3
        cases h4 : parseTermTree (skip r3) with
        | none => simp only [h4] at h; cases h
        | some q =>
          obtain ⟨t, r4⟩ := q
          simp only [h4] at h
          have l4 := term_shrinks _ _ _ h4
          have l4' := skip_le r4
          cases h5 : lit ")".toList (skip r4) with
          | none => simp only [h5] at h; cases h
          | some r5 =>
            simp only [h5] at h
            have l5 := lit_shrink h5
            obtain ⟨_, rfl⟩ := Prod.mk.inj (Option.some.inj h)
            omega

theorem visibility_shrinks : Shrinks visibility := by
  intro s x r h
  unfold visibility at h
  cases h1 : lit "public".toList s with
  | some r1 =>
    simp only [h1] at h
    obtain ⟨_, rfl⟩ := Prod.mk.inj (Option.some.inj h)
    exact lit_shrink h1
  | none =>
    simp only [h1] at h
    cases h2 : lit "private".toList s with
    | some r1 =>
      simp only [h2] at h
      obtain ⟨_, rfl⟩ := Prod.mk.inj (Option.some.inj h)
      exact lit_shrink h2
    | none => simp only [h2] at h; cases h

theorem symbol_shrinks : Shrinks symbol := by
  intro s x r h
  unfold symbol at h
  have l1 := optional_shrink visibility_shrinks s
  generalize optional visibility s = p1 at h l1
  obtain ⟨v, r1⟩ := p1
  simp only [] at h l1
  have l1' := skip_le r1
  cases h2 : symbolName (skip r1) with
  | none => simp only [h2] at h; cases h
  | some q =>
    obtain ⟨n, r2⟩ := q
    simp only [h2] at h
    have l2 := symbolName_lt h2
    have l2' := skip_le r2
    have l3 := many_shrink param_shrinks (skip r2)
    generalize many param (skip r2) = p3 at h l3
    obtain ⟨ps, r3⟩ := p3
    simp only [] at h l3
    have l3' := skip_le r3
    have l4 := many_shrink (wrapped_shrinks "where".toList) (skip r3)
    generalize many (wrapped "where".toList) (skip r3) = p4 at h l4
    obtain ⟨cs, r4⟩ := p4
    simp only [] at h l4
    have l4' := skip_le r4
    cases h5 : parseTermTree (skip r4) with
    | none => simp only [h5] at h; cases h
    | some q =>
      obtain ⟨t, r5⟩ := q
      simp only [h5] at h
      have l5 := term_shrinks _ _ _ h5
      obtain ⟨_, rfl⟩ := Prod.mk.inj (Option.some.inj h)
      omega

theorem nodeSymbol_shrinks (k : List Char) {s r : List Char} {x : SymbolTree}
    (h : nodeSymbol k s = some (x, r)) : r.length + 1 ≤ s.length := by
  unfold nodeSymbol at h
  cases h1 : lit "(".toList s with
  | none => simp only [h1] at h; cases h
  | some r1 =>
    simp only [h1] at h
    have l1 := lit_len h1
    have l1' := skip_le r1
    cases h2 : lit k (skip r1) with
    | none => simp only [h2] at h; cases h
    | some r2 =>
      simp only [h2] at h
      have l2 := lit_shrink h2
      have l2' := skip_le r2
      have l3 := symbol_shrinks _ _ _ h
      simp at l1
      omega

theorem metasEnd_shrinks : Shrinks metasEnd := by
  intro s x r h
  unfold metasEnd at h
  have l1 := many_shrink (wrapped_shrinks "meta".toList) s
  generalize many (wrapped "meta".toList) s = p1 at h l1
  obtain ⟨ms, r1⟩ := p1
  simp only [] at h l1
  have l1' := skip_le r1
  cases h5 : lit ")".toList (skip r1) with
  | none => simp only [h5] at h; cases h
  | some r5 =>
    simp only [h5] at h
    have l5 := lit_shrink h5
    obtain ⟨_, rfl⟩ := Prod.mk.inj (Option.some.inj h)
    omega

theorem nodeDeclare_shrinks (k : List Char) (op : SymbolTree → OpTree) : Shrinks (nodeDeclare k op) := by
  intro s x r h
  unfold nodeDeclare at h
  cases h1 : nodeSymbol k s with
  | none => simp only [h1] at h; cases h
  | some q =>
    obtain ⟨st, r1⟩ := q
    simp only [h1] at h
    have l1 := nodeSymbol_shrinks k h1
    have l1' := skip_le r1
    cases h2 : metasEnd (skip r1) with
    | none => simp only [h2] at h; cases h
    | some q =>
      obtain ⟨ms, r2⟩ := q
      simp only [h2] at h
      have l2 := metasEnd_shrinks _ _ _ h2
      obtain ⟨_, rfl⟩ := Prod.mk.inj (Option.some.inj h)
      omega

theorem nodeDefineAlias_shrinks : Shrinks nodeDefineAlias := by
  intro s x r h
  unfold nodeDefineAlias at h
  cases h1 : nodeSymbol "define-alias".toList s with
  | none => simp only [h1] at h; cases h
  | some q =>
    obtain ⟨st, r1⟩ := q
    simp only [h1] at h
    have l1 := nodeSymbol_shrinks _ h1
    have l1' := skip_le r1
    cases h3 : parseTermTree (skip r1) with
    | none => simp only [h3] at h; cases h
    | some q =>
      obtain ⟨t, r3⟩ := q
      simp only [h3] at h
      have l3 := term_shrinks _ _ _ h3
      have l3' := skip_le r3
      cases h2 : metasEnd (skip r3) with
      | none => simp only [h2] at h; cases h
      | some q =>
        obtain ⟨ms, r2⟩ := q
        simp only [h2] at h
        have l2 := metasEnd_shrinks _ _ _ h2
        obtain ⟨_, rfl⟩ := Prod.mk.inj (Option.some.inj h)
        omega

theorem nodeImport_shrinks : Shrinks nodeImport := by
  intro s x r h
  unfold nodeImport at h
  cases h1 : lit "(".toList s with
  | none => simp only [h1] at h; cases h
  | some r1 =>
    simp only [h1] at h
    have l1 := lit_shrink h1
    have l1' := skip_le r1
    cases h2 : lit "import".toList (skip r1) with
    | none => simp only [h2] at h; cases h
    | some r2 =>
      simp only [h2] at h
      have l2 := lit_shrink h2
      have l2' := skip_le r2
      cases h3 : symbolName (skip r2) with
      | none => simp only [h3] at h; cases h
      | some q =>
        obtain ⟨y, r3⟩ := q
        simp only [h3] at h
        have l3 := symbolName_lt h3
        have l3' := skip_le r3
        cases h4 : metasEnd (skip r3) with
        | none => simp only [h4] at h; cases h
        | some q =>
          obtain ⟨ms, r4⟩ := q
          simp only [h4] at h
          have l4 := metasEnd_shrinks _ _ _ h4
          obtain ⟨_, rfl⟩ := Prod.mk.inj (Option.some.inj h)
          omega

theorem nodeDefineFunc_shrinks {p : Parser RegionTree} (hp : Shrinks p) : Shrinks (nodeDefineFunc p) := by
  intro s x r h
  unfold nodeDefineFunc at h
  cases h1 : nodeSymbol "define-func".toList s with
  | none => simp only [h1] at h; cases h
  | some q =>
    obtain ⟨st, r1⟩ := q
    simp only [h1] at h
    have l1 := nodeSymbol_shrinks _ h1
    have l1' := skip_le r1
    have l2 := many_shrink (wrapped_shrinks "meta".toList) (skip r1)
    generalize many (wrapped "meta".toList) (skip r1) = p2 at h l2
    obtain ⟨ms, r2⟩ := p2
    simp only [] at h l2
    have l2' := skip_le r2
    have l3 := many_shrink hp (skip r2)
    generalize many p (skip r2) = p3 at h l3
    obtain ⟨rs, r3⟩ := p3
    simp only [] at h l3
    have l3' := skip_le r3
    cases h5 : lit ")".toList (skip r3) with
    | none => simp only [h5] at h; cases h
    | some r5 =>
      simp only [h5] at h
      have l5 := lit_shrink h5
      obtain ⟨_, rfl⟩ := Prod.mk.inj (Option.some.inj h)
      omega

theorem nodeDefineFunc_agree {p q : Parser RegionTree} {n : Nat} (h : Agree p q n) (hp : Shrinks p)
    {s : List Char} (hs : s.length ≤ n + 1) : nodeDefineFunc p s = nodeDefineFunc q s := by
  simp only [nodeDefineFunc]
  cases h1 : nodeSymbol "define-func".toList s with
  | none => rfl
  | some q =>
    obtain ⟨st, r1⟩ := q
    have l1 := nodeSymbol_shrinks _ h1
    have l1' := skip_le r1
    have l2 := many_shrink (wrapped_shrinks "meta".toList) (skip r1)
    have l2' := skip_le (many (wrapped "meta".toList) (skip r1)).2
    simp only []
    rw [many_agree h hp (by omega)]

theorem kind_shrinks : Shrinks regionKind := by
  intro s x r h
  unfold regionKind at h
  cases h1 : lit "dfg".toList s with
  | some r1 =>
    simp only [h1] at h
    obtain ⟨_, rfl⟩ := Prod.mk.inj (Option.some.inj h)
    exact lit_shrink h1
  | none =>
    simp only [h1] at h
    cases h2 : lit "cfg".toList s with
    | some r1 =>
      simp only [h2] at h
      obtain ⟨_, rfl⟩ := Prod.mk.inj (Option.some.inj h)
      exact lit_shrink h2
    | none =>
      simp only [h2] at h
      cases h3 : lit "mod".toList s with
      | some r1 =>
        simp only [h3] at h
        obtain ⟨_, rfl⟩ := Prod.mk.inj (Option.some.inj h)
        exact lit_shrink h3
      | none => simp only [h3] at h; cases h

/-- Nodes and regions never leave more than they are given. -/
theorem nodes_shrink (f : Nat) : Shrinks (node f) ∧ Shrinks (region f) := by
  induction f with
  | zero =>
    refine ⟨fun s x r h => ?_, fun s x r h => ?_⟩
    · rw [node] at h; cases h
    · rw [region] at h; cases h
  | succ f ih =>
    refine ⟨fun s x r h => ?_, fun s x r h => ?_⟩
    · rw [node] at h
      rcases alt_eq_some h with h | h
      · exact nodeKeyword_shrinks ih.2 _ _ _ _ _ h
      rcases alt_eq_some h with h | h
      · exact nodeKeyword_shrinks ih.2 _ _ _ _ _ h
      rcases alt_eq_some h with h | h
      · exact nodeKeyword_shrinks ih.2 _ _ _ _ _ h
      rcases alt_eq_some h with h | h
      · exact nodeDefineFunc_shrinks ih.2 _ _ _ h
      rcases alt_eq_some h with h | h
      · exact nodeDeclare_shrinks _ _ _ _ _ h
      rcases alt_eq_some h with h | h
      · exact nodeDefineAlias_shrinks _ _ _ h
      rcases alt_eq_some h with h | h
      · exact nodeDeclare_shrinks _ _ _ _ _ h
      rcases alt_eq_some h with h | h
      · exact nodeDeclare_shrinks _ _ _ _ _ h
      rcases alt_eq_some h with h | h
      · exact nodeDeclare_shrinks _ _ _ _ _ h
      rcases alt_eq_some h with h | h
      · exact nodeKeyword_shrinks ih.2 _ _ _ _ _ h
      rcases alt_eq_some h with h | h
      · exact nodeKeyword_shrinks ih.2 _ _ _ _ _ h
      rcases alt_eq_some h with h | h
      · exact nodeImport_shrinks _ _ _ h
      exact nodeCustom_shrinks ih.2 _ _ _ h
    · rw [region] at h
      cases h1 : lit "(".toList s with
      | none => simp only [h1] at h; cases h
      | some r1 =>
        simp only [h1] at h
        have l1 := lit_shrink h1
        have l1' := skip_le r1
        cases h2 : regionKind (skip r1) with
        | none => simp only [h2] at h; cases h
        | some q =>
          obtain ⟨k, r2⟩ := q
          simp only [h2] at h
          have l2 := kind_shrinks _ _ _ h2
          have l2' := skip_le r2
          cases h3 : tail (node f) (skip r2) with
          | none => simp only [h3] at h; cases h
          | some q =>
            obtain ⟨t, r3⟩ := q
            simp only [h3] at h
            have l3 := tail_shrinks ih.1 _ _ _ h3
            obtain ⟨_, rfl⟩ := Prod.mk.inj (Option.some.inj h)
            omega

theorem nodes_stable (f : Nat) : Agree (node f) (node (f + 1)) f ∧ Agree (region f) (region (f + 1)) f := by
  induction f with
  | zero =>
    refine ⟨fun s hs => ?_, fun s hs => ?_⟩
    · rw [List.length_eq_zero_iff.mp (Nat.le_zero.mp hs), node_nil, node_nil]
    · rw [List.length_eq_zero_iff.mp (Nat.le_zero.mp hs), region_needs 0 [] (Or.inl rfl),
        region_needs (0 + 1) [] (Or.inl rfl)]
  | succ f ih =>
    have hr := (nodes_shrink f).2
    have hn := (nodes_shrink f).1
    refine ⟨fun s hs => ?_, fun s hs => ?_⟩
    · rw [node, node]
      rw [nodeKeyword_agree ih.2 hr "dfg".toList _ hs, nodeKeyword_agree ih.2 hr "cfg".toList _ hs,
        nodeKeyword_agree ih.2 hr "block".toList _ hs, nodeDefineFunc_agree ih.2 hr hs,
        nodeKeyword_agree ih.2 hr "tail-loop".toList _ hs, nodeKeyword_agree ih.2 hr "cond".toList _ hs,
        nodeCustom_agree ih.2 hr hs]
    · rw [region, region]
      cases h1 : lit "(".toList s with
      | none => rfl
      | some r1 =>
        have l1 := lit_len h1
        have l1' := skip_le r1
        simp only []
        cases h2 : regionKind (skip r1) with
        | none => rfl
        | some q =>
          obtain ⟨k, r2⟩ := q
          have l2 := kind_shrinks _ _ _ h2
          have l2' := skip_le r2
          simp only []
          rw [tail_agree ih.1 hn (by simp at l1; omega)]

/-- C46. The results of the parsers for nodes and regions do not depend on the fuel: any amount beyond
the one they are given leads to the same result, so parsing terminates on every input and `none` means
that there is no match. -/
theorem C46_fuel_enough (s : List Char) (f : Nat) (hf : s.length ≤ f) :
    node f s = parseNodeTree s ∧ region f s = region s.length s := by
  induction hf with
  | refl => exact ⟨rfl, rfl⟩
  | step hf ih =>
    exact ⟨((nodes_stable _).1 s hf).symm.trans ih.1, ((nodes_stable _).2 s hf).symm.trans ih.2⟩

end Verif.Text
