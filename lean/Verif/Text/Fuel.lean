import Verif.Text.Props

/-!
# The fuel of the grammar is never used up

Every rule consumes input before it is entered again, so with the fuel `parseTermTree` gives, and
with any more, the result is the same: `none` always means that the rule does not match.
-/
namespace Verif.Text

/-! ## What is left is shorter -/

theorem commentBody_le {s r : List Char} (h : commentBody s = some r) : r.length ≤ s.length := by
  induction s with
  | nil => cases h
  | cons c s ih =>
    simp only [commentBody] at h
    split at h
    · cases h; simp
    · have := ih h; simp; omega

theorem skipN_le (f : Nat) : ∀ s : List Char, (skipN f s).length ≤ s.length := by
  induction f with
  | zero => intro s; simp [skipN]
  | succ f ih =>
    intro s
    cases s with
    | nil => simp [skipN]
    | cons c s =>
      simp only [skipN]
      split
      · have := ih s; simp; omega
      · split
        · split
          · exact Nat.le_refl _
          · next r hr =>
            have := ih r
            have := commentBody_le hr
            simp; omega
        · exact Nat.le_refl _

theorem skip_le (s : List Char) : (skip s).length ≤ s.length := skipN_le _ s

theorem lit_len {k s r : List Char} (h : lit k s = some r) : s.length = k.length + r.length := by
  rw [lit_prefix h, List.length_append]

theorem dropWhile_le (p : Char → Bool) (s : List Char) : (s.dropWhile p).length ≤ s.length :=
  (List.dropWhile_sublist p).length_le

theorem identifier_lt {s x r : List Char} (h : identifier s = some (x, r)) : r.length < s.length := by
  unfold identifier at h
  split at h
  · cases h
  · split at h
    · obtain ⟨_, rfl⟩ := Prod.mk.inj (Option.some.inj h)
      exact Nat.lt_succ_of_le (dropWhile_le _ _)
    · cases h

theorem dotted_le (f : Nat) : ∀ s : List Char, (dotted f s).2.length ≤ s.length := by
  induction f with
  | zero => intro s; simp [dotted]
  | succ f ih =>
    intro s
    unfold dotted
    split
    · next hf =>
      split
      · exact Nat.le_refl _
      · next h1 =>
        have := Nat.succ.inj hf
        subst this
        have h2 := identifier_lt h1
        simp only [List.length_cons]
        exact Nat.le_trans (ih _) (by omega)
    · exact Nat.le_refl _

theorem symbolName_lt {s x r : List Char} (h : symbolName s = some (x, r)) : r.length < s.length := by
  have h' : dottedName s = some (x, r) := by
    rw [symbolName_eq] at h
    split at h
    · split at h
      · cases h
      · exact h
    · exact h
  unfold dottedName at h'
  split at h'
  · cases h'
  · next h1 =>
    obtain ⟨_, rfl⟩ := Prod.mk.inj (Option.some.inj h')
    exact Nat.lt_of_le_of_lt (dotted_le _ _) (identifier_lt h1)

theorem strSeg_le {s r : List Char} {g : Seg} (h : strSeg s = some (g, r)) : r.length ≤ s.length := by
  unfold strSeg at h
  split at h
  · split at h
    · obtain ⟨_, rfl⟩ := Prod.mk.inj (Option.some.inj h)
      simp; omega
    · split at h
      · split at h
        · next s' =>
          split at h
          · cases h
          · next hd _ =>
            obtain ⟨_, rfl⟩ := Prod.mk.inj (Option.some.inj h)
            have := dropWhile_le isHex s'
            rw [hd] at this
            simp at this ⊢; omega
          · cases h
        · cases h
      · cases h
  · split at h
    · obtain ⟨_, rfl⟩ := Prod.mk.inj (Option.some.inj h)
      exact Nat.le_succ_of_le (dropWhile_le _ _)
    · cases h
  · cases h

theorem strSegs_le (f : Nat) : ∀ s : List Char, (strSegs f s).2.length ≤ s.length := by
  induction f with
  | zero => intro s; simp [strSegs]
  | succ f ih =>
    intro s
    simp only [strSegs]
    split
    · exact Nat.le_refl _
    · next h => exact Nat.le_trans (ih _) (strSeg_le h)

theorem literalString_lt {s r : List Char} {t : Tree} (h : literalString s = some (t, r)) :
    r.length < s.length := by
  unfold literalString at h
  split at h
  · next s' =>
    split at h
    · next hs =>
      obtain ⟨_, rfl⟩ := Prod.mk.inj (Option.some.inj h)
      have := strSegs_le s'.length s'
      rw [hs] at this
      simp at this ⊢; omega
    · cases h
  · cases h

theorem digits_lt {s ds r : List Char} (h : digits s = some (ds, r)) : r.length < s.length := by
  unfold digits at h
  split at h
  · cases h
  · next hne =>
    obtain ⟨_, rfl⟩ := Prod.mk.inj (Option.some.inj h)
    have := congrArg List.length (List.takeWhile_append_dropWhile (p := isDigit) (l := s))
    rw [List.length_append] at this
    have hpos : 0 < (s.takeWhile isDigit).length := by
      cases ht : s.takeWhile isDigit with
      | nil => exact absurd ht hne
      | cons _ _ => simp
    omega

theorem optSign_le (s : List Char) : (optSign s).length ≤ s.length := by
  cases s with
  | nil => simp [optSign]
  | cons c s =>
    simp only [optSign]
    split
    · simp
    · exact Nat.le_refl _

theorem optExponent_le (s : List Char) : (optExponent s).length ≤ s.length := by
  unfold optExponent
  split
  · next s' =>
    split
    · exact Nat.le_refl _
    · next h =>
      have := digits_lt h
      have := optSign_le s'
      simp; omega
  · exact Nat.le_refl _

theorem literalFloat_lt {s r : List Char} {t : Tree} (h : literalFloat s = some (t, r)) :
    r.length < s.length := by
  unfold literalFloat at h
  split at h
  · cases h
  · next h1 =>
    have := digits_lt h1
    have := optSign_le s
    split at h
    · split at h
      · cases h
      · next r3 h4 =>
        obtain ⟨_, rfl⟩ := Prod.mk.inj (Option.some.inj h)
        have := digits_lt h4
        have := optExponent_le r3
        simp at *; omega
    · cases h

theorem literalNat_lt {s r : List Char} {t : Tree} (h : literalNat s = some (t, r)) :
    r.length < s.length := by
  unfold literalNat at h
  split at h
  · cases h
  · next h1 =>
    obtain ⟨_, rfl⟩ := Prod.mk.inj (Option.some.inj h)
    exact digits_lt h1

theorem moreChars_le (p : Char → Bool) (f : Nat) : ∀ s : List Char,
    (moreChars p f s).length ≤ s.length := by
  induction f with
  | zero => intro s; simp [moreChars]
  | succ f ih =>
    intro s
    simp only [moreChars]
    split
    · next c r hs =>
      split
      · have := ih r
        have := skip_le s
        rw [hs] at this
        simp at this; omega
      · exact Nat.le_refl _
    · exact Nat.le_refl _

theorem manyChars_le (p : Char → Bool) (s : List Char) : (manyChars p s).length ≤ s.length := by
  unfold manyChars
  split
  · split
    · exact Nat.le_succ_of_le (moreChars_le _ _ _)
    · exact Nat.le_refl _
  · exact Nat.le_refl _

theorem base64String_le {s x r : List Char} (h : base64String s = some (x, r)) :
    r.length ≤ s.length := by
  unfold base64String at h
  split at h
  · next s' =>
    simp only [] at h
    split at h
    · next r' hr =>
      obtain ⟨_, rfl⟩ := Prod.mk.inj (Option.some.inj h)
      have h1 := skip_le (manyChars (· == '=') (skip (manyChars isBase64 (skip s'))))
      have h2 := manyChars_le (· == '=') (skip (manyChars isBase64 (skip s')))
      have h3 := skip_le (manyChars isBase64 (skip s'))
      have h4 := manyChars_le isBase64 (skip s')
      have h5 := skip_le s'
      rw [hr] at h1
      simp at h1 ⊢; omega
    · cases h
  · cases h

theorem literalBytes_lt {s r : List Char} {t : Tree} (h : literalBytes s = some (t, r)) :
    r.length < s.length := by
  unfold literalBytes at h
  split at h
  · cases h
  · next r1 h1 =>
    split at h
    · cases h
    · next r2 h2 =>
      split at h
      · cases h
      · next r3 h3 =>
        split at h
        · cases h
        · next r4 h4 =>
          obtain ⟨_, rfl⟩ := Prod.mk.inj (Option.some.inj h)
          have := lit_len h1
          have := lit_len h2
          have := base64String_le h3
          have := lit_len h4
          have := skip_le r1
          have := skip_le r2
          have := skip_le r3
          simp at *; omega

theorem literal_lt {s r : List Char} {t : Tree} (h : literal s = some (t, r)) :
    r.length < s.length := by
  unfold literal at h
  rcases alt_eq_some h with h | h
  · exact literalString_lt h
  · rcases alt_eq_some h with h | h
    · exact literalFloat_lt h
    · rcases alt_eq_some h with h | h
      · exact literalNat_lt h
      · exact literalBytes_lt h

theorem termWildcard_lt {s r : List Char} {t : Tree} (h : termWildcard s = some (t, r)) :
    r.length < s.length := by
  unfold termWildcard at h
  split at h
  · split at h
    · split at h
      · cases h
      · obtain ⟨_, rfl⟩ := Prod.mk.inj (Option.some.inj h)
        simp
    · obtain ⟨_, rfl⟩ := Prod.mk.inj (Option.some.inj h)
      simp
  · cases h

theorem termVar_lt {s r : List Char} {t : Tree} (h : termVar s = some (t, r)) :
    r.length < s.length := by
  unfold termVar at h
  split at h
  · next s' =>
    split at h
    · cases h
    · next h1 =>
      obtain ⟨_, rfl⟩ := Prod.mk.inj (Option.some.inj h)
      have := identifier_lt h1
      have := skip_le s'
      simp; omega
  · cases h

/-- All rules, at one level of fuel: what is left is shorter. -/
def Shorter (f : Nat) : Prop :=
  (∀ s t r, term f s = some (t, r) → r.length < s.length) ∧
  (∀ s t r, termList f s = some (t, r) → r.length < s.length) ∧
  (∀ s t r, termTuple f s = some (t, r) → r.length < s.length) ∧
  (∀ s t r, termConstFunc f s = some (t, r) → r.length < s.length) ∧
  (∀ s t r, termApply f s = some (t, r) → r.length < s.length) ∧
  (∀ s, (terms f s).2.length ≤ s.length) ∧
  (∀ s, (moreTerms f s).2.length ≤ s.length) ∧
  (∀ s, (parts f s).2.length ≤ s.length) ∧
  (∀ s, (moreParts f s).2.length ≤ s.length) ∧
  (∀ s b t r, part f s = some (b, t, r) → r.length < s.length)

theorem shorter (f : Nat) : Shorter f := by
  induction f with
  | zero =>
    refine ⟨?_, ?_, ?_, ?_, ?_, ?_, ?_, ?_, ?_, ?_⟩ <;> intro s
    · intro t r h; rw [term] at h; cases h
    · intro t r h; rw [termList] at h; cases h
    · intro t r h; rw [termTuple] at h; cases h
    · intro t r h; rw [termConstFunc] at h; cases h
    · intro t r h; rw [termApply] at h; cases h
    · rw [terms]; exact Nat.le_refl _
    · rw [moreTerms]; exact Nat.le_refl _
    · rw [parts]; exact Nat.le_refl _
    · rw [moreParts]; exact Nat.le_refl _
    · intro b t r h; rw [part] at h; cases h
  | succ f ih =>
    obtain ⟨iT, iL, iTu, iC, iA, iTs, iMT, iP, iMP, iPt⟩ := ih
    refine ⟨?_, ?_, ?_, ?_, ?_, ?_, ?_, ?_, ?_, ?_⟩ <;> intro s
    · intro t r h
      rw [term] at h
      rcases alt_eq_some h with h | h
      · exact termWildcard_lt h
      rcases alt_eq_some h with h | h
      · exact termVar_lt h
      rcases alt_eq_some h with h | h
      · exact iL _ _ _ h
      rcases alt_eq_some h with h | h
      · exact literal_lt h
      rcases alt_eq_some h with h | h
      · exact iTu _ _ _ h
      rcases alt_eq_some h with h | h
      · exact iC _ _ _ h
      exact iA _ _ _ h
    · intro t r h
      rw [termList] at h
      split at h
      · cases h
      · next r1 h1 =>
        have e1 := lit_len h1
        have e2 := skip_le r1
        have e3 := iP (skip r1)
        generalize parts f (skip r1) = p at h e3
        obtain ⟨ps, r2⟩ := p
        simp only [] at h e3
        split at h
        · cases h
        · next r3 h3 =>
          have e4 := lit_len h3
          have e5 := skip_le r2
          obtain ⟨_, rfl⟩ := Prod.mk.inj (Option.some.inj h)
          simp at *; omega
    · intro t r h
      rw [termTuple] at h
      split at h
      · cases h
      · next r1 h1 =>
        have e1 := lit_len h1
        have e2 := skip_le r1
        split at h
        · cases h
        · next r2 h2 =>
          have e3 := lit_len h2
          have e4 := skip_le r2
          have e5 := iP (skip r2)
          generalize parts f (skip r2) = p at h e5
          obtain ⟨ps, r5⟩ := p
          simp only [] at h e5
          split at h
          · cases h
          · next r3 h3 =>
            have e6 := lit_len h3
            have e7 := skip_le r5
            obtain ⟨_, rfl⟩ := Prod.mk.inj (Option.some.inj h)
            simp at *; omega
    · intro t r h
      rw [termConstFunc] at h
      split at h
      · cases h
      · next r1 h1 =>
        have e1 := lit_len h1
        have e2 := skip_le r1
        split at h
        · cases h
        · next r2 h2 =>
          have e3 := lit_len h2
          have e4 := skip_le r2
          split at h
          · cases h
          · next r3 h3 =>
            have e5 := iT _ _ _ h3
            have e6 := skip_le r3
            split at h
            · cases h
            · next r4 h4 =>
              have e7 := lit_len h4
              obtain ⟨_, rfl⟩ := Prod.mk.inj (Option.some.inj h)
              simp at *; omega
    · intro t r h
      rw [termApply] at h
      split at h
      · next h1 =>
        obtain ⟨_, rfl⟩ := Prod.mk.inj (Option.some.inj h)
        exact symbolName_lt h1
      · split at h
        · cases h
        · next r1 h1 =>
          have e1 := lit_len h1
          have e2 := skip_le r1
          split at h
          · cases h
          · next r2 h2 =>
            have e3 := symbolName_lt h2
            have e4 := skip_le r2
            have e5 := iTs (skip r2)
            generalize terms f (skip r2) = p at h e5
            obtain ⟨ps, r5⟩ := p
            simp only [] at h e5
            split at h
            · cases h
            · next r3 h3 =>
              have e6 := lit_len h3
              have e7 := skip_le r5
              obtain ⟨_, rfl⟩ := Prod.mk.inj (Option.some.inj h)
              simp at *; omega
    · rw [terms]
      split
      · exact Nat.le_refl _
      · next r h =>
        have := iT _ _ _ h
        have := iMT r
        simp only []
        omega
    · rw [moreTerms]
      split
      · exact Nat.le_refl _
      · next r h =>
        have := iT _ _ _ h
        have := skip_le s
        have := iMT r
        simp only []
        omega
    · rw [parts]
      split
      · exact Nat.le_refl _
      · next r h =>
        have := iPt _ _ _ _ h
        have := iMP r
        simp only []
        omega
      · next r h =>
        have := iPt _ _ _ _ h
        have := iMP r
        simp only []
        omega
    · rw [moreParts]
      split
      · exact Nat.le_refl _
      · next r h =>
        have := iPt _ _ _ _ h
        have := skip_le s
        have := iMP r
        simp only []
        omega
      · next r h =>
        have := iPt _ _ _ _ h
        have := skip_le s
        have := iMP r
        simp only []
        omega
    · intro b t r h
      rw [part] at h
      rcases alt_eq_some h with h | h
      · split at h
        · cases h
        · next r1 h1 =>
          have := iT _ _ _ h1
          split at h
          · cases h
          · next r2 h2 =>
            have := lit_len h2
            have := skip_le r1
            obtain ⟨_, _, rfl⟩ := (by simpa using h)
            omega
      · split at h
        · cases h
        · next r1 h1 =>
          have := iT _ _ _ h1
          obtain ⟨_, _, rfl⟩ := (by simpa using h)
          omega

/-! ## More fuel changes nothing -/

/-- With enough fuel for inputs of length at most `n`, one more level changes nothing. -/
def Stable (n : Nat) : Prop :=
  (∀ f s, s.length ≤ n → 4 * s.length + 4 ≤ f → term (f + 1) s = term f s) ∧
  (∀ f s, s.length ≤ n → 4 * s.length + 5 ≤ f → part (f + 1) s = part f s) ∧
  (∀ f s, s.length ≤ n → 4 * s.length + 6 ≤ f → terms (f + 1) s = terms f s) ∧
  (∀ f s, s.length ≤ n → 4 * s.length + 6 ≤ f → moreTerms (f + 1) s = moreTerms f s) ∧
  (∀ f s, s.length ≤ n → 4 * s.length + 6 ≤ f → parts (f + 1) s = parts f s) ∧
  (∀ f s, s.length ≤ n → 4 * s.length + 6 ≤ f → moreParts (f + 1) s = moreParts f s)

theorem stable (n : Nat) : Stable n := by
  induction n using Nat.strongRecOn with
  | _ n ih =>
    have hT : ∀ f s, s.length ≤ n → 4 * s.length + 4 ≤ f → term (f + 1) s = term f s := by
      intro f s hs hf
      obtain ⟨f, rfl⟩ : ∃ g, f = g + 2 := ⟨f - 2, by omega⟩
      have h1 : termList (f + 2) s = termList (f + 1) s := by
        rw [termList, termList]
        cases h : lit "[".toList s with
        | none => rfl
        | some r1 =>
          have e1 := lit_len h
          have e2 := skip_le r1
          have := (ih r1.length (by simp at e1; omega)).2.2.2.2.1 f (skip r1) e2
            (by simp at e1; omega)
          simp only [this]
      have h2 : termTuple (f + 2) s = termTuple (f + 1) s := by
        rw [termTuple, termTuple]
        cases h : lit "(".toList s with
        | none => rfl
        | some r1 =>
          have e1 := lit_len h
          have e2 := skip_le r1
          simp only []
          cases h' : lit "tuple".toList (skip r1) with
          | none => rfl
          | some r2 =>
            have e3 := lit_len h'
            have e4 := skip_le r2
            have := (ih r2.length (by simp at e1; omega)).2.2.2.2.1 f (skip r2) e4
              (by simp at e1; omega)
            simp only [this]
      have h3 : termConstFunc (f + 2) s = termConstFunc (f + 1) s := by
        rw [termConstFunc, termConstFunc]
        cases h : lit "(".toList s with
        | none => rfl
        | some r1 =>
          have e1 := lit_len h
          have e2 := skip_le r1
          simp only []
          cases h' : lit "fn".toList (skip r1) with
          | none => rfl
          | some r2 =>
            have e3 := lit_len h'
            have e4 := skip_le r2
            have := (ih r2.length (by simp at e1; omega)).1 f (skip r2) e4
              (by simp at e1; omega)
            simp only [this]
      have h4 : termApply (f + 2) s = termApply (f + 1) s := by
        rw [termApply, termApply]
        cases h0 : symbolName s with
        | some p => rfl
        | none =>
          simp only []
          cases h : lit "(".toList s with
          | none => rfl
          | some r1 =>
            have e1 := lit_len h
            have e2 := skip_le r1
            simp only []
            cases h' : symbolName (skip r1) with
            | none => rfl
            | some p =>
              obtain ⟨x, r2⟩ := p
              have e3 := symbolName_lt h'
              have e4 := skip_le r2
              have := (ih r2.length (by simp at e1; omega)).2.2.1 f (skip r2) e4
                (by simp at e1; omega)
              simp only [this]
      rw [term, term, h1, h2, h3, h4]
    have hPt : ∀ f s, s.length ≤ n → 4 * s.length + 5 ≤ f → part (f + 1) s = part f s := by
      intro f s hs hf
      obtain ⟨f, rfl⟩ : ∃ g, f = g + 1 := ⟨f - 1, by omega⟩
      rw [part, part, hT f s hs (by omega)]
    have hMT : ∀ f s, s.length ≤ n → 4 * s.length + 6 ≤ f → moreTerms (f + 1) s = moreTerms f s := by
      intro f s hs hf
      obtain ⟨f, rfl⟩ : ∃ g, f = g + 1 := ⟨f - 1, by omega⟩
      have e1 := skip_le s
      rw [moreTerms, moreTerms, hT f (skip s) (by omega) (by omega)]
      cases h : term f (skip s) with
      | none => rfl
      | some p =>
        obtain ⟨t, r⟩ := p
        have e2 := (shorter f).1 _ _ _ h
        have := (ih r.length (by omega)).2.2.2.1 f r (Nat.le_refl _) (by omega)
        simp only [this]
    have hMP : ∀ f s, s.length ≤ n → 4 * s.length + 6 ≤ f → moreParts (f + 1) s = moreParts f s := by
      intro f s hs hf
      obtain ⟨f, rfl⟩ : ∃ g, f = g + 1 := ⟨f - 1, by omega⟩
      have e1 := skip_le s
      rw [moreParts, moreParts, hPt f (skip s) (by omega) (by omega)]
      cases h : part f (skip s) with
      | none => rfl
      | some p =>
        obtain ⟨b, t, r⟩ := p
        have e2 := (shorter f).2.2.2.2.2.2.2.2.2 _ _ _ _ h
        have := (ih r.length (by omega)).2.2.2.2.2 f r (Nat.le_refl _) (by omega)
        cases b <;> simp only [this]
    refine ⟨hT, hPt, ?_, hMT, ?_, hMP⟩
    · intro f s hs hf
      obtain ⟨f, rfl⟩ : ∃ g, f = g + 1 := ⟨f - 1, by omega⟩
      rw [terms, terms, hT f s (by omega) (by omega)]
      cases h : term f s with
      | none => rfl
      | some p =>
        obtain ⟨t, r⟩ := p
        have e2 := (shorter f).1 _ _ _ h
        have := (ih r.length (by omega)).2.2.2.1 f r (Nat.le_refl _) (by omega)
        simp only [this]
    · intro f s hs hf
      obtain ⟨f, rfl⟩ : ∃ g, f = g + 1 := ⟨f - 1, by omega⟩
      rw [parts, parts, hPt f s (by omega) (by omega)]
      cases h : part f s with
      | none => rfl
      | some p =>
        obtain ⟨b, t, r⟩ := p
        have e2 := (shorter f).2.2.2.2.2.2.2.2.2 _ _ _ _ h
        have := (ih r.length (by omega)).2.2.2.2.2 f r (Nat.le_refl _) (by omega)
        cases b <;> simp only [this]

/-- C34. The result of the parser does not depend on the fuel: any amount beyond the one it is given
leads to the same result, so parsing terminates on every input, and `none` means no match. -/
theorem C34_fuel_enough (s : List Char) (f : Nat) (hf : 4 * s.length + 4 ≤ f) :
    term f s = parseTermTree s := by
  induction hf with
  | refl => rfl
  | step hf ih => rw [(stable s.length).1 _ s (Nat.le_refl _) hf, ih]

/-- C34. A parsed term uses at least one character, and what is left is the end of the input. -/
theorem C34_progress (s r : List Char) (t : Tree) (h : parseTermTree s = some (t, r)) :
    r.length < s.length := (shorter _).1 _ _ _ h

end Verif.Text
