import Verif.Text.TermLemmas

/-!
# Printed terms are read back
-/
namespace Verif.Text

/-! ## Parsing from the middle of a name stays inside the name -/

/-- The rest of a name, followed by `w`. -/
def InName (w s : List Char) : Prop := ∃ r, s = r ++ w ∧ ∀ c ∈ r, isName c = true

/-- `w` starts with white space. -/
def Blank (w : List Char) : Prop := ∃ c w', w = c :: w' ∧ (c = ' ' ∨ c = '\n')

theorem Blank.of_sep {w : List Char} (h : Sep w) (r : List Char) : Blank (w ++ r) := by
  obtain ⟨h0, h1⟩ := h
  cases w with
  | nil => exact absurd rfl h0
  | cons c w => exact ⟨c, w ++ r, rfl, h1 c (by simp)⟩

theorem inName_dropWhile {p : Char → Bool} (hp : p ' ' = false ∧ p '\n' = false) {w s : List Char}
    (hw : Blank w) (h : InName w s) : InName w (s.dropWhile p) := by
  obtain ⟨r, rfl, hr⟩ := h
  obtain ⟨c, w', rfl, hc⟩ := hw
  have hpc : p c = false := by rcases hc with rfl | rfl; exact hp.1; exact hp.2
  induction r with
  | nil => exact ⟨[], by simp [hpc], by simp⟩
  | cons d r ih =>
    cases hd : p d with
    | true =>
      simp only [List.cons_append, List.dropWhile_cons, hd, if_true]
      exact ih (fun c hc => hr c (by simp [hc]))
    | false =>
      simp only [List.cons_append, List.dropWhile_cons, hd]
      exact ⟨d :: r, rfl, hr⟩

theorem inName_tail {w s : List Char} {c : Char} (hw : Blank w) (h : InName w (c :: s))
    (hc : isName c = true) : InName w s := by
  obtain ⟨r, e, hr⟩ := h
  cases r with
  | nil =>
    obtain ⟨d, w', rfl, hd⟩ := hw
    simp only [List.nil_append, List.cons.injEq] at e
    rcases hd with rfl | rfl
    · rw [e.1] at hc; exact absurd hc (by decide)
    · rw [e.1] at hc; exact absurd hc (by decide)
  | cons d r =>
    simp only [List.cons_append, List.cons.injEq] at e
    exact ⟨r, e.2, fun c hc => hr c (by simp [hc])⟩

theorem inName_head {w s : List Char} {c : Char} (hw : Blank w) (h : InName w (c :: s)) :
    isName c = true ∨ c = ' ' ∨ c = '\n' := by
  obtain ⟨r, e, hr⟩ := h
  cases r with
  | nil =>
    obtain ⟨d, w', rfl, hd⟩ := hw
    simp only [List.nil_append, List.cons.injEq] at e
    rw [e.1]; exact Or.inr hd
  | cons d r =>
    simp only [List.cons_append, List.cons.injEq] at e
    rw [e.1]; exact Or.inl (hr d (by simp))

theorem inName_optSign {w s : List Char} (hw : Blank w) (h : InName w s) : InName w (optSign s) := by
  cases s with
  | nil => exact h
  | cons c s =>
    simp only [optSign]
    split
    · next e =>
      rcases e with rfl | rfl
      · rcases inName_head hw h with h' | h' | h' <;> exact absurd h' (by decide)
      · exact inName_tail hw h (by decide)
    · exact h

theorem inName_digits {w s ds r : List Char} (hw : Blank w) (h : InName w s)
    (hd : digits s = some (ds, r)) : InName w r := by
  unfold digits at hd
  split at hd
  · cases hd
  · obtain ⟨rfl, rfl⟩ := Prod.mk.inj (Option.some.inj hd)
    exact inName_dropWhile (by decide) hw h

theorem inName_optExponent {w s : List Char} (hw : Blank w) (h : InName w s) :
    InName w (optExponent s) := by
  unfold optExponent
  split
  · have h1 := inName_optSign hw (inName_tail hw h (by decide))
    split
    · exact h
    · next hd => exact inName_digits hw h1 hd
  · exact h

theorem inName_literalFloat {w s r : List Char} {t : Tree} (hw : Blank w) (h : InName w s)
    (hd : literalFloat s = some (t, r)) : InName w r := by
  unfold literalFloat at hd
  split at hd
  · cases hd
  · next h1 =>
    have h2 := inName_digits hw (inName_optSign hw h) h1
    split at hd
    · have h3 := inName_tail hw h2 (by decide)
      split at hd
      · cases hd
      · next h4 =>
        obtain ⟨rfl, rfl⟩ := Prod.mk.inj (Option.some.inj hd)
        exact inName_optExponent hw (inName_digits hw h3 h4)
    · cases hd

theorem inName_literalNat {w s r : List Char} {t : Tree} (hw : Blank w) (h : InName w s)
    (hd : literalNat s = some (t, r)) : InName w r := by
  unfold literalNat at hd
  split at hd
  · cases hd
  · next h1 =>
    obtain ⟨rfl, rfl⟩ := Prod.mk.inj (Option.some.inj hd)
    exact inName_digits hw h h1

theorem inName_identifier {w s x r : List Char} (hw : Blank w) (h : InName w s)
    (hd : identifier s = some (x, r)) : InName w r := by
  unfold identifier at hd
  split at hd
  · cases hd
  · split at hd
    · next hi =>
      obtain ⟨rfl, rfl⟩ := Prod.mk.inj (Option.some.inj hd)
      exact inName_dropWhile (by decide) hw (inName_tail hw h (rest_name (initial_rest hi)))
    · cases hd

theorem inName_dotted {w : List Char} (hw : Blank w) : ∀ (f : Nat) (s : List Char), InName w s →
    InName w (dotted f s).2 := by
  intro f
  induction f with
  | zero => intro s h; simpa [dotted] using h
  | succ f ih =>
    intro s h
    unfold dotted
    split
    · next hf =>
      split
      · exact h
      · next h1 =>
        have := Nat.succ.inj hf
        subst this
        exact ih _ (inName_identifier hw (inName_tail hw h (by decide)) h1)
    · exact h

theorem inName_symbolName {w s x r : List Char} (hw : Blank w) (h : InName w s)
    (hd : symbolName s = some (x, r)) : InName w r := by
  have hd' : dottedName s = some (x, r) := by
    rw [symbolName_eq] at hd
    split at hd
    · split at hd
      · cases hd
      · exact hd
    · exact hd
  unfold dottedName at hd'
  split at hd'
  · cases hd'
  · next h1 =>
    obtain ⟨rfl, rfl⟩ := Prod.mk.inj (Option.some.inj hd')
    exact inName_dotted hw _ _ (inName_identifier hw h h1)

theorem alt_eq_some {α : Type} {a b : Option α} {x : α} (h : alt a b = some x) :
    a = some x ∨ b = some x := by
  cases a with
  | none => exact Or.inr h
  | some y => exact Or.inl h

theorem inName_term {w s r : List Char} {t : Tree} {c : Char} (hw : Blank w)
    (h : InName w (c :: s)) (hc : isName c = true) (f : Nat) (hd : term f (c :: s) = some (t, r)) :
    InName w r := by
  cases f with
  | zero => rw [term] at hd; cases hd
  | succ f =>
    rw [term] at hd
    have hl : ∀ d, isName d = false → c ≠ d := fun d => ne_of_name hc
    rw [termVar_ne (hl _ (by decide)), termList_ne (hl _ (by decide)), termTuple_ne (hl _ (by decide)),
      termConstFunc_ne (hl _ (by decide))] at hd
    simp only [alt_none, literal, literalString_ne (hl '"' (by decide)),
      literalBytes_ne (hl '(' (by decide))] at hd
    rcases alt_eq_some hd with hd | hd
    · unfold termWildcard at hd
      split at hd
      · next e =>
        obtain ⟨rfl, rfl⟩ := List.cons.inj e
        have ht := inName_tail hw h (by decide)
        split at hd
        · split at hd
          · cases hd
          · obtain ⟨_, rfl⟩ := Prod.mk.inj (Option.some.inj hd)
            exact ht
        · obtain ⟨_, rfl⟩ := Prod.mk.inj (Option.some.inj hd)
          exact ht
      · cases hd
    · rcases alt_eq_some hd with hd | hd
      · rcases alt_eq_some hd with hd | hd
        · exact inName_literalFloat hw h hd
        · rcases alt_eq_some hd with hd | hd
          · exact inName_literalNat hw h hd
          · cases hd
      · cases f with
        | zero => rw [termApply] at hd; cases hd
        | succ f =>
          rw [termApply] at hd
          split at hd
          · next hs =>
            obtain ⟨_, rfl⟩ := Prod.mk.inj (Option.some.inj hd)
            exact inName_symbolName hw h hs
          · rw [show "(".toList = ['('] from rfl, lit_cons_ne [] s (hl '(' (by decide))] at hd
            cases hd

/-! ## The induction -/

/-- Every layout of the term is read back as the term. -/
def Reads (t : Term) : Prop :=
  ∀ s, Renders (printTerm t) s → Starts s ∧ ∃ tr, buildTerm tr = .ok t ∧
    ∀ f w, Ends w → 4 * s.length + 4 ≤ f → term f (s ++ w) = some (tr, w)

/-- Every layout of the terms, before a closing parenthesis, is read back. -/
def ReadsTerms (ts : Terms) : Prop :=
  ∀ s, RendersAll (printTerms ts) s → (ts ≠ .nil → Starts s) ∧ ∃ trs, buildTerms trs = .ok ts ∧
    ∀ f w lead, (lead = [] ∨ Sep lead ∧ ts ≠ .nil) → 4 * s.length + 6 ≤ f →
      moreTerms f (lead ++ (s ++ ')' :: w)) = (trs, ')' :: w)

/-- Every layout of the parts, before a closing delimiter, is read back. -/
def ReadsParts (ps : Parts) : Prop :=
  ∀ s, RendersAll (plainParts ps) s → (ps ≠ .nil → Starts s) ∧ ∃ trs, buildParts trs = .ok ps ∧
    ∀ f k w lead, (k = ')' ∨ k = ']') → (lead = [] ∨ Sep lead ∧ ps ≠ .nil) → 4 * s.length + 6 ≤ f →
      moreParts f (lead ++ (s ++ k :: w)) = (trs, k :: w)

theorem Ends.name {w : List Char} (h : Ends w) : ∀ c w', w = c :: w' → isName c = false := by
  rintro c w' rfl; exact Ends.head_not_rest h

theorem Ends.rest {w : List Char} (h : Ends w) : ∀ c w', w = c :: w' → isRest c = false :=
  fun c w' e => not_rest_of_not_name (h.name c w' e)

theorem Ends.digit {w : List Char} (h : Ends w) : ∀ c w', w = c :: w' → isDigit c = false := by
  rintro c w' rfl
  rcases h with rfl | rfl | rfl | rfl <;> decide

theorem Ends.dot {w : List Char} (h : Ends w) : ∀ c w', w = c :: w' → isDigit c = false ∧ c ≠ '.' := by
  rintro c w' rfl
  rcases h with rfl | rfl | rfl | rfl <;> decide

theorem starts_of_initial {c : Char} {cs : List Char} (h : isInitial c = true) : Starts (c :: cs) := by
  have hn := rest_name (initial_rest h)
  exact ⟨c, cs, rfl, name_not_space hn, ne_of_name hn (by decide), ne_of_name hn (by decide),
    ne_of_name hn (by decide), ne_of_initial h (by decide)⟩

theorem starts_of_digit {c : Char} {cs : List Char} (h : isDigit c = true) : Starts (c :: cs) := by
  have hn := rest_name (digit_rest h)
  exact ⟨c, cs, rfl, name_not_space hn, ne_of_name hn (by decide), ne_of_name hn (by decide),
    ne_of_name hn (by decide), ne_of_digit h (by decide)⟩

theorem starts_lit {c : Char} {cs : List Char}
    (h : isSpace c = false ∧ c ≠ ';' ∧ c ≠ ')' ∧ c ≠ ']' ∧ c ≠ '.') : Starts (c :: cs) :=
  ⟨c, cs, rfl, h⟩

theorem fuel_succ {n f : Nat} (h : n + 4 ≤ f) : ∃ g, f = g + 4 := ⟨f - 4, by omega⟩

theorem reads_wildcard : Reads .wildcard := by
  intro s hs
  rw [printTerm] at hs
  rw [renders_text hs]
  refine ⟨starts_lit (by decide), .wildcard, rfl, ?_⟩
  intro f w hw hf
  obtain ⟨f, rfl⟩ : ∃ g, f = g + 1 := ⟨f - 1, by omega⟩
  rw [term]
  have : termWildcard (['_'] ++ w) = some (.wildcard, w) := by
    cases w with
    | nil => simp [termWildcard]
    | cons c w => simp [termWildcard, hw.rest c w rfl]
  rw [this, alt_some]

theorem reads_var {x : List Char} (hx : IdentText x) : Reads (.var x) := by
  intro s hs
  rw [printTerm] at hs
  rw [renders_text hs]
  refine ⟨starts_lit (by decide), .var x, rfl, ?_⟩
  intro f w hw hf
  obtain ⟨f, rfl⟩ : ∃ g, f = g + 1 := ⟨f - 1, by omega⟩
  have hst : Starts (x ++ w) := by
    obtain ⟨c, cs, rfl, hc, _⟩ := hx
    exact starts_of_initial hc
  rw [term, List.cons_append, termWildcard_ne (by decide), alt_none, termVar, skip_starts hst,
    identifier_text hx hw.rest]
  simp only [consumed_append, alt_some]

theorem term_initial {c : Char} {s : List Char} (hc : isInitial c = true) (f : Nat)
    (hw : termWildcard (c :: s) = none) (hf : literalFloat (c :: s) = none) :
    term (f + 2) (c :: s) = match symbolName (c :: s) with
      | some (x, r) => some (.apply x .nil, r)
      | none => none := by
  have hne : ∀ d, isInitial d = false → c ≠ d := fun d => ne_of_initial hc
  have hdig : isDigit c = false := by
    cases hd : isDigit c with
    | false => rfl
    | true => rw [digit_not_initial hd] at hc; cases hc
  rw [term, hw, termVar_ne (hne _ (by decide)), termList_ne (hne _ (by decide)),
    termTuple_ne (hne _ (by decide)), termConstFunc_ne (hne _ (by decide))]
  simp only [alt_none, literal, literalString_ne (hne '"' (by decide)), hf, literalNat_ne hdig,
    literalBytes_ne (hne '(' (by decide))]
  rw [termApply, show "(".toList = ['('] from rfl, lit_cons_ne [] s (hne '(' (by decide))]
  split <;> simp_all

theorem dropWhile_dot {cs T r : List Char} (hcs : ∀ c ∈ cs, isRest c = true)
    (hT : ∀ c T', T = c :: T' → isDigit c = false)
    (h : (cs ++ T).dropWhile isDigit = '.' :: r) : T = '.' :: r := by
  induction cs with
  | nil =>
    cases T with
    | nil => simp at h
    | cons c T => simpa [hT c T rfl] using h
  | cons d cs ih =>
    cases hd : isDigit d with
    | true =>
      simp only [List.cons_append, List.dropWhile_cons, hd, if_true] at h
      exact ih (fun c hc => hcs c (by simp [hc])) h
    | false =>
      simp only [List.cons_append, List.dropWhile_cons, hd] at h
      have := hcs d (by simp)
      rw [(List.cons.inj h).1] at this
      exact absurd this (by decide)

theorem literalFloat_minus {cs T : List Char} (hcs : ∀ c ∈ cs, isRest c = true)
    (hT : ∀ c T', T = c :: T' → isDigit c = false)
    (hdot : ∀ r, T = '.' :: r → digits r = none) : literalFloat ('-' :: (cs ++ T)) = none := by
  have hs : optSign ('-' :: (cs ++ T)) = cs ++ T := by simp [optSign]
  unfold literalFloat
  rw [hs]
  cases hd : digits (cs ++ T) with
  | none => rfl
  | some p =>
    obtain ⟨ds, r1⟩ := p
    have hr : (cs ++ T).dropWhile isDigit = r1 := by
      unfold digits at hd
      split at hd
      · cases hd
      · exact (Prod.mk.inj (Option.some.inj hd)).2
    simp only []
    split
    · next r2 =>
      rw [hdot r2 (dropWhile_dot hcs hT hr)]
    · rfl

theorem literalFloat_name {x w : List Char} (hx : DottedText x) (hw : Ends w) :
    literalFloat (x ++ w) = none := by
  obtain ⟨c, cs, e, hc⟩ := hx.start
  by_cases hm : c = '-'
  · subst hm
    cases hx with
    | one hi =>
      obtain ⟨d, ds, rfl, _, hds⟩ := hi
      obtain ⟨rfl, rfl⟩ := List.cons.inj e
      exact literalFloat_minus hds hw.digit (fun r er => absurd rfl (hw.dot _ _ er).2)
    | more hi hy =>
      rename_i x y
      obtain ⟨d, ds, rfl, _, hds⟩ := hi
      obtain ⟨rfl, rfl⟩ := List.cons.inj e
      have : '-' :: (ds ++ '.' :: y) ++ w = '-' :: (ds ++ '.' :: (y ++ w)) := by simp
      have e2 : '-' :: ds ++ '.' :: y ++ w = '-' :: (ds ++ '.' :: (y ++ w)) := by simp
      rw [e2]
      refine literalFloat_minus hds ?_ ?_
      · intro c T' h
        rw [← (List.cons.inj h).1]; decide
      · intro r h
        obtain ⟨_, rfl⟩ := List.cons.inj h
        obtain ⟨b, bs, rfl, hb⟩ := hy.start
        refine digits_none ?_ _
        cases hd : isDigit b with
        | false => rfl
        | true => rw [digit_not_initial hd] at hb; cases hb
  · rw [e]
    refine literalFloat_ne ?_ (ne_of_initial hc (by decide)) hm _
    cases hd : isDigit c with
    | false => rfl
    | true => rw [digit_not_initial hd] at hc; cases hc

theorem wildcard_name {x w : List Char} (hx : DottedText x) (hwild : ¬ WildLike x) (hw : Ends w) :
    termWildcard (x ++ w) = none := by
  obtain ⟨c, cs, rfl, hc⟩ := hx.start
  by_cases hu : c = '_'
  · subst hu
    cases cs with
    | nil => exact absurd (Or.inl rfl) hwild
    | cons d cs =>
      have hd := hx.name d (by simp)
      have : isRest d = true := by
        simp only [isName, Bool.or_eq_true, beq_iff_eq] at hd
        rcases hd with hd | rfl
        · exact hd
        · exact absurd (Or.inr ⟨cs, rfl⟩) hwild
      simp [termWildcard, this]
  · exact termWildcard_ne hu _

theorem reads_name {x : List Char} (hx : SymbolText x) (hwild : ¬ WildLike x) :
    Reads (.apply x .nil) := by
  intro s hs
  rw [printTerm] at hs
  rw [renders_text hs]
  obtain ⟨c, cs, e, hc⟩ := hx.1.start
  refine ⟨by rw [e]; exact starts_of_initial hc, .apply x .nil, rfl, ?_⟩
  intro f w hw hf
  obtain ⟨f, rfl⟩ : ∃ g, f = g + 2 := ⟨f - 2, by omega⟩
  have h1 := wildcard_name hx.1 hwild hw
  have h2 := literalFloat_name hx.1 hw
  have h3 := symbolName_text hx hw.name
  rw [e, List.cons_append] at h1 h2 h3 ⊢
  rw [term_initial hc f h1 h2, h3]

/-! ## Literals -/

theorem reads_str (x : List Char) : Reads (.literal (.str x)) := by
  intro s hs
  rw [printTerm, printLiteral] at hs
  rw [renders_text hs]
  obtain ⟨segs, hp, ht⟩ := literalString_text x
  refine ⟨starts_lit (by decide), .str segs, by simp [buildTerm, hp, Res.bind], ?_⟩
  intro f w hw hf
  obtain ⟨f, rfl⟩ : ∃ g, f = g + 1 := ⟨f - 1, by omega⟩
  have h1 := ht w
  rw [stringText, List.cons_append, List.cons_append] at h1 ⊢
  rw [term, termWildcard_ne (by decide), termVar_ne (by decide), termList_ne (by decide)]
  simp only [alt_none, literal, h1, alt_some]

theorem term_digit {c : Char} {s r : List Char} {t : Tree} (hc : isDigit c = true) (f : Nat)
    (h : literal (c :: s) = some (t, r)) : term (f + 1) (c :: s) = some (t, r) := by
  rw [term, termWildcard_ne (ne_of_digit hc (by decide)), termVar_ne (ne_of_digit hc (by decide)),
    termList_ne (ne_of_digit hc (by decide)), h]
  rfl

theorem reads_nat {n : Nat} (hn : n < 2 ^ 64) : Reads (.literal (.nat n)) := by
  intro s hs
  rw [printTerm, printLiteral] at hs
  rw [renders_text hs]
  obtain ⟨h0, hd⟩ := natText_digits n
  obtain ⟨c, cs, e⟩ : ∃ c cs, natText n = c :: cs := by
    cases h : natText n with
    | nil => exact absurd h h0
    | cons c cs => exact ⟨c, cs, rfl⟩
  have hc : isDigit c = true := hd c (by simp [e])
  refine ⟨by rw [e]; exact starts_of_digit hc, .nat (natText n), ?_, ?_⟩
  · simp only [buildTerm, parseNat, fromDigits_natText, hn, if_true, Res.bind]
  · intro f w hw hf
    obtain ⟨f, rfl⟩ : ∃ g, f = g + 1 := ⟨f - 1, by omega⟩
    have h1 := literalFloat_nat h0 hd hw.dot
    have h2 := literalNat_text h0 hd hw.digit
    have h3 : literal (natText n ++ w) = some (.nat (natText n), w) := by
      rw [literal, h1, h2, e, List.cons_append, literalString_ne (ne_of_digit hc (by decide))]
      rfl
    have e2 : natText n ++ w = c :: (cs ++ w) := by rw [e]; rfl
    rw [e2] at h3 ⊢
    exact term_digit hc f h3

theorem reads_float {t : List Char} (ht : FloatText t) : Reads (.literal (.float t)) := by
  intro s hs
  rw [printTerm, printLiteral] at hs
  rw [renders_text hs]
  have hhead : ∃ c cs, t = c :: cs ∧ (isDigit c = true ∨ c = '+' ∨ c = '-') := by
    obtain ⟨sign, ds, es, ex, rfl, hsign, hd0, hd, _⟩ := ht
    rcases hsign with rfl | rfl | rfl
    · cases ds with
      | nil => exact absurd rfl hd0
      | cons d ds => exact ⟨d, _, rfl, Or.inl (hd d (by simp))⟩
    · exact ⟨'+', _, rfl, Or.inr (Or.inl rfl)⟩
    · exact ⟨'-', _, rfl, Or.inr (Or.inr rfl)⟩
  obtain ⟨c, cs, e, hc⟩ := hhead
  have hst : Starts t := by
    rw [e]
    rcases hc with hc | rfl | rfl
    · exact starts_of_digit hc
    · exact starts_lit (by decide)
    · exact starts_lit (by decide)
  refine ⟨hst, .float t, rfl, ?_⟩
  intro f w hw hf
  obtain ⟨f, rfl⟩ : ∃ g, f = g + 1 := ⟨f - 1, by omega⟩
  have h1 := literalFloat_text ht hw
  have hne : ∀ d : Char, isDigit d = false ∧ d ≠ '+' ∧ d ≠ '-' → c ≠ d := by
    intro d hd
    rcases hc with hc | rfl | rfl
    · exact ne_of_digit hc hd.1
    · exact Ne.symm hd.2.1
    · exact Ne.symm hd.2.2
  have e2 : t ++ w = c :: (cs ++ w) := by rw [e]; rfl
  rw [e2] at h1 ⊢
  rw [term, termWildcard_ne (hne _ (by decide)), termVar_ne (hne _ (by decide)),
    termList_ne (hne _ (by decide))]
  simp only [alt_none, literal, literalString_ne (hne '"' (by decide)), h1, alt_some]

/-- The rules before those that start with a parenthesis. -/
theorem term_paren (f : Nat) (s : List Char) : term (f + 1) ('(' :: s) =
    alt (literalBytes ('(' :: s)) (alt (termTuple f ('(' :: s))
      (alt (termConstFunc f ('(' :: s)) (termApply f ('(' :: s)))) := by
  rw [term, termWildcard_ne (by decide), termVar_ne (by decide), termList_ne (by decide)]
  simp only [alt_none, literal, literalString_ne (c := '(') (by decide),
    literalFloat_ne (c := '(') (by decide) (by decide) (by decide),
    literalNat_ne (c := '(') (by decide)]

theorem lit_paren (s : List Char) : lit "(".toList ('(' :: s) = some s := rfl
theorem lit_close (s : List Char) : lit ")".toList (')' :: s) = some s := rfl
theorem skip_close (s : List Char) : skip (')' :: s) = ')' :: s := skip_fix (by decide) (by decide) s

theorem reads_bytes (bs : List Byte) : Reads (.literal (.bytes bs)) := by
  intro s hs
  rw [printTerm, printLiteral] at hs
  obtain ⟨b, hb, rfl⟩ := renders_group hs
  obtain ⟨s1, lead, s2, rfl, h1, h2, hl⟩ := rendersAll_cons hb
  have hlead : Sep lead := by
    rcases hl with ⟨h, _⟩ | ⟨h, _⟩
    · cases h
    · exact h
  obtain ⟨s3, lead2, s4, rfl, h3, h4, hl2⟩ := rendersAll_cons h2
  have hn : lead2 = [] ∧ s4 = [] := by
    rcases hl2 with ⟨_, h, h'⟩ | ⟨_, h⟩
    · exact ⟨h, h'⟩
    · exact absurd rfl h
  obtain ⟨rfl, rfl⟩ := hn
  rw [renders_text h1, renders_text h3]
  refine ⟨starts_lit (by decide), .bytes (b64Encode bs), ?_, ?_⟩
  · simp [buildTerm, parseBytes, b64_round, Res.bind]
  · intro f w hw hf
    obtain ⟨f, rfl⟩ : ∃ g, f = g + 1 := ⟨f - 1, by omega⟩
    have e : ['('] ++ ("bytes".toList ++ (lead ++ ('"' :: b64Encode bs ++ ['"'] ++ ([] ++ [])))) ++ [')'] ++ w
        = '(' :: ("bytes".toList ++ (lead ++ ('"' :: (b64Encode bs ++ '"' :: ')' :: w)))) := by
      simp
    rw [e, term_paren]
    have hs1 : skip ("bytes".toList ++ (lead ++ ('"' :: (b64Encode bs ++ '"' :: ')' :: w)))) =
        "bytes".toList ++ (lead ++ ('"' :: (b64Encode bs ++ '"' :: ')' :: w))) :=
      skip_fix (by decide) (by decide) _
    have hs2 : skip (lead ++ ('"' :: (b64Encode bs ++ '"' :: ')' :: w))) =
        '"' :: (b64Encode bs ++ '"' :: ')' :: w) := skip_sep hlead (by decide) (by decide)
    have hb64 := base64String_text bs (')' :: w)
    have e3 : '"' :: b64Encode bs ++ ['"'] ++ ')' :: w = '"' :: (b64Encode bs ++ '"' :: ')' :: w) := by
      simp
    rw [e3] at hb64
    simp only [literalBytes, lit_paren, hs1, lit_append, hs2, hb64, skip_close, lit_close, alt_some]

theorem reads_literal {l : Literal} (h : l.Ok) : Reads (.literal l) := by
  cases l with
  | str s => exact reads_str s
  | nat n => exact reads_nat h
  | bytes bs => exact reads_bytes bs
  | float t => exact reads_float h

/-! ## Sequences -/

theorem readsTerms_nil : ReadsTerms .nil := by
  intro s hs
  rw [printTerms] at hs
  rw [rendersAll_nil hs]
  refine ⟨fun h => absurd rfl h, .nil, rfl, ?_⟩
  intro f w lead hl _
  rcases hl with rfl | ⟨_, h⟩
  · exact moreTerms_close (Or.inl rfl) f w
  · exact absurd rfl h

theorem skip_lead {lead s : List Char} (hl : lead = [] ∨ Sep lead) (hs : Starts s) :
    skip (lead ++ s) = s := by
  rcases hl with rfl | hl
  · exact skip_starts hs
  · exact skip_sep_starts hl hs

theorem readsTerms_cons {t : Term} {ts : Terms} (ht : Reads t) (hts : ReadsTerms ts) :
    ReadsTerms (.cons t ts) := by
  intro s hs
  rw [printTerms] at hs
  obtain ⟨s1, lead2, s2, rfl, h1, h2, hl2⟩ := rendersAll_cons hs
  obtain ⟨hst, tr, hb, hr⟩ := ht s1 h1
  obtain ⟨hst2, trs, hbs, hrs⟩ := hts s2 h2
  refine ⟨fun _ => hst.append _, .cons tr trs, by simp [buildTerms, hb, hbs, Res.bind], ?_⟩
  intro f w lead hl hf
  obtain ⟨f, rfl⟩ : ∃ g, f = g + 1 := ⟨f - 1, by omega⟩
  have e : lead ++ (s1 ++ (lead2 ++ s2) ++ ')' :: w) = lead ++ (s1 ++ (lead2 ++ (s2 ++ ')' :: w))) := by
    simp
  have hends : Ends (lead2 ++ (s2 ++ ')' :: w)) := by
    rcases hl2 with ⟨_, rfl, rfl⟩ | ⟨h, _⟩
    · simp [Ends]
    · exact Ends.of_sep h _
  have hlen : s1.length + (lead2.length + s2.length) = (s1 ++ (lead2 ++ s2)).length := by simp
  have hl2' : lead2 = [] ∨ Sep lead2 ∧ ts ≠ .nil := by
    rcases hl2 with ⟨_, h, _⟩ | ⟨h, h'⟩
    · exact Or.inl h
    · refine Or.inr ⟨h, ?_⟩
      rintro rfl
      exact h' (by rw [printTerms])
  have hs1 : 0 < s1.length := by
    cases s1 with
    | nil => exact absurd rfl hst.ne_nil
    | cons _ _ => simp
  rw [e, moreTerms, skip_lead (hl.imp id And.left) (hst.append _), hr f _ hends (by omega)]
  simp only []
  rw [hrs f w lead2 hl2' (by omega)]

theorem readsParts_nil : ReadsParts .nil := by
  intro s hs
  rw [plainParts] at hs
  rw [rendersAll_nil hs]
  refine ⟨fun h => absurd rfl h, .nil, rfl, ?_⟩
  intro f k w lead hk hl _
  rcases hl with rfl | ⟨_, h⟩
  · exact moreParts_close (by tauto) f w
  · exact absurd rfl h

theorem lit_dots_none {s : List Char} {c : Char} (h : c ≠ '.') : lit "...".toList (c :: s) = none :=
  lit_cons_ne _ _ h

theorem readsParts_item {t : Term} {ps : Parts} (ht : Reads t) (hps : ReadsParts ps) :
    ReadsParts (.item t ps) := by
  intro s hs
  rw [plainParts] at hs
  obtain ⟨s1, lead2, s2, rfl, h1, h2, hl2⟩ := rendersAll_cons hs
  obtain ⟨hst, tr, hb, hr⟩ := ht s1 h1
  obtain ⟨hst2, trs, hbs, hrs⟩ := hps s2 h2
  refine ⟨fun _ => hst.append _, .item tr trs, by simp [buildParts, hb, hbs, Res.bind], ?_⟩
  intro f k w lead hk hl hf
  obtain ⟨f, rfl⟩ : ∃ g, f = g + 2 := ⟨f - 2, by omega⟩
  have e : lead ++ (s1 ++ (lead2 ++ s2) ++ k :: w) = lead ++ (s1 ++ (lead2 ++ (s2 ++ k :: w))) := by
    simp
  have hl2' : lead2 = [] ∨ Sep lead2 ∧ ps ≠ .nil := by
    rcases hl2 with ⟨_, h, _⟩ | ⟨h, h'⟩
    · exact Or.inl h
    · refine Or.inr ⟨h, ?_⟩
      rintro rfl
      exact h' (by rw [plainParts])
  have hends : Ends (lead2 ++ (s2 ++ k :: w)) := by
    rcases hl2 with ⟨_, rfl, rfl⟩ | ⟨h, _⟩
    · rcases hk with rfl | rfl <;> simp [Ends]
    · exact Ends.of_sep h _
  have hdots : lit "...".toList (skip (lead2 ++ (s2 ++ k :: w))) = none := by
    rcases hl2 with ⟨_, rfl, rfl⟩ | ⟨h, h'⟩
    · rcases hk with rfl | rfl
      · rw [List.nil_append, List.nil_append, skip_fix (by decide) (by decide)]; rfl
      · rw [List.nil_append, List.nil_append, skip_fix (by decide) (by decide)]; rfl
    · have hne : ps ≠ .nil := by
        rintro rfl
        exact h' (by rw [plainParts])
      rw [skip_sep_starts h ((hst2 hne).append _)]
      obtain ⟨c, cs, rfl, _, _, _, _, hc⟩ := hst2 hne
      exact lit_dots_none hc
  have hlen : s1.length + (lead2.length + s2.length) = (s1 ++ (lead2 ++ s2)).length := by simp
  have hs1 : 0 < s1.length := by
    cases s1 with
    | nil => exact absurd rfl hst.ne_nil
    | cons _ _ => simp
  have hterm := hr f _ hends (by omega)
  rw [e, moreParts, skip_lead (hl.imp id And.left) (hst.append _), part, hterm]
  simp only [hdots, alt_none]
  rw [hrs (f + 1) k w lead2 hk hl2' (by omega)]

theorem readsParts_splice {t : Term} {ps : Parts} (ht : Reads t) (hps : ReadsParts ps) :
    ReadsParts (.splice t ps) := by
  intro s hs
  rw [plainParts] at hs
  obtain ⟨s0, lead2, s2, rfl, h0, h2, hl2⟩ := rendersAll_cons hs
  obtain ⟨b, hb0, rfl⟩ := renders_group h0
  obtain ⟨s1, lead1, s3, rfl, h1, h3, hl1⟩ := rendersAll_cons hb0
  have hsep : Sep lead1 := by
    rcases hl1 with ⟨h, _⟩ | ⟨h, _⟩
    · cases h
    · exact h
  obtain ⟨s4, lead4, s5, rfl, h4, h5, hl4⟩ := rendersAll_cons h3
  have hn : lead4 = [] ∧ s5 = [] := by
    rcases hl4 with ⟨_, h, h'⟩ | ⟨_, h⟩
    · exact ⟨h, h'⟩
    · exact absurd rfl h
  obtain ⟨rfl, rfl⟩ := hn
  rw [renders_text h4]
  obtain ⟨hst, tr, hb, hr⟩ := ht s1 h1
  obtain ⟨hst2, trs, hbs, hrs⟩ := hps s2 h2
  refine ⟨fun _ => ?_, .splice tr trs, by simp [buildParts, hb, hbs, Res.bind], ?_⟩
  · simpa using hst.append (lead1 ++ ("...".toList ++ (lead2 ++ s2)))
  intro f k w lead hk hl hf
  obtain ⟨f, rfl⟩ : ∃ g, f = g + 2 := ⟨f - 2, by omega⟩
  have e : lead ++ ([] ++ (s1 ++ (lead1 ++ ("...".toList ++ ([] ++ [])))) ++ [] ++ (lead2 ++ s2) ++ k :: w) =
      lead ++ (s1 ++ (lead1 ++ ("...".toList ++ (lead2 ++ (s2 ++ k :: w))))) := by
    simp
  have hl2' : lead2 = [] ∨ Sep lead2 ∧ ps ≠ .nil := by
    rcases hl2 with ⟨_, h, _⟩ | ⟨h, h'⟩
    · exact Or.inl h
    · refine Or.inr ⟨h, ?_⟩
      rintro rfl
      exact h' (by rw [plainParts])
  have hends : Ends (lead1 ++ ("...".toList ++ (lead2 ++ (s2 ++ k :: w)))) := Ends.of_sep hsep _
  have hskip : skip (lead1 ++ ("...".toList ++ (lead2 ++ (s2 ++ k :: w)))) =
      "...".toList ++ (lead2 ++ (s2 ++ k :: w)) := skip_sep hsep (by decide) (by decide)
  have hs1 : 0 < s1.length := by
    cases s1 with
    | nil => exact absurd rfl hst.ne_nil
    | cons _ _ => simp
  simp only [List.length_append, List.length_nil, Nat.zero_add, Nat.add_zero] at hf
  have hterm := hr f _ hends (by omega)
  rw [e, moreParts, skip_lead (hl.imp id And.left) (hst.append _), part, hterm]
  simp only [hskip, lit_append, alt_some]
  rw [hrs (f + 1) k w lead2 hk hl2' (by omega)]

/-! ## Lists, tuples and applications -/

theorem reads_list {ps : Parts} (hflat : ps.IsFlatList) (hps : ReadsParts ps) : Reads (.list ps) := by
  intro s hs
  rw [printTerm, plain_list hflat] at hs
  obtain ⟨b, hb, rfl⟩ := renders_group hs
  obtain ⟨hst, trs, hbs, hrs⟩ := hps b hb
  refine ⟨starts_lit (by decide), .list trs, by simp [buildTerm, hbs, Res.bind], ?_⟩
  intro f w hw hf
  obtain ⟨f, rfl⟩ : ∃ g, f = g + 2 := ⟨f - 2, by omega⟩
  simp only [List.length_append, List.length_cons, List.length_nil] at hf
  have e : ['['] ++ b ++ [']'] ++ w = '[' :: (b ++ ']' :: w) := by simp
  have hskip : skip (b ++ ']' :: w) = b ++ ']' :: w := by
    by_cases hne : ps = .nil
    · subst hne
      rw [plainParts] at hb
      rw [rendersAll_nil hb]
      exact skip_fix (by decide) (by decide) w
    · exact skip_starts ((hst hne).append _)
  have hp := hrs f ']' w [] (Or.inr rfl) (Or.inl rfl) (by omega)
  rw [List.nil_append] at hp
  rw [e, term, termWildcard_ne (by decide), termVar_ne (by decide), termList]
  have hl : lit "[".toList ('[' :: (b ++ ']' :: w)) = some (b ++ ']' :: w) := rfl
  have hl2 : lit "]".toList (']' :: w) = some w := rfl
  simp only [alt_none, hl, hskip, parts_eq hskip, hp, skip_fix (c := ']') (by decide) (by decide),
    hl2, alt_some]

theorem literalBytes_other {s : List Char} (h : lit "bytes".toList (skip s) = none) :
    literalBytes ('(' :: s) = none := by
  simp only [literalBytes, lit_paren, h]

theorem reads_tuple {ps : Parts} (hflat : ps.IsFlatTuple) (hps : ReadsParts ps) :
    Reads (.tuple ps) := by
  intro s hs
  rw [printTerm, plain_tuple hflat] at hs
  obtain ⟨b0, hb0, rfl⟩ := renders_group hs
  obtain ⟨s1, lead, b, rfl, h1, hb, hl⟩ := rendersAll_cons hb0
  rw [renders_text h1]
  obtain ⟨hst, trs, hbs, hrs⟩ := hps b hb
  refine ⟨starts_lit (by decide), .tuple trs, by simp [buildTerm, hbs, Res.bind], ?_⟩
  intro f w hw hf
  obtain ⟨f, rfl⟩ : ∃ g, f = g + 2 := ⟨f - 2, by omega⟩
  simp only [List.length_append, List.length_cons, List.length_nil] at hf
  have e : ['('] ++ ("tuple".toList ++ (lead ++ b)) ++ [')'] ++ w =
      '(' :: ("tuple".toList ++ (lead ++ (b ++ ')' :: w))) := by simp
  have hskip1 : skip ("tuple".toList ++ (lead ++ (b ++ ')' :: w))) =
      "tuple".toList ++ (lead ++ (b ++ ')' :: w)) := skip_fix (by decide) (by decide) _
  have hskip2 : skip (lead ++ (b ++ ')' :: w)) = b ++ ')' :: w := by
    rcases hl with ⟨_, rfl, rfl⟩ | ⟨h, h'⟩
    · exact skip_close w
    · have hne : ps ≠ .nil := by
        rintro rfl
        exact h' (by rw [plainParts])
      exact skip_sep_starts h ((hst hne).append _)
  have hskip3 : skip (b ++ ')' :: w) = b ++ ')' :: w := by
    by_cases hne : ps = .nil
    · subst hne
      rw [plainParts] at hb
      rw [rendersAll_nil hb]
      exact skip_close w
    · exact skip_starts ((hst hne).append _)
  have hp := hrs f ')' w [] (Or.inl rfl) (Or.inl rfl) (by omega)
  rw [List.nil_append] at hp
  have hbytes : literalBytes ('(' :: ("tuple".toList ++ (lead ++ (b ++ ')' :: w)))) = none := by
    apply literalBytes_other
    rw [hskip1]
    rfl
  rw [e, term_paren, hbytes, termTuple]
  simp only [alt_none, lit_paren, hskip1, lit_append, hskip2, parts_eq hskip3, hp, skip_close,
    lit_close, alt_some]

theorem blank_not_mem {w : List Char} (hw : Blank w) {k : List Char} (hk : ∀ c ∈ k, isName c = true) :
    ∀ c w', w = c :: w' → c ∉ k := by
  rintro c w' e hc
  obtain ⟨d, w'', rfl, hd⟩ := hw
  obtain ⟨rfl, rfl⟩ := List.cons.inj e
  have := hk _ hc
  rcases hd with rfl | rfl <;> exact absurd this (by decide)

theorem reads_apply {x : List Char} {t : Term} {ts : Terms} (hx : SymbolText x) (htup : ¬ TupleLike x)
    (hfn : x = "fn".toList → ts ≠ .nil) (ht : Reads t) (hts : ReadsTerms ts) :
    Reads (.apply x (.cons t ts)) := by
  intro s hs
  rw [printTerm] at hs
  obtain ⟨b0, hb0, rfl⟩ := renders_group hs
  obtain ⟨s1, lead, b, rfl, h1, hb, hl⟩ := rendersAll_cons hb0
  rw [renders_text h1]
  have hsep : Sep lead := by
    rcases hl with ⟨h, _⟩ | ⟨h, _⟩
    · cases h
    · exact h
  have hcons := readsTerms_cons ht hts
  have hb' : RendersAll (printTerms (.cons t ts)) b := by rw [printTerms]; exact hb
  obtain ⟨hst, trs, hbs, hrs⟩ := hcons b hb'
  have hstb : Starts b := hst (by simp)
  refine ⟨starts_lit (by decide), .apply x trs, by simp [buildTerm, hbs, Res.bind], ?_⟩
  intro f w hw hf
  obtain ⟨f, rfl⟩ : ∃ g, f = g + 2 := ⟨f - 2, by omega⟩
  simp only [List.length_append, List.length_cons, List.length_nil] at hf
  have e : ['('] ++ (x ++ (lead ++ b)) ++ [')'] ++ w = '(' :: (x ++ (lead ++ (b ++ ')' :: w))) := by simp
  generalize hrest : b ++ ')' :: w = rest
  have hstr : Starts rest := by rw [← hrest]; exact hstb.append _
  have hblank : Blank (lead ++ rest) := Blank.of_sep hsep rest
  have hends : Ends (lead ++ rest) := Ends.of_sep hsep rest
  obtain ⟨c, cs, ex, hc⟩ := hx.1.start
  have hskipx : skip (x ++ (lead ++ rest)) = x ++ (lead ++ rest) := by
    apply skip_starts
    rw [ex]; exact starts_of_initial hc
  have hskipr : skip (lead ++ rest) = rest := skip_sep_starts hsep hstr
  -- a keyword at the start is a proper prefix of the name
  have hkw : ∀ k : List Char, (∀ c ∈ k, isName c = true) → ∀ r, lit k (x ++ (lead ++ rest)) = some r →
      ∃ y, x = k ++ y ∧ r = y ++ (lead ++ rest) := by
    intro k hk r hr
    exact lit_name hr (blank_not_mem hblank hk)
  have hbytes : literalBytes ('(' :: (x ++ (lead ++ rest))) = none := by
    simp only [literalBytes, lit_paren, hskipx]
    cases hk : lit "bytes".toList (x ++ (lead ++ rest)) with
    | none => rfl
    | some r =>
      obtain ⟨y, ey, rfl⟩ := hkw _ (by decide) r hk
      cases y with
      | nil => exact absurd (show x ∈ reservedWords by rw [ey]; decide) hx.2
      | cons d y =>
        have hd : isName d = true := hx.1.name d (by rw [ey]; simp)
        have hbs : base64String (d :: (y ++ (lead ++ rest))) = none := by
          unfold base64String
          split
          · next e' =>
            rw [(List.cons.inj e').1] at hd
            exact absurd hd (by decide)
          · rfl
        simp only [List.cons_append, skip_fix (name_not_space hd) (ne_of_name hd (by decide)), hbs]
  have htuple : termTuple (f + 1) ('(' :: (x ++ (lead ++ rest))) = none := by
    rw [termTuple]
    simp only [lit_paren, hskipx]
    cases hk : lit "tuple".toList (x ++ (lead ++ rest)) with
    | none => rfl
    | some r =>
      obtain ⟨y, ey, rfl⟩ := hkw _ (by decide) r hk
      cases y with
      | nil => exact absurd (show x ∈ reservedWords by rw [ey]; decide) hx.2
      | cons d y =>
        have hd : isName d = true := hx.1.name d (by rw [ey]; simp)
        have hdot : d = '.' := by
          simp only [isName, Bool.or_eq_true, beq_iff_eq] at hd
          rcases hd with hd | hd
          · exact absurd ⟨d, y, ey, hd⟩ htup
          · exact hd
        subst hdot
        have hsk : skip ('.' :: (y ++ (lead ++ rest))) = '.' :: (y ++ (lead ++ rest)) :=
          skip_fix (by decide) (by decide) _
        simp only [List.cons_append, hsk, parts_eq hsk, moreParts_close (Or.inr (Or.inr rfl))]
        rfl
  have hfunc : termConstFunc (f + 1) ('(' :: (x ++ (lead ++ rest))) = none := by
    rw [termConstFunc]
    simp only [lit_paren, hskipx]
    cases hk : lit "fn".toList (x ++ (lead ++ rest)) with
    | none => rfl
    | some r =>
      obtain ⟨y, ey, rfl⟩ := hkw _ (by decide) r hk
      simp only []
      cases y with
      | nil =>
        rw [List.nil_append, hskipr]
        -- the first argument is read, and another one follows
        have hne := hfn (by rw [ey]; rfl)
        obtain ⟨a1, alead, a2, rfl, ha1, ha2, hal⟩ := rendersAll_cons hb
        obtain ⟨_, tr, _, hr⟩ := ht a1 ha1
        have hasep : Sep alead := by
          rcases hal with ⟨h, _⟩ | ⟨h, _⟩
          · cases ts with
            | nil => exact absurd rfl hne
            | cons u us => simp [printTerms] at h
          · exact h
        have ha2st : Starts a2 := by
          obtain ⟨h, _⟩ := hts a2 ha2
          exact h hne
        have er : rest = a1 ++ (alead ++ (a2 ++ ')' :: w)) := by rw [← hrest]; simp
        rw [er, hr f _ (Ends.of_sep hasep _) (by simp only [List.length_append] at hf; omega)]
        simp only [skip_sep_starts hasep (ha2st.append _)]
        obtain ⟨d, ds, rfl, _, _, hd, _⟩ := ha2st
        rw [List.cons_append, show ")".toList = [')'] from rfl, lit_cons_ne [] _ hd]
      | cons d y =>
        have hd : isName d = true := hx.1.name d (by rw [ey]; simp)
        rw [List.cons_append, skip_fix (name_not_space hd) (ne_of_name hd (by decide))]
        cases htm : term f (d :: (y ++ (lead ++ rest))) with
        | none => rfl
        | some p =>
          obtain ⟨tr, r3⟩ := p
          have hin : InName (lead ++ rest) (d :: (y ++ (lead ++ rest))) :=
            ⟨d :: y, rfl, fun c hc => hx.1.name c (by rw [ey]; simp [List.mem_cons.mp hc])⟩
          obtain ⟨r4, rfl, hr4⟩ := inName_term hblank hin hd f htm
          simp only []
          cases r4 with
          | nil =>
            rw [List.nil_append, hskipr]
            obtain ⟨a, as, rfl, _, _, ha, _⟩ := hstr
            rw [show ")".toList = [')'] from rfl, lit_cons_ne [] _ ha]
          | cons a as =>
            have ha := hr4 a (by simp)
            rw [List.cons_append, skip_fix (name_not_space ha) (ne_of_name ha (by decide)),
              show ")".toList = [')'] from rfl, lit_cons_ne [] _ (ne_of_name ha (by decide))]
  have hp := hrs f w [] (Or.inl rfl) (by omega)
  rw [List.nil_append, hrest] at hp
  have hterms : terms f rest = (trs, ')' :: w) := by
    rw [terms_eq (skip_starts hstr), hp]
  rw [e, hrest, term_paren, hbytes, htuple, hfunc, termApply,
    symbolName_none (show isInitial '(' = false by decide)]
  simp only [alt_none, lit_paren, hskipx, symbolName_text hx hends.name, hskipr, hterms, skip_close,
    lit_close]

/-! ## All terms -/

mutual
theorem reads_term (t : Term) (hok : t.Ok) (hflat : t.IsFlat) : Reads t := by
  match t with
  | .wildcard => exact reads_wildcard
  | .var x =>
    simp only [Term.Ok] at hok
    exact reads_var hok
  | .apply x .nil =>
    simp only [Term.Ok] at hok
    exact reads_name hok.1 hok.2
  | .apply x (.cons t ts) =>
    simp only [Term.Ok] at hok
    simp only [Term.IsFlat, Terms.IsFlat] at hflat
    exact reads_apply hok.1 hok.2.1 hok.2.2.1 (reads_term t hok.2.2.2.1 hflat.1)
      (reads_terms ts hok.2.2.2.2 hflat.2)
  | .list ps =>
    simp only [Term.Ok] at hok
    simp only [Term.IsFlat] at hflat
    exact reads_list hflat (reads_parts ps hok (allFlat_list hflat))
  | .literal l =>
    simp only [Term.Ok] at hok
    exact reads_literal hok
  | .tuple ps =>
    simp only [Term.Ok] at hok
    simp only [Term.IsFlat] at hflat
    exact reads_tuple hflat (reads_parts ps hok (allFlat_tuple hflat))

theorem reads_terms (ts : Terms) (hok : ts.Ok) (hflat : ts.IsFlat) : ReadsTerms ts := by
  match ts with
  | .nil => exact readsTerms_nil
  | .cons t ts =>
    simp only [Terms.Ok] at hok
    simp only [Terms.IsFlat] at hflat
    exact readsTerms_cons (reads_term t hok.1 hflat.1) (reads_terms ts hok.2 hflat.2)

theorem reads_parts (ps : Parts) (hok : ps.Ok) (hflat : ps.AllFlat) : ReadsParts ps := by
  match ps with
  | .nil => exact readsParts_nil
  | .item t ps =>
    simp only [Parts.Ok] at hok
    simp only [Parts.AllFlat] at hflat
    exact readsParts_item (reads_term t hok.1 hflat.1) (reads_parts ps hok.2 hflat.2)
  | .splice t ps =>
    simp only [Parts.Ok] at hok
    simp only [Parts.AllFlat] at hflat
    exact readsParts_splice (reads_term t hok.1 hflat.1) (reads_parts ps hok.2 hflat.2)
end

end Verif.Text
