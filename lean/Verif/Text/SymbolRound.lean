import Verif.Text.ModuleLemmas

/-!
# Printed symbols are read back
-/
namespace Verif.Text

/-! ## First characters -/

theorem digit_not_alpha {c : Char} (h : isDigit c = true) : isAlpha c = false := by
  have := digit_not_initial h
  simp only [isInitial, Bool.or_eq_false_iff] at this
  exact this.1.1

theorem paren_head {k : List Char} {ds : List Doc} {s : List Char}
    (hs : Renders (.group ['('] [')'] (.text k :: ds)) s) : ∃ r, s = '(' :: (k ++ r) := by
  obtain ⟨b, hb, rfl⟩ := renders_group hs
  obtain ⟨s1, lead, s2, rfl, hr, _, _⟩ := rendersAll_cons hb
  rw [renders_text hr]
  exact ⟨lead ++ s2 ++ [')'], by simp⟩

/-- What a printed term starts with. -/
theorem term_head {t : Term} (h : t.Ok) {s : List Char} (hs : Renders (printTerm t) s) :
    ∃ c r, s = c :: r ∧ (c = '?' → ∃ v, t = .var v) ∧ (isAlpha c = true → ∃ x, t = .apply x .nil) ∧
      (c = '(' → (∃ x u us, t = .apply x (.cons u us)) ∨
        ∃ k r', (k = "tuple".toList ∨ k = "bytes".toList) ∧ r = k ++ r') := by
  match t with
  | .wildcard =>
    rw [printTerm] at hs
    exact ⟨'_', [], renders_text hs, fun h => absurd h (by decide), fun h => absurd h (by decide),
      fun h => absurd h (by decide)⟩
  | .var x =>
    rw [printTerm] at hs
    exact ⟨'?', x, renders_text hs, fun _ => ⟨x, rfl⟩, fun h => absurd h (by decide),
      fun h => absurd h (by decide)⟩
  | .apply x .nil =>
    rw [printTerm] at hs
    simp only [Term.Ok] at h
    obtain ⟨c, cs, rfl, hc⟩ := h.1.1.start
    exact ⟨c, cs, renders_text hs, fun h => absurd h (ne_of_initial hc (by decide)), fun _ => ⟨_, rfl⟩,
      fun h => absurd h (ne_of_initial hc (by decide))⟩
  | .apply x (.cons u us) =>
    rw [printTerm] at hs
    obtain ⟨r, rfl⟩ := paren_head hs
    exact ⟨'(', _, rfl, fun h => absurd h (by decide), fun h => absurd h (by decide),
      fun _ => Or.inl ⟨x, u, us, rfl⟩⟩
  | .list ps =>
    rw [printTerm] at hs
    obtain ⟨b, _, rfl⟩ := renders_group hs
    exact ⟨'[', b ++ [']'], rfl, fun h => absurd h (by decide), fun h => absurd h (by decide),
      fun h => absurd h (by decide)⟩
  | .tuple ps =>
    rw [printTerm] at hs
    obtain ⟨r, rfl⟩ := paren_head hs
    exact ⟨'(', _, rfl, fun h => absurd h (by decide), fun h => absurd h (by decide),
      fun _ => Or.inr ⟨_, r, Or.inl rfl, rfl⟩⟩
  | .literal (.str x) =>
    rw [printTerm, printLiteral] at hs
    exact ⟨'"', _, renders_text hs, fun h => absurd h (by decide), fun h => absurd h (by decide),
      fun h => absurd h (by decide)⟩
  | .literal (.nat n) =>
    rw [printTerm, printLiteral] at hs
    obtain ⟨h0, hd⟩ := natText_digits n
    rw [renders_text hs]
    cases e : natText n with
    | nil => exact absurd e h0
    | cons c cs =>
      have hc := hd c (by simp [e])
      exact ⟨c, cs, rfl, fun h => absurd h (ne_of_digit hc (by decide)),
        fun h => absurd h (by simp [digit_not_alpha hc]), fun h => absurd h (ne_of_digit hc (by decide))⟩
  | .literal (.bytes bs) =>
    rw [printTerm, printLiteral] at hs
    obtain ⟨r, rfl⟩ := paren_head hs
    exact ⟨'(', _, rfl, fun h => absurd h (by decide), fun h => absurd h (by decide),
      fun _ => Or.inr ⟨_, r, Or.inr rfl, rfl⟩⟩
  | .literal (.float t) =>
    rw [printTerm, printLiteral] at hs
    rw [renders_text hs]
    simp only [Term.Ok, Literal.Ok] at h
    obtain ⟨sign, ds, es, ex, rfl, hsign, hd0, hd, _⟩ := h
    rcases hsign with rfl | rfl | rfl
    · cases ds with
      | nil => exact absurd rfl hd0
      | cons c cs =>
        have hc := hd c (by simp)
        exact ⟨c, _, rfl, fun h => absurd h (ne_of_digit hc (by decide)),
          fun h => absurd h (by simp [digit_not_alpha hc]),
          fun h => absurd h (ne_of_digit hc (by decide))⟩
    · exact ⟨'+', _, rfl, fun h => absurd h (by decide), fun h => absurd h (by decide),
        fun h => absurd h (by decide)⟩
    · exact ⟨'-', _, rfl, fun h => absurd h (by decide), fun h => absurd h (by decide),
        fun h => absurd h (by decide)⟩

theorem skip_word {k : List Char} (hk : Starts k) (r : List Char) : skip (k ++ r) = k ++ r :=
  skip_starts (hk.append r)

/-! ## In the middle of a name -/

theorem lit_close_ne {c : Char} (h : c ≠ ')') (s : List Char) : lit ")".toList (c :: s) = none :=
  lit_cons_ne [] s h

theorem lit_close_starts {s : List Char} (h : Starts s) : lit ")".toList s = none := by
  obtain ⟨c, cs, rfl, _, _, hc, _⟩ := h
  exact lit_close_ne hc cs

/-- A term read from the middle of a name does not end before a closing parenthesis. -/
theorem mid_not_closed {W : List Char} (hW : Blank W) (hst : Starts (skip W)) {d : Char} {y : List Char}
    (hn : ∀ c ∈ d :: y, isName c = true) {tr : Tree} {r : List Char}
    (h : parseTermTree (d :: (y ++ W)) = some (tr, r)) : lit ")".toList (skip r) = none := by
  obtain ⟨r4, rfl, hr4⟩ := inName_term hW ⟨d :: y, rfl, hn⟩ (hn d (by simp)) _ h
  cases r4 with
  | nil => exact lit_close_starts hst
  | cons a as =>
    have ha := hr4 a (by simp)
    rw [List.cons_append, skip_fix (name_not_space ha) (ne_of_name ha (by decide))]
    exact lit_close_ne (ne_of_name ha (by decide)) _

/-! ## Parameters -/

theorem param_ne {c : Char} (h : c ≠ '(') (s : List Char) : param (c :: s) = none := by
  simp only [param, lit_paren_ne h]

theorem param_needs : NeedsText param := by
  rintro T (rfl | ⟨w, rfl⟩ | ⟨w, rfl⟩)
  · rfl
  · exact param_ne (by decide) w
  · exact param_ne (by decide) w

theorem param_other {s : List Char} (h : lit "param".toList (skip s) = none) :
    param ('(' :: s) = none := by
  simp only [param, lit_open, h]

theorem varName_text {x R : List Char} (hx : IdentText x) (hR : Ends R) :
    varName ('?' :: (x ++ R)) = some (x, R) := by
  have hst : Starts (x ++ R) := by
    obtain ⟨c, cs, rfl, hc, _⟩ := hx
    exact starts_of_initial hc
  simp only [varName, skip_starts hst, identifier_text hx hR.rest, consumed_append]

theorem varName_ne {c : Char} (h : c ≠ '?') (s : List Char) : varName (c :: s) = none := by
  unfold varName
  split
  · next e => exact absurd (List.cons.inj e).1 h
  · rfl

theorem param_starts : Starts "param".toList := starts_lit (by decide)

theorem param_accepts {p : Param} (hp : p.Ok) (N : Nat) :
    Accepts param (fun tr => buildParam tr = .ok p.flat) N (printParam p) := by
  intro s R hs _ _
  have hvar : DocStarts (.text ('?' :: p.name)) := text_starts (starts_lit (by decide))
  have hst : ∀ e ∈ [Doc.text ('?' :: p.name), printTerm p.type], DocStarts e := by
    intro e he
    simp only [List.mem_cons, List.not_mem_nil, or_false] at he
    rcases he with rfl | rfl
    · exact hvar
    · exact term_starts hp.2
  obtain ⟨R1, b1, e0, hsk, hR1, hsk1, hb1, _⟩ := paren_word (R := R) param_starts hst hs
  obtain ⟨s2, R2, b2, e2, hr2, hR2, hsk2, hb2, _⟩ := at_cons hb1 (fun e he => hst e (by simp [he])) (stop_close R)
  obtain ⟨s3, R3, b3, e3, hr3, hR3, hsk3, hb3, _⟩ := at_cons hb2 (by simp) (stop_close R)
  obtain ⟨tr, htr, hread⟩ := term_accepts hp.2 s3.length s3 R3 hr3 (Nat.le_refl _) hR3
  rw [rendersAll_nil hb3, List.nil_append] at hsk3
  rw [renders_text hr2, List.cons_append] at e2
  refine ⟨⟨p.name, tr⟩, by simp only [buildParam, htr, Res.bind, Param.flat], ?_⟩
  simp only [param, e0, lit_open, hsk, lit_append, hsk1, e2, varName_text hp.1 hR2, hsk2, e3, hread,
    hsk3, lit_close]

theorem params_accepts (N : Nat) {ps : List Param} (h : ∀ p ∈ ps, p.Ok) :
    AllAccepts param (fun p tr => buildParam tr = .ok p) N (ps.map printParam) (ps.map Param.flat) := by
  induction ps with
  | nil => exact .nil
  | cons p ps ih =>
    exact .cons (param_accepts (h p (by simp)) N) (paren_starts _) (ih fun u hu => h u (by simp [hu]))

theorem blank_name_lit {k x W r : List Char} (hk : ∀ c ∈ k, isName c = true) (hW : Ends W)
    (h : lit k (x ++ W) = some r) : ∃ y, x = k ++ y ∧ r = y ++ W :=
  lit_name h (fun c w' e hc => by have := hk c hc; rw [hW.name c w' e] at this; cases this)

theorem terms_start {ts : Terms} (h : ts.Ok) : ∀ e ∈ printTerms ts, DocStarts e := by
  match ts with
  | .nil => simp [printTerms]
  | .cons t ts =>
    simp only [Terms.Ok] at h
    intro e he
    rw [printTerms] at he
    rcases List.mem_cons.mp he with rfl | he
    · exact term_starts h.1
    · exact terms_start h.2 e he

theorem rendersAll_starts {d : Doc} {ds : List Doc} {b : List Char} (h : RendersAll (d :: ds) b)
    (hd : DocStarts d) : Starts b := by
  obtain ⟨s1, lead, s2, rfl, hr, _, _⟩ := rendersAll_cons h
  exact (hd s1 hr).append _

theorem skip_name {d : Char} (h : isName d = true) (s : List Char) : skip (d :: s) = d :: s :=
  skip_fix (name_not_space h) (ne_of_name h (by decide)) s

theorem param_rejects {t : Term} (ht : t.Ok) (hn : ¬ ParamLike t) : Rejects param (printTerm t) := by
  intro s R hs hR
  obtain ⟨c, r, rfl, _, _, hpar⟩ := term_head ht hs
  by_cases hc : c = '('
  case neg => exact param_ne hc _
  subst hc
  rcases hpar rfl with ⟨x, u, us, rfl⟩ | ⟨k, r', hk, rfl⟩
  case inr =>
    rw [List.cons_append, List.append_assoc]
    refine param_other ?_
    rcases hk with rfl | rfl
    · rw [skip_word (k := "tuple".toList) (starts_lit (by decide))]; rfl
    · rw [skip_word (k := "bytes".toList) (starts_lit (by decide))]; rfl
  rw [printTerm] at hs
  simp only [Term.Ok] at ht
  obtain ⟨hx, _, _, hu, hus⟩ := ht
  have hxs : Starts x := by
    obtain ⟨c, cs, rfl, hc⟩ := hx.1.start
    exact starts_of_initial hc
  have hst : ∀ e ∈ printTerm u :: printTerms us, DocStarts e := by
    intro e he
    rcases List.mem_cons.mp he with rfl | he
    · exact term_starts hu
    · exact terms_start hus e he
  obtain ⟨R1, b1, e0, hsk, hR1, hsk1, hb1, _, hbl⟩ := paren_word (R := R) hxs hst hs
  rw [e0]
  simp only [param, lit_open, hsk]
  cases hl : lit "param".toList (x ++ R1) with
  | none => rfl
  | some r1 =>
    obtain ⟨y, rfl, rfl⟩ := blank_name_lit (by decide) hR1 hl
    simp only []
    cases y with
    | cons d y =>
      have hd : isName d = true := hx.1.name d (by simp)
      rw [List.cons_append, skip_name hd]
      simp only [varName_ne (ne_of_name hd (show isName '?' = false by decide))]
    | nil =>
      rw [List.nil_append, hsk1]
      obtain ⟨s2, R2, b2, e2, hr2, hR2, hsk2, hb2, _⟩ :=
        at_cons hb1 (fun e he => hst e (by simp [he])) (stop_close R)
      rw [e2]
      obtain ⟨c, r, rfl, hv, _⟩ := term_head hu hr2
      by_cases hc : c = '?'
      case neg => rw [List.cons_append]; simp only [varName_ne hc]
      obtain ⟨v, rfl⟩ := hv hc
      rw [printTerm] at hr2
      rw [renders_text hr2, List.cons_append]
      simp only [Term.Ok] at hu
      simp only [varName_text hu hR2, hsk2]
      cases us with
      | nil =>
        rw [printTerms] at hb2
        rw [rendersAll_nil hb2, List.nil_append, term_needs _ (stop_close R)]
      | cons u2 us2 =>
        rw [printTerms] at hb2
        simp only [Terms.Ok] at hus
        obtain ⟨s3, R3, b3, e3, hr3, hR3, hsk3, hb3, _⟩ := at_cons hb2 (terms_start hus.2) (stop_close R)
        obtain ⟨tr, _, hread⟩ := term_accepts hus.1 s3.length s3 R3 hr3 (Nat.le_refl _) hR3
        rw [e3, hread]
        simp only [hsk3]
        cases us2 with
        | nil => exact absurd ⟨v, u2, rfl⟩ hn
        | cons u3 us3 =>
          rw [printTerms] at hb3
          simp only [Terms.Ok] at hus
          rw [lit_close_starts ((rendersAll_starts hb3 (term_starts hus.2.1)).append _)]

theorem where_rejects {t : Term} (ht : t.Ok) (hn : ¬ WhereLike t) :
    Rejects (wrapped "where".toList) (printTerm t) := by
  intro s R hs hR
  obtain ⟨c, r, rfl, _, _, hpar⟩ := term_head ht hs
  by_cases hc : c = '('
  case neg => exact wrapped_ne hc _ _
  subst hc
  rcases hpar rfl with ⟨x, u, us, rfl⟩ | ⟨k, r', hk, rfl⟩
  case inr =>
    rw [List.cons_append, List.append_assoc]
    refine wrapped_other ?_
    rcases hk with rfl | rfl
    · rw [skip_word (k := "tuple".toList) (starts_lit (by decide))]; rfl
    · rw [skip_word (k := "bytes".toList) (starts_lit (by decide))]; rfl
  rw [printTerm] at hs
  simp only [Term.Ok] at ht
  obtain ⟨hx, _, _, hu, hus⟩ := ht
  have hxs : Starts x := by
    obtain ⟨c, cs, rfl, hc⟩ := hx.1.start
    exact starts_of_initial hc
  have hst : ∀ e ∈ printTerm u :: printTerms us, DocStarts e := by
    intro e he
    rcases List.mem_cons.mp he with rfl | he
    · exact term_starts hu
    · exact terms_start hus e he
  obtain ⟨R1, b1, e0, hsk, hR1, hsk1, hb1, _, hbl⟩ := paren_word (R := R) hxs hst hs
  rw [e0]
  simp only [wrapped, lit_open, hsk]
  have hst1 : Starts (skip R1) := by
    rw [hsk1]
    exact (rendersAll_starts hb1 (term_starts hu)).append _
  cases hl : lit "where".toList (x ++ R1) with
  | none => rfl
  | some r1 =>
    obtain ⟨y, rfl, rfl⟩ := blank_name_lit (by decide) hR1 hl
    simp only []
    cases y with
    | cons d y =>
      have hd : isName d = true := hx.1.name d (by simp)
      rw [List.cons_append, skip_name hd]
      cases hp : parseTermTree (d :: (y ++ R1)) with
      | none => rfl
      | some q =>
        obtain ⟨tr, r⟩ := q
        simp only [mid_not_closed (hbl (by simp)) hst1 (fun c hc => hx.1.name c (by
          simp only [List.mem_append]; exact Or.inr hc)) hp]
    | nil =>
      rw [List.nil_append, hsk1]
      obtain ⟨s2, R2, b2, e2, hr2, hR2, hsk2, hb2, _⟩ :=
        at_cons hb1 (fun e he => hst e (by simp [he])) (stop_close R)
      obtain ⟨tr, _, hread⟩ := term_accepts hu s2.length s2 R2 hr2 (Nat.le_refl _) hR2
      rw [e2, hread]
      simp only [hsk2]
      cases us with
      | nil => exact absurd ⟨u, rfl⟩ hn
      | cons u2 us2 =>
        rw [printTerms] at hb2
        simp only [Terms.Ok] at hus
        rw [lit_close_starts ((rendersAll_starts hb2 (term_starts hus.1)).append _)]

theorem where_rejected (t : Term) : Rejects param (printWrapped "where".toList t) := by
  intro s R hs _
  obtain ⟨r, rfl⟩ := paren_head hs
  rw [List.cons_append, List.append_assoc]
  refine param_other ?_
  rw [skip_word (k := "where".toList) (starts_lit (by decide))]; rfl

/-! ## Symbols -/

theorem name_starts {x : List Char} (h : DottedText x) : Starts x := by
  obtain ⟨c, cs, rfl, hc⟩ := h.start
  exact starts_of_initial hc

theorem visibility_none {x R : List Char} (h : ¬ VisibilityLike x) (hR : Ends R) :
    visibility (x ++ R) = none := by
  unfold visibility
  cases h1 : lit "public".toList (x ++ R) with
  | some r =>
    obtain ⟨y, e, _⟩ := blank_name_lit (by decide) hR h1
    exact absurd ⟨y, Or.inl e⟩ h
  | none =>
    cases h2 : lit "private".toList (x ++ R) with
    | some r =>
      obtain ⟨y, e, _⟩ := blank_name_lit (by decide) hR h2
      exact absurd ⟨y, Or.inr e⟩ h
    | none => rfl

/-- The documents of a symbol after the visibility. -/
def symbolDocs (s : Symbol) : List Doc :=
  .text s.name :: (s.params.map printParam ++
    (s.constraints.map (printWrapped "where".toList) ++ [printTerm s.signature]))

def visibilityDocs : Option Visibility → List Doc
  | none => []
  | some .pub => [.text "public".toList]
  | some .priv => [.text "private".toList]

theorem printSymbol_eq (s : Symbol) : printSymbol s = visibilityDocs s.visibility ++ symbolDocs s := by
  unfold printSymbol
  cases s.visibility with
  | none => rfl
  | some v => cases v <;> rfl

theorem symbol_text {s : Symbol} (hs : s.Ok) {es : List Doc} (hst : ∀ e ∈ es, DocStarts e)
    {b T : List Char} (hT : Stop T) (hb : RendersAll (printSymbol s ++ es) b) :
    ∃ st R b', symbol (b ++ T) = some (st, R) ∧ buildSymbol st = .ok s.flat ∧ skip R = b' ++ T ∧
      RendersAll es b' ∧ b'.length ≤ b.length ∧ (es ≠ [] → Blank R) := by
  rw [printSymbol_eq] at hb
  have hst4 : ∀ e ∈ [printTerm s.signature] ++ es, DocStarts e := by
    intro e he
    rcases List.mem_append.mp he with he | he
    · rw [List.mem_singleton.mp he]; exact term_starts hs.signature
    · exact hst e he
  have hst3 : ∀ e ∈ s.constraints.map (printWrapped "where".toList) ++
      ([printTerm s.signature] ++ es), DocStarts e := by
    intro e he
    rcases List.mem_append.mp he with he | he
    · exact (metas_paren _ e he).starts
    · exact hst4 e he
  have hst2 : ∀ e ∈ s.params.map printParam ++ (s.constraints.map (printWrapped "where".toList) ++
      ([printTerm s.signature] ++ es)), DocStarts e := by
    intro e he
    rcases List.mem_append.mp he with he | he
    · exact (params_accepts 0 hs.params).starts e he
    · exact hst3 e he
  have hst1 : ∀ e ∈ symbolDocs s ++ es, DocStarts e := by
    intro e he
    have he : e ∈ Doc.text s.name :: (s.params.map printParam ++
        (s.constraints.map (printWrapped "where".toList) ++ ([printTerm s.signature] ++ es))) := by
      simpa [symbolDocs] using he
    rcases List.mem_cons.mp he with rfl | he
    · exact text_starts (name_starts hs.name.1)
    · exact hst2 e he
  -- the visibility
  have h1 : ∃ R1 b1, optional visibility (b ++ T) = (s.visibility, R1) ∧ skip R1 = b1 ++ T ∧
      RendersAll (symbolDocs s ++ es) b1 ∧ b1.length ≤ b.length := by
    cases hv : s.visibility with
    | none =>
      rw [hv] at hb
      have hb : RendersAll (symbolDocs s ++ es) b := hb
      refine ⟨b ++ T, b, ?_, docs_start hb hst1 hT, hb, Nat.le_refl _⟩
      obtain ⟨s1, R1, b1, e1, hr1, hR1, _⟩ := at_cons (ds := s.params.map printParam ++
        (s.constraints.map (printWrapped "where".toList) ++ ([printTerm s.signature] ++ es)))
        (by simpa [symbolDocs] using hb) hst2 hT
      rw [e1, renders_text hr1]
      exact optional_none (visibility_none (hs.visibility hv) hR1)
    | some v =>
      rw [hv] at hb
      have hword : ∃ k, visibilityDocs (some v) = [.text k] ∧ ∀ r, visibility (k ++ r) = some (v, r) := by
        cases v with
        | pub => exact ⟨_, rfl, fun r => by simp only [visibility, lit_append]⟩
        | priv =>
          refine ⟨_, rfl, fun r => ?_⟩
          have : lit "public".toList ("private".toList ++ r) = none := rfl
          simp only [visibility, this, lit_append]
      obtain ⟨k, ek, hk⟩ := hword
      rw [ek, List.append_assoc] at hb
      obtain ⟨s1, R1, b1, e1, hr1, hR1, hsk1, hb1, hl1, _⟩ := at_cons hb hst1 hT
      refine ⟨R1, b1, ?_, hsk1, hb1, by omega⟩
      rw [e1, renders_text hr1]
      exact optional_some (hk R1)
  obtain ⟨R1, b1, hvis, hsk1, hb1, hl1⟩ := h1
  have hb1 : RendersAll (Doc.text s.name :: (s.params.map printParam ++
      (s.constraints.map (printWrapped "where".toList) ++ ([printTerm s.signature] ++ es)))) b1 := by
    simpa [symbolDocs] using hb1
  obtain ⟨s2, R2, b2, e2, hr2, hR2, hsk2, hb2, hl2, _⟩ := at_cons hb1 hst2 hT
  rw [renders_text hr2] at e2
  obtain ⟨ps, R3, b3, h3, hg3, hsk3, hb3, hl3⟩ := many_docs param_needs hT (by
    intro e es' he
    cases hc : s.constraints with
    | nil =>
      rw [hc] at he
      have he := (List.cons.inj he).1
      rw [← he]
      exact param_rejects hs.signature hs.notParam
    | cons c cs =>
      rw [hc] at he
      have he := (List.cons.inj he).1
      rw [← he]
      exact where_rejected c) hst3 (params_accepts b2.length hs.params) hb2 (Nat.le_refl _)
  obtain ⟨cs, R4, b4, h4, hg4, hsk4, hb4, hl4⟩ := many_docs (wrapped_needs "where".toList) hT (by
    intro e es' he
    have he := (List.cons.inj he).1
    rw [← he]
    exact where_rejects hs.signature hs.notWhere) hst4
    (metas_accepts (word_starts (by simp)) b3.length hs.constraints) hb3 (Nat.le_refl _)
  obtain ⟨s5, R5, b5, e5, hr5, hR5, hsk5, hb5, hl5, hbl, _⟩ := at_cons hb4 hst hT
  obtain ⟨tr, htr, hread⟩ := term_accepts hs.signature s5.length s5 R5 hr5 (Nat.le_refl _) hR5
  refine ⟨⟨s.visibility, s.name, ps, cs, tr⟩, R5, b5, ?_, ?_, hsk5, hb5, by omega, hbl⟩
  · simp only [symbol, hvis, hsk1, e2, symbolName_text hs.name hR2.name, hsk2, h3, hsk3, h4, hsk4, e5,
      hread]
  · simp only [buildSymbol, buildAll_good hg3, buildAll_good hg4, htr, Res.bind, Symbol.flat]

end Verif.Text
