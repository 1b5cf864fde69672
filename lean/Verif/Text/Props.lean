import Verif.Text.Round

/-!
# Properties of the text format: C33 (string literals) and C34 (terms)

`Renders d s` says that `s` is a layout of the document `d`, however lines are broken. `parseTerm`
also returns what it leaves of the input, which `Term::from_str` drops.
-/
namespace Verif.Text

/-! ## C33: string literals -/

/-- C33. A printed string literal, followed by anything, is read back as the string, and what
follows is left alone. -/
theorem C33_string_round_trip (s w : List Char) : ∃ segs,
    literalString (stringText s ++ w) = some (.str segs, w) ∧ parseString segs = .ok s := by
  obtain ⟨segs, hp, h⟩ := literalString_text s
  exact ⟨segs, h w, hp⟩

/-- C33. The printed text of a string contains no line break, carriage return or tab. -/
theorem C33_one_line (s : List Char) : ∀ c ∈ stringText s, c ≠ '\n' ∧ c ≠ '\r' ∧ c ≠ '\t' := by
  have h1 : ∀ c : Char, ∀ d ∈ escapeChar c, d ≠ '\n' ∧ d ≠ '\r' ∧ d ≠ '\t' := by
    intro c d hd
    cases hp : isPlain c with
    | true =>
      rw [escape_plain hp] at hd
      rw [List.mem_singleton.mp hd]
      refine ⟨?_, ?_, ?_⟩ <;> (rintro rfl; exact absurd hp (by decide))
    | false =>
      obtain ⟨e, he, hesc, _⟩ := escape_not_plain hp
      rw [he] at hd
      have hde : d = '\\' ∨ d = e := by simpa using hd
      rcases hde with rfl | rfl
      · decide
      · refine ⟨?_, ?_, ?_⟩ <;> (rintro rfl; exact absurd hesc (by decide))
  intro c hc
  simp only [stringText, List.mem_append, List.mem_cons, List.mem_flatMap, List.cons_append] at hc
  rcases hc with rfl | ⟨d, _, hd⟩ | rfl | h
  · decide
  · exact h1 d c hd
  · decide
  · cases h

/-- C33. A unicode escape is read as the character with that number; it is an error if there is none. -/
theorem C33_unicode_escape (hex w : List Char) (h0 : hex ≠ []) (hh : ∀ c ∈ hex, isHex c = true) :
    ∃ segs, literalString ('"' :: '\\' :: 'u' :: '{' :: (hex ++ '}' :: '"' :: w)) = some (.str segs, w) ∧
      parseString segs =
        if Nat.isValidChar (fromDigits 16 hex) then .ok [Char.ofNat (fromDigits 16 hex)] else .error := by
  refine ⟨[.unicode hex], ?_, ?_⟩
  · have ht : (hex ++ '}' :: '"' :: w).takeWhile isHex = hex := takeWhile_stop hh (by
      intro c w' e; rw [← (List.cons.inj e).1]; decide)
    have hd : (hex ++ '}' :: '"' :: w).dropWhile isHex = '}' :: '"' :: w := dropWhile_stop hh (by
      intro c w' e; rw [← (List.cons.inj e).1]; decide)
    have hseg : strSeg ('\\' :: 'u' :: '{' :: (hex ++ '}' :: '"' :: w)) =
        some (.unicode hex, '"' :: w) := by
      cases hex with
      | nil => exact absurd rfl h0
      | cons c cs =>
        simp only [strSeg, show isEscape 'u' = false by decide, if_true, ht, hd]
        rfl
    have hnil : ∀ f, strSegs f ('"' :: w) = ([], '"' :: w) := by
      intro f
      cases f <;> simp [strSegs, strSeg, show isRaw '"' = false by decide]
    have hone : ∀ f, strSegs (f + 1) ('\\' :: 'u' :: '{' :: (hex ++ '}' :: '"' :: w)) =
        ([.unicode hex], '"' :: w) := by
      intro f
      rw [strSegs, hseg]
      simp only [hnil]
    rw [literalString, List.length_cons, hone]
    rfl
  · have hbig : Nat.isValidChar (fromDigits 16 hex) → ¬ 2 ^ 32 ≤ fromDigits 16 hex := by
      intro h
      simp only [Nat.isValidChar] at h
      omega
    simp only [parseString, segText]
    by_cases hv : Nat.isValidChar (fromDigits 16 hex)
    · simp [hbig hv, hv, Res.bind]
    · simp only [hv, if_false]
      split <;> rfl

/-- A string with every kind of escape, followed by another quote. -/
example : literalString (stringText "a\"\\\n\r\té".toList ++ ['"']) ≠ none := by
  obtain ⟨_, h, _⟩ := C33_string_round_trip "a\"\\\n\r\té".toList ['"']
  rw [h]; simp

/-- The hypotheses of `C33_unicode_escape`, with a character and without. -/
example : (∀ c ∈ "1F600".toList, isHex c = true) ∧ Nat.isValidChar (fromDigits 16 "1F600".toList) ∧
    ¬ Nat.isValidChar (fromDigits 16 "D800".toList) := by decide

/-! ## C34: terms -/

/-- C34. Every layout of a printed term, followed by nothing, white space or a closing delimiter, is
read back as the term, with spliced lists and tuples merged; what follows is left. -/
theorem C34_round_trip (t : Term) (ht : t.Ok) (s w : List Char) (hs : Renders (printTerm t) s)
    (hw : Ends w) : parseTerm (s ++ w) = .ok (t.flat, w) := by
  rw [← print_flat] at hs
  obtain ⟨_, tr, hb, h⟩ := reads_term t.flat (flat_ok t ht) (flat_isFlat t) s hs
  have := h (4 * (s ++ w).length + 4) w hw (by simp only [List.length_append]; omega)
  simp only [parseTerm, parseTermTree, this, hb, Res.bind]

/-- C34. The character classes `Term.Ok` is stated with are the usual ones. -/
theorem C34_alphabet (c : Char) :
    (isInitial c = true ↔ c.isAlpha = true ∨ c = '_' ∨ c = '-') ∧
    (isRest c = true ↔ c.isAlphanum = true ∨ c = '_' ∨ c = '-') ∧
    (isDigit c = true ↔ c.isDigit = true) := by
  have ha : isAlpha c = true ↔ c.isAlpha = true := by
    simp only [isAlpha, Char.isAlpha, Char.isUpper, Char.isLower, Bool.or_eq_true, Bool.and_eq_true,
      decide_eq_true_eq, Char.le_def]
    tauto
  have hd : isDigit c = true ↔ c.isDigit = true := by
    simp only [isDigit, Char.isDigit, Bool.and_eq_true, decide_eq_true_eq, Char.le_def]
  refine ⟨?_, ?_, hd⟩
  · simp only [isInitial, Bool.or_eq_true, beq_iff_eq, ha]
    tauto
  · simp only [isRest, Bool.or_eq_true, beq_iff_eq, ha, hd, Char.isAlphanum]
    tauto

/-- C34. The names that are not symbol names are these keywords. -/
theorem C34_keywords (x : List Char) : x ∈ reservedWords ↔ x ∈
    ["...", "block", "bytes", "cfg", "cond", "declare-alias", "declare-ctr", "declare-func",
      "declare-operation", "define-func", "dfg", "hugr", "import", "list", "meta", "mod", "private",
      "public", "signature", "tail-loop", "tuple"].map String.toList := by
  constructor
  · revert x; decide
  · revert x; decide

mutual
/-- Every document has a layout. -/
theorem renders_exists : ∀ d : Doc, ∃ s, Renders d s
  | .text s => ⟨s, .text s⟩
  | .group _ _ ds =>
    let ⟨s, h⟩ := rendersAll_exists ds
    ⟨_, .group h⟩

theorem rendersAll_exists : ∀ ds : List Doc, ∃ s, RendersAll ds s
  | [] => ⟨[], .nil⟩
  | [d] =>
    let ⟨s, h⟩ := renders_exists d
    ⟨s, .one h⟩
  | d :: e :: ds =>
    let ⟨_, h⟩ := renders_exists d
    let ⟨_, h'⟩ := rendersAll_exists (e :: ds)
    ⟨_, .cons h (w := [' ']) ⟨by simp, by simp⟩ h'⟩
end

/-- C34. Every term has a layout, so `C34_round_trip` is about every well-formed term. -/
theorem C34_layout_exists (t : Term) : ∃ s, Renders (printTerm t) s := renders_exists _

/-- C34. Terms that can be printed in the same way are the same up to merging. -/
theorem C34_print_injective (t u : Term) (ht : t.Ok) (hu : u.Ok) (s : List Char)
    (hs : Renders (printTerm t) s) (hs' : Renders (printTerm u) s) : t.flat = u.flat := by
  have h1 := C34_round_trip t ht s [] hs trivial
  have h2 := C34_round_trip u hu s [] hs' trivial
  rw [h1] at h2
  injection h2 with h
  exact (Prod.mk.inj h).1

mutual
theorem flat_fixed (t : Term) (h : t.IsFlat) : t.flat = t := by
  match t with
  | .wildcard => rw [Term.flat]
  | .var x => rw [Term.flat]
  | .apply x ts =>
    simp only [Term.IsFlat] at h
    rw [Term.flat, flats_fixed ts h]
  | .list ps =>
    simp only [Term.IsFlat] at h
    rw [Term.flat, flatList_fixed ps h]
  | .literal l => rw [Term.flat]
  | .tuple ps =>
    simp only [Term.IsFlat] at h
    rw [Term.flat, flatTuple_fixed ps h]

theorem flats_fixed (ts : Terms) (h : ts.IsFlat) : ts.flat = ts := by
  match ts with
  | .nil => rw [Terms.flat]
  | .cons t ts =>
    simp only [Terms.IsFlat] at h
    rw [Terms.flat, flat_fixed t h.1, flats_fixed ts h.2]

theorem flatList_fixed (ps : Parts) (h : ps.IsFlatList) : ps.flatList = ps := by
  match ps with
  | .nil => rw [Parts.flatList]
  | .item t ps =>
    simp only [Parts.IsFlatList] at h
    rw [Parts.flatList, flat_fixed t h.1, flatList_fixed ps h.2]
  | .splice t ps =>
    simp only [Parts.IsFlatList] at h
    have h1 := flat_fixed t h.2.1
    have h2 := flatList_fixed ps h.2.2
    cases t with
    | list qs => exact absurd rfl (h.1 qs)
    | _ => simp only [Parts.flatList, h1, h2]

theorem flatTuple_fixed (ps : Parts) (h : ps.IsFlatTuple) : ps.flatTuple = ps := by
  match ps with
  | .nil => rw [Parts.flatTuple]
  | .item t ps =>
    simp only [Parts.IsFlatTuple] at h
    rw [Parts.flatTuple, flat_fixed t h.1, flatTuple_fixed ps h.2]
  | .splice t ps =>
    simp only [Parts.IsFlatTuple] at h
    have h1 := flat_fixed t h.2.1
    have h2 := flatTuple_fixed ps h.2.2
    cases t with
    | tuple qs => exact absurd rfl (h.1 qs)
    | _ => simp only [Parts.flatTuple, h1, h2]
end

/-- C34. Merging does not change terms without lists spliced into lists or tuples into tuples, so
these are read back exactly; and merging again changes nothing. -/
theorem C34_flat_fixed (t : Term) : (t.IsFlat → t.flat = t) ∧ t.flat.flat = t.flat :=
  ⟨flat_fixed t, flat_fixed t.flat (flat_isFlat t)⟩

/-! ### A concrete case -/

/-- `(core.fn [?x xs ...] (tuple "a b" 42) [-1.5e3 _ (bytes "AQI=")])`. -/
def sample : Term :=
  .apply "core.fn".toList (.cons (.list (.item (.var "x".toList) (.splice (.apply "xs".toList .nil) .nil)))
    (.cons (.tuple (.item (.literal (.str "a b".toList)) (.item (.literal (.nat 42)) .nil)))
    (.cons (.list (.item (.literal (.float "-1.5e3".toList)) (.item .wildcard
      (.splice (.list (.item (.literal (.bytes [1, 2])) .nil)) .nil)))) .nil)))

theorem ident_of {x : List Char} (h : (match x with
    | [] => false
    | c :: cs => isInitial c && cs.all isRest) = true) : IdentText x := by
  cases x with
  | nil => cases h
  | cons c cs =>
    simp only [Bool.and_eq_true, List.all_eq_true] at h
    exact ⟨c, cs, rfl, h.1, h.2⟩

/-- The hypotheses of `C34_round_trip` are met by a term with every construct. -/
example : sample.Ok ∧ sample.flat ≠ sample := by
  refine ⟨?_, ?_⟩
  · simp only [sample, Term.Ok, Terms.Ok, Parts.Ok, Literal.Ok]
    refine ⟨⟨.more (x := "core".toList) (y := "fn".toList) (ident_of (by decide))
      (.one (ident_of (by decide))), by decide⟩, ?_, fun _ => by simp,
      ⟨ident_of (by decide), ⟨⟨.one (ident_of (by decide)), by decide⟩, ?_⟩, trivial⟩,
      ⟨trivial, by decide, trivial⟩,
      ⟨⟨['-'], ['1'], ['5'], "e3".toList, by decide, by decide, by decide, by decide, by decide,
        by decide, Or.inr ⟨[], ['3'], by decide, by decide, by decide, by decide⟩⟩, trivial,
        ⟨trivial, trivial⟩, trivial⟩, trivial⟩
    · rintro ⟨c, y, h, _⟩
      exact absurd (congrArg (List.take 1) h) (by simp)
    · rintro (h | ⟨y, h⟩)
      · exact absurd h (by decide)
      · exact absurd (congrArg (List.take 1) h) (by simp)
  · simp [sample, Term.flat, Terms.flat, Parts.flatList, Parts.append]

/-! ### Findings: terms that are not read back -/

/-- Finding: `tuples` is a symbol name, but an application of it is read as a tuple with `s` in it. -/
theorem C34_tuple_name_refuted : ∃ (t u : Term) (s : List Char), SymbolText "tuples".toList ∧
    t = .apply "tuples".toList (.cons (.var "x".toList) .nil) ∧ Renders (printTerm t) s ∧
    parseTerm s = .ok (u, []) ∧ u = .tuple (.item (.apply "s".toList .nil) (.item (.var "x".toList) .nil)) := by
  refine ⟨_, _, "(tuples ?x)".toList, ⟨.one (ident_of (by decide)), by decide⟩, rfl, ?_, ?_, rfl⟩
  · rw [printTerm, printTerm, printTerms]
    exact .group (s := "tuples ?x".toList) (.cons (s := "tuples".toList) (w := [' ']) (.text _)
      ⟨by decide, by decide⟩ (.one (.text _)))
  · decide +kernel

/-- Finding: `fn` is a symbol name, but reading an application of it to one argument panics. -/
theorem C34_fn_name_panics : ∃ (t : Term) (s : List Char), SymbolText "fn".toList ∧
    t = .apply "fn".toList (.cons (.var "x".toList) .nil) ∧ Renders (printTerm t) s ∧
    parseTerm s = .panic := by
  refine ⟨_, "(fn ?x)".toList, ⟨.one (ident_of (by decide)), by decide⟩, rfl, ?_, by decide +kernel⟩
  rw [printTerm, printTerm, printTerms]
  exact .group (s := "fn ?x".toList) (.cons (s := "fn".toList) (w := [' ']) (.text _)
    ⟨by decide, by decide⟩ (.one (.text _)))

/-- Finding: the symbol `_` is printed like the wildcard. -/
theorem C34_underscore_refuted : SymbolText ['_'] ∧
    ∃ s, Renders (printTerm (.apply ['_'] .nil)) s ∧ parseTerm s = .ok (.wildcard, []) := by
  refine ⟨⟨.one (ident_of (by decide)), by decide⟩, ['_'], ?_, by decide +kernel⟩
  rw [printTerm]; exact .text _

/-- Finding: a float that Rust prints without a decimal point, such as `1e16`, is read back as a
number and a symbol. -/
theorem C34_float_refuted : ∃ s, Renders
    (printTerm (.list (.item (.literal (.float "1e16".toList)) .nil))) s ∧
    parseTerm s = .ok (.list (.item (.literal (.nat 1)) (.item (.apply "e16".toList .nil) .nil)), []) := by
  refine ⟨"[1e16]".toList, ?_, by decide +kernel⟩
  rw [printTerm, printListParts, printListParts, printTerm, printLiteral]
  exact .group (s := "1e16".toList) (.one (.text _))

/-- Finding: a number of 2^64 or more panics instead of being an error. -/
theorem C34_nat_panics (n : Nat) (hn : 2 ^ 64 ≤ n) : parseTerm (natText n) = .panic := by
  obtain ⟨h0, hd⟩ := natText_digits n
  obtain ⟨c, cs, e⟩ : ∃ c cs, natText n = c :: cs := by
    cases h : natText n with
    | nil => exact absurd h h0
    | cons c cs => exact ⟨c, cs, rfl⟩
  have hc : isDigit c = true := hd c (by simp [e])
  have hw : Ends ([] : List Char) := trivial
  have h1 := literalFloat_nat h0 hd hw.dot
  have h2 := literalNat_text h0 hd hw.digit
  rw [List.append_nil] at h1 h2
  have h3 : literal (natText n) = some (.nat (natText n), []) := by
    rw [literal, h1, h2]
    rw [e, literalString_ne (ne_of_digit hc (by decide))]
    rfl
  have ht : parseTermTree (natText n) = some (.nat (natText n), []) := by
    rw [parseTermTree]
    have e2 := e
    rw [e2] at h3 ⊢
    exact term_digit hc _ h3
  have : ¬ n < 2 ^ 64 := by omega
  simp only [parseTerm, ht, buildTerm, parseNat, fromDigits_natText, this, if_false, Res.bind]

/-- Finding: what follows the term is ignored, so text that is not a term is accepted. -/
theorem C34_trailing_ignored :
    parseTerm "?x )(".toList = .ok (.var "x".toList, " )(".toList) := by decide +kernel

/-- Finding: white space after the question mark becomes part of the name. -/
theorem C34_var_space_refuted :
    parseTerm "? x".toList = .ok (.var " x".toList, []) ∧ ¬ IdentText " x".toList := by
  refine ⟨by decide +kernel, ?_⟩
  rintro ⟨c, cs, h, hc, _⟩
  have : c = ' ' := (List.cons.inj h).1.symm
  rw [this] at hc
  exact absurd hc (by decide)

theorem region_not_term (kind : List Char)
    (hkind : kind = "dfg".toList ∨ kind = "cfg".toList ∨ kind = "mod".toList)
    (rest : List Char) (hr : nameEnds rest = true) (f : Nat) : term f ('(' :: (kind ++ rest)) = none := by
  have hres : reserved (kind ++ rest) = some rest := by
    rcases hkind with rfl | rfl | rfl <;> rfl
  have hsym : symbolName (kind ++ rest) = none := by
    rw [symbolName_eq, hres]
    simp only [hr, if_true]
  have hskip : skip (kind ++ rest) = kind ++ rest := by
    rcases hkind with rfl | rfl | rfl <;> exact skip_fix (by decide) (by decide) _
  have h1 : lit "bytes".toList (kind ++ rest) = none := by rcases hkind with rfl | rfl | rfl <;> rfl
  have h2 : lit "tuple".toList (kind ++ rest) = none := by rcases hkind with rfl | rfl | rfl <;> rfl
  have h3 : lit "fn".toList (kind ++ rest) = none := by rcases hkind with rfl | rfl | rfl <;> rfl
  match f with
  | 0 => rw [term]
  | 1 => rw [term_paren, literalBytes_other (by rw [hskip, h1]), termTuple, termConstFunc, termApply]; rfl
  | f + 2 =>
    rw [term_paren, literalBytes_other (by rw [hskip, h1]), termTuple, termConstFunc, termApply,
      symbolName_none (show isInitial '(' = false by decide)]
    simp only [lit_paren, hskip, h2, h3, hsym, alt_none]

/-- Finding: a function, printed as `(fn (dfg ...))`, cannot be read back at all, whatever is in it:
the words for the kinds of regions are reserved, and `term_const_func` wants a term. -/
theorem C34_func_unparsable (kind : List Char)
    (hkind : kind = "dfg".toList ∨ kind = "cfg".toList ∨ kind = "mod".toList)
    (lead rest : List Char) (hl : Sep lead) (hr : nameEnds rest = true) :
    parseTerm ("(fn".toList ++ (lead ++ '(' :: (kind ++ rest))) = .error := by
  have hin := region_not_term kind hkind rest hr
  generalize hi : '(' :: (kind ++ rest) = inner at hin
  have hst : Starts inner := by rw [← hi]; exact starts_lit (by decide)
  have hfn : SymbolText "fn".toList := ⟨.one (ident_of (by decide)), by decide⟩
  have hskip : skip ("fn".toList ++ (lead ++ inner)) = "fn".toList ++ (lead ++ inner) :=
    skip_fix (by decide) (by decide) _
  have hskip2 : skip (lead ++ inner) = inner := skip_sep_starts hl hst
  have h1 : lit "bytes".toList ("fn".toList ++ (lead ++ inner)) = none := rfl
  have h2 : lit "tuple".toList ("fn".toList ++ (lead ++ inner)) = none := rfl
  have h4 : lit ")".toList inner = none := by rw [← hi]; rfl
  have hmore : ∀ f, terms f inner = (.nil, inner) := by
    intro f
    cases f with
    | zero => rw [terms]
    | succ f => rw [terms, hin]
  have key : ∀ f, term (f + 2) ('(' :: ("fn".toList ++ (lead ++ inner))) = none := by
    intro f
    rw [term_paren, literalBytes_other (by rw [hskip, h1]), termTuple, termConstFunc, termApply,
      symbolName_none (show isInitial '(' = false by decide)]
    simp only [lit_paren, hskip, h2, lit_append, hskip2, hin, alt_none,
      symbolName_text hfn (Ends.of_sep hl inner).name, hmore, skip_starts hst, h4]
  have e : "(fn".toList ++ (lead ++ inner) = '(' :: ("fn".toList ++ (lead ++ inner)) := rfl
  rw [e]
  simp only [parseTerm, parseTermTree, key]

/-- The hypotheses of `C34_func_unparsable`. -/
example : Sep [' '] ∧ nameEnds " [] [] (signature (core.fn [] [])))".toList = true := by
  refine ⟨⟨by decide, by decide⟩, by decide⟩

end Verif.Text
