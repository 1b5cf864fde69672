import Verif.Text.PackageRound

/-!
# C46: printing and parsing packages
-/
namespace Verif.Text

/-- C46. Parsing any layout of a printed package gives the package, with its terms flattened. -/
theorem C46_round_trip (p : Package) (hp : p.Ok) (s : List Char) (hs : RendersAll (printPackage p) s) :
    parsePackage s = .ok p.flat := by
  have := package_text hp (T := []) (Or.inl rfl) hs
  rwa [List.append_nil, if_pos rfl] at this

/-- C46. The whole input must be a package: a delimiter after it is an error. -/
theorem C46_trailing_rejected (p : Package) (hp : p.Ok) (s w : List Char) (c : Char)
    (hs : RendersAll (printPackage p) s) (hc : c = ')' ∨ c = ']') :
    parsePackage (s ++ c :: w) = .error := by
  have hT : Stop (c :: w) := by
    rcases hc with rfl | rfl
    · exact Or.inr (Or.inl ⟨w, rfl⟩)
    · exact Or.inr (Or.inr ⟨w, rfl⟩)
  have := package_text hp hT hs
  rwa [if_neg (by simp)] at this

/-- C46. The same for a node, before the end of the input or a delimiter. -/
theorem C46_node_round_trip (n : Node) (hn : n.Ok) (s w : List Char) (hs : Renders (printNode n) s)
    (hw : Ends w) : parseNode (s ++ w) = .ok (n.flat, w) := by
  obtain ⟨x, hx, h⟩ := parseNode_accepts s.length hn s w hs (Nat.le_refl _) hw
  have hx : buildNode x = .ok n.flat := hx
  simp only [parseNode, h, hx, Res.bind]

/-- C46. The same for a region. -/
theorem C46_region_round_trip (r : Region) (hr : r.Ok) (s w : List Char) (hs : Renders (printRegion r) s)
    (hw : Ends w) : parseRegion (s ++ w) = .ok (r.flat, w) := by
  obtain ⟨x, hx, h⟩ := (accepts_all (s ++ w).length).2 r hr s w hs (by simp) hw
  have hx : buildRegion x = .ok r.flat := hx
  simp only [parseRegion, h, hx, Res.bind]

/-- C46. The same for a parameter. -/
theorem C46_param_round_trip (p : Param) (hp : p.Ok) (s w : List Char) (hs : Renders (printParam p) s)
    (hw : Ends w) : parseParam (s ++ w) = .ok (p.flat, w) := by
  obtain ⟨x, hx, h⟩ := param_accepts hp s.length s w hs (Nat.le_refl _) hw
  have hx : buildParam x = .ok p.flat := hx
  simp only [parseParam, h, hx, Res.bind]

/-- C46. The same for a symbol; only white space may be left. -/
theorem C46_symbol_round_trip (x : Symbol) (hx : x.Ok) (s : List Char) (hs : RendersAll (printSymbol x) s) :
    ∃ r, parseSymbol s = .ok (x.flat, r) ∧ skip r = [] := by
  have hs' : RendersAll (printSymbol x ++ []) s := by simpa using hs
  obtain ⟨st, R, b', h, hb, hsk, hb', _⟩ := symbol_text hx (es := []) (by simp) (T := []) (Or.inl rfl) hs'
  rw [List.append_nil] at h hsk
  rw [rendersAll_nil hb'] at hsk
  exact ⟨R, by simp only [parseSymbol, h, hb, Res.bind], hsk⟩

/-- C46. There is a layout. -/
theorem C46_layout_exists (p : Package) : ∃ s, RendersAll (printPackage p) s := rendersAll_exists _

/-- C46. Packages that are not the same up to flattening have no layout in common. -/
theorem C46_print_injective (p q : Package) (hp : p.Ok) (hq : q.Ok) (s : List Char)
    (h1 : RendersAll (printPackage p) s) (h2 : RendersAll (printPackage q) s) : p.flat = q.flat := by
  have e1 := C46_round_trip p hp s h1
  rw [C46_round_trip q hq s h2] at e1
  injection e1 with e1
  exact e1.symm

/-! ### A concrete case -/

/-- `fn [?t] [?t]` -/
def sampleType : Term := .apply "core.fn".toList
  (.cons (.list (.item (.var "t".toList) .nil)) (.cons (.list (.item (.var "t".toList) .nil)) .nil))

/-- A function with a parameter, a constraint, metadata and a body, in a module with an import, a
declaration and an alias; then an empty module. -/
def samplePackage : Package :=
  ⟨[⟨[.literal (.nat 1)],
    [.mk (.import "core.fn".toList) [] [] none [] [],
     .mk (.defineFunc ⟨some .pub, "main".toList, [⟨"t".toList, .apply "core.type".toList .nil⟩],
        [.apply "core.nonlinear".toList (.cons (.var "t".toList) .nil)], sampleType⟩)
        [] [] none [.literal (.str "x".toList)]
        [.mk .dataFlow ["0".toList] ["1".toList] (some sampleType) []
          [.mk (.custom (.apply "signatures".toList .nil)) ["0".toList] ["1".toList] none [] []]],
     .mk (.declareConstructor ⟨none, "a.b".toList, [], [], .apply "core.type".toList .nil⟩) [] [] none [] [],
     .mk (.defineAlias ⟨some .priv, "c".toList, [], [], .apply "core.nat".toList .nil⟩
        (.literal (.nat 5))) [] [] none [] []]⟩,
    ⟨[], []⟩]⟩

theorem dotted_of (x y : List Char) (hx : IdentText x) (hy : IdentText y)
    (h : (x ++ '.' :: y) ∉ reservedWords) : SymbolText (x ++ '.' :: y) := ⟨.more hx (.one hy), h⟩

theorem simple_of {x : List Char} (hx : IdentText x) (h : x ∉ reservedWords) : SymbolText x := ⟨.one hx, h⟩

theorem not_prefixed {x k : List Char} (h : x.take k.length ≠ k) : ∀ y, x ≠ k ++ y := by
  rintro y rfl
  exact h (by simp)

theorem not_wild {x : List Char} (h : x.head? ≠ some '_') : ¬ WildLike x := by
  rintro (rfl | ⟨y, rfl⟩) <;> exact h rfl

theorem not_tuple {x : List Char} (h : x.take 5 ≠ "tuple".toList) : ¬ TupleLike x := by
  rintro ⟨c, y, rfl, _⟩
  exact h rfl

theorem not_visible {x : List Char} (h1 : x.take 6 ≠ "public".toList) (h2 : x.take 7 ≠ "private".toList) :
    ¬ VisibilityLike x := by
  rintro ⟨y, rfl | rfl⟩
  · exact h1 rfl
  · exact h2 rfl

theorem sampleType_ok : sampleType.Ok := by
  simp only [sampleType, Term.Ok, Terms.Ok, Parts.Ok]
  exact ⟨dotted_of "core".toList "fn".toList (ident_of (by decide)) (ident_of (by decide)) (by decide),
    not_tuple (by decide), by decide, ⟨ident_of (by decide), trivial⟩,
    ⟨ident_of (by decide), trivial⟩, trivial⟩

theorem core_ok (y : List Char) (hy : IdentText y) (h : ("core".toList ++ '.' :: y) ∉ reservedWords) :
    (Term.apply ("core".toList ++ '.' :: y) .nil).Ok := by
  simp only [Term.Ok]
  exact ⟨dotted_of _ _ (ident_of (by decide)) hy h, not_wild (by simp)⟩

/-- The hypotheses of `C46_round_trip` are met by a package with most constructs. -/
theorem samplePackage_ok : samplePackage.Ok := by
  have htype := core_ok "type".toList (ident_of (by decide)) (by decide)
  have hnat := core_ok "nat".toList (ident_of (by decide)) (by decide)
  have hfn := dotted_of "core".toList "fn".toList (ident_of (by decide)) (ident_of (by decide)) (by decide)
  intro m hm
  simp only [samplePackage, List.mem_cons, List.not_mem_nil, or_false] at hm
  rcases hm with rfl | rfl
  case inr => exact ⟨by simp, by simp [nodesOk]⟩
  refine ⟨?_, ?_⟩
  · intro t ht
    rw [List.mem_singleton.mp ht]
    simp only [Term.Ok, Literal.Ok]
    decide
  · simp only [nodesOk, and_true]
    refine ⟨?_, ?_, ?_, ?_⟩
    · rw [Node.Ok]
      exact ⟨hfn, by simp, by simp, by simp, by simp, by simp [regionsOk], by simp, by simp,
        fun x h => by cases h⟩
    · rw [Node.Ok]
      refine ⟨⟨simple_of (ident_of (by decide)) (by decide), by simp, ?_, ?_, sampleType_ok, ?_, ?_⟩,
        by simp, by simp, by simp, ?_, ?_, by simp, Or.inl trivial, fun x h => by cases h⟩
      · intro p hp
        rw [List.mem_singleton.mp hp]
        exact ⟨ident_of (by decide), htype⟩
      · intro t ht
        rw [List.mem_singleton.mp ht]
        simp only [Term.Ok, Terms.Ok]
        exact ⟨dotted_of "core".toList "nonlinear".toList (ident_of (by decide)) (ident_of (by decide))
          (by decide), not_tuple (by decide), by decide, ident_of (by decide), trivial⟩
      · rintro ⟨x, u, h⟩
        simp [sampleType] at h
      · rintro ⟨u, h⟩
        simp [sampleType] at h
      · intro t ht
        rw [List.mem_singleton.mp ht]
        simp only [Term.Ok, Literal.Ok]
      · simp only [regionsOk, and_true]
        rw [Region.Ok]
        refine ⟨by simp [LinkText, isRest, isDigit, isInitial], by simp [LinkText, isRest, isDigit, isInitial],
          ?_, by simp, ?_⟩
        · intro t ht
          rw [← Option.some.inj ht]
          exact sampleType_ok
        · simp only [nodesOk, and_true]
          rw [Node.Ok]
          refine ⟨?_, by simp [LinkText, isRest, isDigit, isInitial],
            by simp [LinkText, isRest, isDigit, isInitial], by simp, by simp, by simp [regionsOk],
            Or.inl trivial, Or.inl trivial, by simp⟩
          simp only [Operation.Ok, Term.Ok]
          exact ⟨simple_of (ident_of (by decide)) (by decide), not_wild (by decide)⟩
    · rw [Node.Ok]
      refine ⟨⟨dotted_of "a".toList "b".toList (ident_of (by decide)) (ident_of (by decide)) (by decide),
        fun _ => not_visible (by decide) (by decide), by simp, by simp, htype, ?_, ?_⟩,
        by simp, by simp, by simp, by simp, by simp [regionsOk], by simp, by simp, fun x h => by cases h⟩
      · rintro ⟨x, u, h⟩; simp at h
      · rintro ⟨u, h⟩; simp at h
    · rw [Node.Ok]
      refine ⟨⟨⟨simple_of (ident_of (by decide)) (by decide), by simp, by simp, by simp, hnat, ?_, ?_⟩, ?_⟩,
        by simp, by simp, by simp, by simp, by simp [regionsOk], by simp, by simp, fun x h => by cases h⟩
      · rintro ⟨x, u, h⟩; simp at h
      · rintro ⟨u, h⟩; simp at h
      · simp only [Term.Ok, Literal.Ok]; decide

example : ∃ p : Package, p.Ok ∧ p.modules.length = 2 ∧ p.flat = p :=
  ⟨samplePackage, samplePackage_ok, rfl, by decide +kernel⟩

/-! ### Findings: what is not read back -/

/-- A node whose operation is printed as one word, without anything else. -/
theorem renders_bare {op : Operation} {w : List Char} (h : printOp op = [.text w]) :
    Renders (printNode (.mk op [] [] none [] [])) ('(' :: (w ++ [')'])) := by
  rw [printNode, h, printRegions]
  simp only [printPorts, printOption, List.map_nil, List.append_nil, and_self, if_true]
  have := Renders.group (o := ['(']) (c := [')'])
    (RendersAll.one (Renders.group (o := []) (c := []) (RendersAll.one (Renders.text w))))
  simpa using this

/-- Finding: `importx` is a symbol name, but a node with this operation is read as an import of `x`. -/
theorem C46_import_name_refuted : SymbolText "importx".toList ∧
    Renders (printNode (.mk (.custom (.apply "importx".toList .nil)) [] [] none [] [])) "(importx)".toList ∧
    parseNode "(importx)".toList = .ok (.mk (.import "x".toList) [] [] none [] [], []) :=
  ⟨simple_of (ident_of (by decide)) (by decide),
    renders_bare (w := "importx".toList) (by rw [printOp, printTerm]), by decide +kernel⟩

/-- Finding: nodes with the operations `signaturex` and `metax` disappear from a region: the first is
read as its signature, the second as metadata. -/
theorem C46_clause_name_refuted : SymbolText "signaturex".toList ∧ SymbolText "metax".toList ∧
    (∃ r : Region, r = .mk .dataFlow [] [] none []
        [.mk (.custom (.apply "signaturex".toList .nil)) [] [] none [] [],
         .mk (.custom (.apply "metax".toList .nil)) [] [] none [] []] ∧
      Renders (printRegion r) "(dfg (signaturex) (metax))".toList) ∧
    parseRegion "(dfg (signaturex) (metax))".toList =
      .ok (.mk .dataFlow [] [] (some (.apply "x".toList .nil)) [.apply "x".toList .nil] [], []) := by
  refine ⟨simple_of (ident_of (by decide)) (by decide), simple_of (ident_of (by decide)) (by decide),
    ⟨_, rfl, ?_⟩, by decide +kernel⟩
  rw [printRegion, printNodes, printNodes, printNodes]
  simp only [printPorts, printOption, kindText, List.map_nil, List.nil_append, and_self, if_true]
  refine Renders.group (o := ['(']) (c := [')']) (s := "dfg (signaturex) (metax)".toList) ?_
  refine RendersAll.cons (s := "dfg".toList) (w := [' ']) (t := "(signaturex) (metax)".toList) ?_
    ⟨by decide, by decide⟩ ?_
  · exact Renders.group (o := []) (c := []) (s := "dfg".toList) (.one (.text _))
  · refine RendersAll.cons (s := "(signaturex)".toList) (w := [' ']) (t := "(metax)".toList) ?_
      ⟨by decide, by decide⟩ (.one ?_)
    · exact renders_bare (w := "signaturex".toList) (by rw [printOp, printTerm])
    · exact renders_bare (w := "metax".toList) (by rw [printOp, printTerm])

/-- A declaration of a function without parameters, visibility or metadata, as printed. -/
theorem renders_declare {x : List Char} {t : Term} {u : List Char} (h : Renders (printTerm t) u) :
    Renders (printNode (.mk (.declareFunc ⟨none, x, [], [], t⟩) [] [] none [] []))
      ('(' :: ("declare-func".toList ++ ' ' :: (x ++ ' ' :: (u ++ [')'])))) := by
  rw [printNode, printRegions]
  simp only [printOp, printSymbol, printPorts, printOption, List.map_nil, List.append_nil, List.nil_append,
    and_self, if_true]
  have hsep : Sep [' '] := ⟨by decide, by decide⟩
  have h1 := RendersAll.cons (Renders.text "declare-func".toList) hsep
    (RendersAll.cons (Renders.text x) hsep (RendersAll.one h))
  have := Renders.group (o := ['(']) (c := [')']) (RendersAll.one (Renders.group (o := []) (c := []) h1))
  simpa using this

/-- Finding: a symbol without visibility whose name starts with `public` is read as a public symbol
with the rest of the name, or not at all if a dot follows. -/
theorem C46_visibility_refuted : SymbolText "publicx".toList ∧ SymbolText "public.x".toList ∧
    Renders (printNode (.mk (.declareFunc ⟨none, "publicx".toList, [], [], .wildcard⟩) [] [] none [] []))
      "(declare-func publicx _)".toList ∧
    parseNode "(declare-func publicx _)".toList =
      .ok (.mk (.declareFunc ⟨some .pub, "x".toList, [], [], .wildcard⟩) [] [] none [] [], []) ∧
    Renders (printNode (.mk (.declareFunc ⟨none, "public.x".toList, [], [], .wildcard⟩) [] [] none [] []))
      "(declare-func public.x _)".toList ∧
    parseNode "(declare-func public.x _)".toList = .error := by
  refine ⟨simple_of (ident_of (by decide)) (by decide),
    dotted_of "public".toList "x".toList (ident_of (by decide)) (ident_of (by decide)) (by decide),
    ?_, by decide +kernel, ?_, by decide +kernel⟩
  · exact renders_declare (x := "publicx".toList) (u := ['_']) (by rw [printTerm]; exact .text _)
  · exact renders_declare (x := "public.x".toList) (u := ['_']) (by rw [printTerm]; exact .text _)

/-- Finding: a symbol whose signature is `(where ?x)` is not read back: the signature is taken for a
constraint. -/
theorem C46_where_refuted : SymbolText "where".toList ∧
    (Term.apply "where".toList (.cons (.var "x".toList) .nil)).Ok ∧
    Renders (printNode (.mk (.declareFunc ⟨none, "f".toList, [], [],
      .apply "where".toList (.cons (.var "x".toList) .nil)⟩) [] [] none [] []))
      "(declare-func f (where ?x))".toList ∧
    parseNode "(declare-func f (where ?x))".toList = .error := by
  have hs : SymbolText "where".toList := simple_of (ident_of (by decide)) (by decide)
  refine ⟨hs, ?_, ?_, by decide +kernel⟩
  · simp only [Term.Ok, Terms.Ok]
    exact ⟨hs, not_tuple (by decide), by decide, ident_of (by decide), trivial⟩
  · refine renders_declare (x := "f".toList) (u := "(where ?x)".toList) ?_
    rw [printTerm, printTerm, printTerms]
    exact .group (o := ['(']) (c := [')']) (s := "where ?x".toList) (.cons (s := "where".toList) (w := [' ']) (.text _)
      ⟨by decide, by decide⟩ (.one (.text _)))

/-- Finding: a module, unlike a package, is printed without its header, so no printed module is
read back. -/
theorem C46_module_display_refuted (m : Module) (hm : m.Ok) (s : List Char)
    (hs : RendersAll (printModule m) s) : parseModule s = .error := by
  suffices h : moduleRule s = none by simp only [parseModule, h]
  have hother : ∀ r, lit "mod".toList (skip r) = none → moduleRule ('(' :: r) = none := by
    intro r h
    simp only [moduleRule, lit_open, h]
  obtain ⟨metas, children⟩ := m
  cases metas with
  | cons t ts =>
    obtain ⟨s1, lead, s2, rfl, hr, _, _⟩ := rendersAll_cons (show RendersAll
      (printWrapped "meta".toList t :: (ts.map (printWrapped "meta".toList) ++ printNodes children)) s from hs)
    obtain ⟨r, rfl, _⟩ := wrapped_head hr
    rw [List.cons_append, List.append_assoc]
    refine hother _ ?_
    rw [skip_word (k := "meta".toList) (starts_lit (by decide))]
    rfl
  | nil =>
    cases children with
    | nil =>
      have hs : RendersAll [] s := by simpa [printModule, printNodes] using hs
      rw [rendersAll_nil hs]
      rfl
    | cons n ns =>
      have hs : RendersAll (printNode n :: printNodes ns) s := by simpa [printModule, printNodes] using hs
      have hn : n.Ok := by
        have := hm.2
        simp only [nodesOk] at this
        exact this.1
      obtain ⟨s1, lead, s2, rfl, hr, _, _⟩ := rendersAll_cons hs
      match n with
      | .mk op ins outs sig metas regions =>
        obtain ⟨b, hb, e0, _⟩ := node_docs (R := lead ++ s2) hr
        rw [e0]
        rw [Node.Ok] at hn
        have hop := hn.1
        have hw : ∀ w ∈ nodeWords, ∀ ds, printOp op = .text w :: ds →
            moduleRule ('(' :: (b ++ ')' :: (lead ++ s2))) = none := by
          intro w hw ds h
          rw [h] at hb
          obtain ⟨s3, lead', s4, rfl, hr', _, _⟩ := rendersAll_cons hb
          rw [renders_text hr', List.append_assoc]
          refine hother _ ?_
          rw [skip_word (nodeWords_starts hw)]
          have h := (show ∀ w ∈ nodeWords, ("mod".toList).isPrefixOf w = false ∧
            w.isPrefixOf "mod".toList = false by decide) w hw
          exact lit_clash h.1 h.2
        cases op with
        | custom t =>
          simp only [Operation.Ok] at hop
          have hst := tail_starts (ins := ins) (outs := outs) (sig := sig) (metas := metas)
            (regions_paren regions)
          obtain ⟨s3, R1, b1, e1, hr1, hR1, _⟩ := at_cons (d := printTerm t)
            (by simpa [printOp] using hb) hst (stop_close (lead ++ s2))
          rw [e1]
          have hstart := term_starts hop s3 hr1
          obtain ⟨c, r, rfl, _, halpha, _⟩ := term_head hop hr1
          cases hc : isAlpha c with
          | false =>
            refine hother _ ?_
            rw [skip_starts (hstart.append R1)]
            refine lit_cons_ne _ _ ?_
            rintro rfl
            exact absurd hc (by decide)
          | true =>
            obtain ⟨x, rfl⟩ := halpha hc
            have hx : SymbolText x := by
              simp only [Term.Ok] at hop
              exact hop.1
            have e : c :: r = x := by
              simp only [printTerm] at hr1
              exact renders_text hr1
            rw [e]
            simp only [moduleRule, lit_open, skip_word (name_starts hx.1)]
            cases hl : lit "mod".toList (x ++ R1) with
            | none => rfl
            | some r' =>
              obtain ⟨y, rfl, rfl⟩ := blank_name_lit (by decide) hR1 hl
              cases y with
              | nil => exact absurd (show _ ∈ reservedWords by decide) hx.2
              | cons d y =>
                have hd : isName d = true := hx.1.name d (by simp)
                simp only [List.cons_append, skip_name hd,
                  lit_close_ne (ne_of_name hd (show isName ')' = false by decide))]
        | dfg => exact hw _ (by simp [nodeWords]) _ rfl
        | cfg => exact hw _ (by simp [nodeWords]) _ rfl
        | block => exact hw _ (by simp [nodeWords]) _ rfl
        | tailLoop => exact hw _ (by simp [nodeWords]) _ rfl
        | conditional => exact hw _ (by simp [nodeWords]) _ rfl
        | defineFunc s => exact hw _ (by simp [nodeWords]) _ rfl
        | declareFunc s => exact hw _ (by simp [nodeWords]) _ rfl
        | defineAlias s t => exact hw _ (by simp [nodeWords]) _ rfl
        | declareAlias s => exact hw _ (by simp [nodeWords]) _ rfl
        | declareConstructor s => exact hw _ (by simp [nodeWords]) _ rfl
        | declareOperation s => exact hw _ (by simp [nodeWords]) _ rfl
        | «import» x => exact hw _ (by simp [nodeWords]) _ rfl

end Verif.Text
