import Verif.Text.SymbolRound

/-!
# Printed nodes, regions, modules and packages are read back
-/
namespace Verif.Text

/-! ## Suffixes of names -/

theorem suffix_dotted {z : List Char} (h : DottedText z) : ∀ (p : List Char) (d : Char) (y : List Char),
    z = p ++ d :: y → isInitial d = true → DottedText (d :: y) := by
  induction h with
  | one h =>
    rename_i x
    intro p d y e hd
    obtain ⟨c, cs, rfl, _, hcs⟩ := h
    refine .one ⟨d, y, rfl, hd, fun a ha => ?_⟩
    have hmem : a ∈ cs := by
      cases p with
      | nil => rw [(List.cons.inj e).2]; exact ha
      | cons b p =>
        rw [(List.cons.inj e).2]
        simp [ha]
    exact hcs a hmem
  | more hx hy ih =>
    rename_i x y
    intro p d q e hd
    rcases List.append_eq_append_iff.mp e with ⟨a, rfl, e2⟩ | ⟨a, rfl, e2⟩
    · cases a with
      | nil =>
        simp only [List.nil_append, List.cons.injEq] at e2
        rw [← e2.1] at hd
        exact absurd hd (by decide)
      | cons b a =>
        simp only [List.cons_append, List.cons.injEq] at e2
        exact ih a d q e2.2 hd
    · cases a with
      | nil =>
        simp only [List.nil_append, List.cons.injEq] at e2
        rw [e2.1] at hd
        exact absurd hd (by decide)
      | cons b a =>
        simp only [List.cons_append, List.cons.injEq] at e2
        obtain ⟨rfl, rfl⟩ := e2
        have : d :: (a ++ '.' :: y) = (d :: a) ++ '.' :: y := rfl
        rw [this]
        refine .more ?_ hy
        obtain ⟨c, cs, e3, _, hcs⟩ := hx
        refine ⟨d, a, rfl, hd, fun u hu => ?_⟩
        have hmem : u ∈ cs := by
          cases p with
          | nil => rw [← (List.cons.inj e3).2]; exact hu
          | cons b p =>
            rw [← (List.cons.inj e3).2]
            simp [hu]
        exact hcs u hmem

/-- A name read from the middle of a name goes up to its end. -/
theorem symbolName_suffix {p y R : List Char} {d : Char} (h : DottedText (p ++ d :: y)) (hR : Ends R) :
    symbolName (d :: (y ++ R)) = none ∨
      symbolName (d :: (y ++ R)) = some (d :: y, R) ∧ DottedText (d :: y) := by
  cases hd : isInitial d with
  | false => exact Or.inl (symbolName_none hd)
  | true =>
    have hy := suffix_dotted h p d y rfl hd
    have := dottedName_text hy hR.name
    rw [List.cons_append] at this
    rw [symbolName_eq, this]
    split
    · split
      · exact Or.inl rfl
      · exact Or.inr ⟨rfl, hy⟩
    · exact Or.inr ⟨rfl, hy⟩

/-! ## Words -/

/-- The words that start nodes. -/
def nodeWords : List (List Char) :=
  ["dfg".toList, "cfg".toList, "block".toList, "define-func".toList, "declare-func".toList,
    "define-alias".toList, "declare-alias".toList, "declare-ctr".toList, "declare-operation".toList,
    "tail-loop".toList, "cond".toList, "import".toList]

theorem nodeKeyword_other {rg : Parser RegionTree} {k s : List Char} {op : OpTree}
    (h : lit k (skip s) = none) : nodeKeyword rg k op ('(' :: s) = none := by
  simp only [nodeKeyword, lit_open, h]

theorem nodeSymbol_other {k s : List Char} (h : lit k (skip s) = none) :
    nodeSymbol k ('(' :: s) = none := by
  simp only [nodeSymbol, lit_open, h]

theorem nodeDefineFunc_none {rg : Parser RegionTree} {s : List Char}
    (h : nodeSymbol "define-func".toList s = none) : nodeDefineFunc rg s = none := by
  simp only [nodeDefineFunc, h]

theorem nodeDeclare_none {k s : List Char} {op : SymbolTree → OpTree} (h : nodeSymbol k s = none) :
    nodeDeclare k op s = none := by
  simp only [nodeDeclare, h]

theorem nodeDefineAlias_none {s : List Char} (h : nodeSymbol "define-alias".toList s = none) :
    nodeDefineAlias s = none := by
  simp only [nodeDefineAlias, h]

theorem nodeImport_other {s : List Char} (h : lit "import".toList (skip s) = none) :
    nodeImport ('(' :: s) = none := by
  simp only [nodeImport, lit_open, h]

theorem node_ne {c : Char} (h : c ≠ '(') (f : Nat) (s : List Char) : node f (c :: s) = none := by
  cases f with
  | zero => rw [node]
  | succ f =>
    rw [node]
    simp only [nodeKeyword, nodeDefineFunc, nodeDeclare, nodeDefineAlias, nodeSymbol, nodeImport,
      nodeCustom, lit_paren_ne h, alt_none]

theorem node_nil (f : Nat) : node f [] = none := by
  cases f with
  | zero => rw [node]
  | succ f =>
    rw [node]
    have : lit "(".toList [] = none := rfl
    simp only [nodeKeyword, nodeDefineFunc, nodeDeclare, nodeDefineAlias, nodeSymbol, nodeImport,
      nodeCustom, this, alt_none]

theorem node_needs (f : Nat) : NeedsText (node f) := by
  rintro T (rfl | ⟨w, rfl⟩ | ⟨w, rfl⟩)
  · exact node_nil f
  · exact node_ne (by decide) f w
  · exact node_ne (by decide) f w

theorem region_ne {c : Char} (h : c ≠ '(') (f : Nat) (s : List Char) : region f (c :: s) = none := by
  cases f with
  | zero => rw [region]
  | succ f =>
    rw [region]
    simp only [lit_paren_ne h]

theorem region_needs (f : Nat) : NeedsText (region f) := by
  rintro T (rfl | ⟨w, rfl⟩ | ⟨w, rfl⟩)
  · cases f <;> rw [region]; rfl
  · exact region_ne (by decide) f w
  · exact region_ne (by decide) f w

/-! ## After the operation -/

/-- A region starts with its kind. -/
theorem region_docs {kind : RegionKind} {ins outs : List (List Char)} {sig : Option Term}
    {metas : List Term} {children : List Node} {s R : List Char}
    (h : Renders (printRegion (.mk kind ins outs sig metas children)) s) :
    ∃ b, RendersAll (.text (kindText kind) :: tailDocs ins outs sig metas (printNodes children)) b ∧
      s ++ R = '(' :: (b ++ ')' :: R) ∧ s.length = b.length + 2 := by
  rw [printRegion] at h
  obtain ⟨b, hb, e, hl⟩ := renders_paren (R := R) h
  refine ⟨b, ?_, e, hl⟩
  have h1 := rendersAll_flatten (as := []) (by simp) hb
  have h2 : RendersAll ([Doc.text (kindText kind)] ++ (printPorts ins outs ++ (printOption sig ++
      (metas.map (printWrapped "meta".toList) ++ printNodes children)))) b := by simpa using h1
  exact flatten_ports h2

theorem node_docs {op : Operation} {ins outs : List (List Char)} {sig : Option Term}
    {metas : List Term} {regions : List Region} {s R : List Char}
    (h : Renders (printNode (.mk op ins outs sig metas regions)) s) :
    ∃ b, RendersAll (printOp op ++ tailDocs ins outs sig metas (printRegions regions)) b ∧
      s ++ R = '(' :: (b ++ ')' :: R) ∧ s.length = b.length + 2 := by
  rw [printNode] at h
  obtain ⟨b, hb, e, hl⟩ := renders_paren (R := R) h
  refine ⟨b, ?_, e, hl⟩
  have h1 := rendersAll_flatten (as := []) (by cases op <;> simp [printOp]) hb
  have h2 : RendersAll (printOp op ++ (printPorts ins outs ++ (printOption sig ++
      (metas.map (printWrapped "meta".toList) ++ printRegions regions)))) b := by simpa using h1
  exact flatten_ports h2

theorem kind_starts (k : RegionKind) : Starts (kindText k) := by
  cases k <;> exact starts_lit (by decide)

/-- A region is a parenthesis and the word for its kind. -/
theorem region_head {r : Region} {s : List Char} (h : Renders (printRegion r) s) :
    ∃ k r', s = '(' :: (kindText k ++ r') ∧ Ends r' ∧ r' ≠ [] := by
  match r with
  | .mk kind ins outs sig metas children =>
    obtain ⟨b, hb, e, _⟩ := region_docs (R := []) h
    obtain ⟨s1, lead, s2, rfl, hr, hrs, hl⟩ := rendersAll_cons hb
    rw [renders_text hr] at e
    refine ⟨kind, lead ++ (s2 ++ [')']), by simpa using e, ?_, by simp⟩
    rcases hl with ⟨_, rfl, rfl⟩ | ⟨hw, _⟩
    · simp [Ends]
    · exact Ends.of_sep hw _

theorem region_paren (r : Region) : IsParen (printRegion r) := by
  match r with
  | .mk kind ins outs sig metas children => rw [printRegion]; exact ⟨_, rfl⟩

theorem node_paren (n : Node) : IsParen (printNode n) := by
  match n with
  | .mk op ins outs sig metas regions => rw [printNode]; exact ⟨_, rfl⟩

theorem regions_mem {rs : List Region} {e : Doc} (h : e ∈ printRegions rs) :
    ∃ r ∈ rs, e = printRegion r := by
  match rs with
  | [] => simp [printRegions] at h
  | r :: rs =>
    rw [printRegions] at h
    rcases List.mem_cons.mp h with rfl | h
    · exact ⟨r, by simp, rfl⟩
    · obtain ⟨r', hr', e⟩ := regions_mem h
      exact ⟨r', by simp [hr'], e⟩

theorem nodes_mem {ns : List Node} {e : Doc} (h : e ∈ printNodes ns) :
    ∃ n ∈ ns, e = printNode n := by
  match ns with
  | [] => simp [printNodes] at h
  | n :: ns =>
    rw [printNodes] at h
    rcases List.mem_cons.mp h with rfl | h
    · exact ⟨n, by simp, rfl⟩
    · obtain ⟨n', hn', e⟩ := nodes_mem h
      exact ⟨n', by simp [hn'], e⟩

theorem regions_paren (rs : List Region) : ∀ e ∈ printRegions rs, IsParen e := by
  intro e he
  obtain ⟨r, _, rfl⟩ := regions_mem he
  exact region_paren r

theorem nodes_paren (ns : List Node) : ∀ e ∈ printNodes ns, IsParen e := by
  intro e he
  obtain ⟨r, _, rfl⟩ := nodes_mem he
  exact node_paren r

theorem region_rejects_wrapped {k : List Char} (hk : ∀ kind r, lit k (kindText kind ++ r) = none)
    (r : Region) : Rejects (wrapped k) (printRegion r) := by
  intro s R hs _
  obtain ⟨kind, r', rfl, _⟩ := region_head hs
  rw [List.cons_append, List.append_assoc]
  exact wrapped_other (by rw [skip_word (kind_starts kind)]; exact hk kind _)

theorem regions_reject_signature (rs : List Region) :
    ∀ e ∈ printRegions rs, Rejects (wrapped "signature".toList) e := by
  intro e he
  obtain ⟨r, _, rfl⟩ := regions_mem he
  exact region_rejects_wrapped (fun kind r => by cases kind <;> rfl) r

theorem regions_reject_meta (rs : List Region) :
    ∀ e ∈ printRegions rs, Rejects (wrapped "meta".toList) e := by
  intro e he
  obtain ⟨r, _, rfl⟩ := regions_mem he
  exact region_rejects_wrapped (fun kind r => by cases kind <;> rfl) r

theorem tail_starts {ins outs : List (List Char)} {sig : Option Term} {metas : List Term}
    {items : List Doc} (h : ∀ e ∈ items, IsParen e) :
    ∀ e ∈ tailDocs ins outs sig metas items, DocStarts e := by
  intro e he
  unfold tailDocs at he
  rcases List.mem_append.mp he with he | he
  · exact portDocs_starts _ _ e he
  · rcases List.mem_append.mp he with he | he
    · exact (option_starts sig e he).starts
    · rcases List.mem_append.mp he with he | he
      · exact (metas_paren metas e he).starts
      · exact (h e he).starts

/-- The words that may follow a parenthesis after the operation of a node. -/
def clauseWords : List (List Char) :=
  ["signature".toList, "meta".toList, "dfg".toList, "cfg".toList, "mod".toList]

theorem wrapped_head {k : List Char} {t : Term} {s : List Char} (h : Renders (printWrapped k t) s) :
    ∃ r, s = '(' :: (k ++ r) ∧ Ends r ∧ r ≠ [] := by
  obtain ⟨b, hb, rfl⟩ := renders_group h
  obtain ⟨s1, lead, s2, rfl, hr, _, hl⟩ := rendersAll_cons hb
  rw [renders_text hr]
  refine ⟨lead ++ (s2 ++ [')']), by simp, ?_, by simp⟩
  rcases hl with ⟨h, _⟩ | ⟨hw, _⟩
  · simp at h
  · exact Ends.of_sep hw _

/-- What can follow the operation of a node. -/
theorem after_op {ins outs : List (List Char)} {sig : Option Term} {metas : List Term}
    {regions : List Region} {b R : List Char}
    (hb : RendersAll (tailDocs ins outs sig metas (printRegions regions)) b) :
    (b = [] ∧ ins = [] ∧ outs = [] ∧ sig = none ∧ metas = [] ∧ regions = []) ∨
    (∃ k r, k ∈ clauseWords ∧ b ++ ')' :: R = '(' :: (k ++ r) ∧ Ends r) ∨
    (∃ s1 R1 b1, (ins ≠ [] ∨ outs ≠ []) ∧ b ++ ')' :: R = s1 ++ R1 ∧
      Renders (.group ['['] [']'] (ins.map fun x => .text ('%' :: x))) s1 ∧ Ends R1 ∧
      skip R1 = b1 ++ ')' :: R ∧
      ∃ ds, RendersAll (.group ['['] [']'] (outs.map fun x => .text ('%' :: x)) :: ds) b1) := by
  have hst := tail_starts (ins := ins) (outs := outs) (sig := sig) (metas := metas) (regions_paren regions)
  by_cases hports : ins = [] ∧ outs = []
  case neg =>
    refine Or.inr (Or.inr ?_)
    have hb' : RendersAll (.group ['['] [']'] (ins.map fun x => .text ('%' :: x)) ::
        (.group ['['] [']'] (outs.map fun x => .text ('%' :: x)) :: (printOption sig ++
        (metas.map (printWrapped "meta".toList) ++ printRegions regions)))) b := by
      unfold tailDocs portDocs at hb
      rw [if_neg hports] at hb
      exact hb
    obtain ⟨s1, R1, b1, e1, hr1, hR1, hsk1, hb1, _⟩ := at_cons hb' (by
      intro e he
      refine hst e ?_
      unfold tailDocs portDocs
      rw [if_neg hports]
      simp only [List.cons_append, List.nil_append]
      exact List.mem_cons_of_mem _ he) (stop_close R)
    refine ⟨s1, R1, b1, ?_, e1, hr1, hR1, hsk1, _, hb1⟩
    by_cases h : ins = []
    · exact Or.inr (fun h' => hports ⟨h, h'⟩)
    · exact Or.inl h
  obtain ⟨rfl, rfl⟩ := hports
  have hb : RendersAll (printOption sig ++
      (metas.map (printWrapped "meta".toList) ++ printRegions regions)) b := hb
  have key : ∀ (d : Doc) (ds : List Doc), RendersAll (d :: ds) b →
      (∀ s, Renders d s → ∃ k r, k ∈ clauseWords ∧ s = '(' :: (k ++ r) ∧ Ends r ∧ r ≠ []) →
      ∃ k r, k ∈ clauseWords ∧ b ++ ')' :: R = '(' :: (k ++ r) ∧ Ends r := by
    intro d ds hd h
    obtain ⟨s1, lead, s2, rfl, hr, _, _⟩ := rendersAll_cons hd
    obtain ⟨k, r, hk, rfl, hr', hne⟩ := h s1 hr
    refine ⟨k, r ++ (lead ++ (s2 ++ ')' :: R)), hk, by simp, ?_⟩
    cases r with
    | nil => exact absurd rfl hne
    | cons c r => exact hr'
  cases sig with
  | some t =>
    refine Or.inr (Or.inl (key _ _ hb ?_))
    intro s hs
    obtain ⟨r, e, hr⟩ := wrapped_head hs
    exact ⟨_, r, by simp [clauseWords], e, hr⟩
  | none =>
    cases metas with
    | cons t ts =>
      refine Or.inr (Or.inl (key _ _ hb ?_))
      intro s hs
      obtain ⟨r, e, hr⟩ := wrapped_head hs
      exact ⟨_, r, by simp [clauseWords], e, hr⟩
    | nil =>
      cases regions with
      | nil =>
        have hb : RendersAll [] b := by simpa [printOption, printRegions] using hb
        exact Or.inl ⟨rendersAll_nil hb, rfl, rfl, rfl, rfl, rfl⟩
      | cons r rs =>
        have hb : RendersAll (printRegion r :: printRegions rs) b := by
          simpa [printOption, printRegions] using hb
        refine Or.inr (Or.inl (key _ _ hb ?_))
        intro s hs
        obtain ⟨k, r, e, hr⟩ := region_head hs
        exact ⟨_, r, by cases k <;> simp [clauseWords, kindText], e, hr⟩

/-! ## Clauses are neither terms, nor names, nor parameters -/

theorem clause_starts {k : List Char} (h : k ∈ clauseWords) : Starts k := by
  simp only [clauseWords, List.mem_cons, List.not_mem_nil, or_false] at h
  rcases h with rfl | rfl | rfl | rfl | rfl <;> exact starts_lit (by decide)

theorem symbolName_clause {k r : List Char} (h : k ∈ clauseWords) (hr : Ends r) :
    symbolName (k ++ r) = none := by
  have hends : nameEnds r = true := by
    cases r with
    | nil => rfl
    | cons c r => rcases hr with rfl | rfl | rfl | rfl <;> rfl
  have hres : reserved (k ++ r) = some r := by
    simp only [clauseWords, List.mem_cons, List.not_mem_nil, or_false] at h
    rcases h with rfl | rfl | rfl | rfl | rfl <;> rfl
  rw [symbolName_eq, hres]
  simp only [hends, if_true]

theorem clause_not_term {k r : List Char} (h : k ∈ clauseWords) (hr : Ends r) :
    parseTermTree ('(' :: (k ++ r)) = none := by
  have hsk := skip_word (clause_starts h) r
  have h1 : lit "bytes".toList (k ++ r) = none := by
    simp only [clauseWords, List.mem_cons, List.not_mem_nil, or_false] at h
    rcases h with rfl | rfl | rfl | rfl | rfl <;> rfl
  have h2 : lit "tuple".toList (k ++ r) = none := by
    simp only [clauseWords, List.mem_cons, List.not_mem_nil, or_false] at h
    rcases h with rfl | rfl | rfl | rfl | rfl <;> rfl
  have h3 : lit "fn".toList (k ++ r) = none := by
    simp only [clauseWords, List.mem_cons, List.not_mem_nil, or_false] at h
    rcases h with rfl | rfl | rfl | rfl | rfl <;> rfl
  unfold parseTermTree
  rw [show 4 * ('(' :: (k ++ r)).length + 4 = (4 * ('(' :: (k ++ r)).length + 2) + 1 + 1 from rfl,
    term_paren, termTuple, termConstFunc, termApply]
  simp only [literalBytes, lit_paren, hsk, h1, h2, h3, alt_none, symbolName_clause h hr,
    symbolName_none (show isInitial '(' = false by decide)]

theorem clause_not_param {k r : List Char} (h : k ∈ clauseWords) :
    param ('(' :: (k ++ r)) = none := by
  refine param_other ?_
  rw [skip_word (clause_starts h)]
  simp only [clauseWords, List.mem_cons, List.not_mem_nil, or_false] at h
  rcases h with rfl | rfl | rfl | rfl | rfl <;> rfl

theorem clause_not_where {k r : List Char} (h : k ∈ clauseWords) :
    wrapped "where".toList ('(' :: (k ++ r)) = none := by
  refine wrapped_other ?_
  rw [skip_word (clause_starts h)]
  simp only [clauseWords, List.mem_cons, List.not_mem_nil, or_false] at h
  rcases h with rfl | rfl | rfl | rfl | rfl <;> rfl

/-- A list of ports that is not empty is not a term. -/
theorem links_not_term {xs : List (List Char)} (hne : xs ≠ []) {s R : List Char}
    (hs : Renders (.group ['['] [']'] (xs.map fun x => .text ('%' :: x))) s) :
    parseTermTree (s ++ R) = none := by
  obtain ⟨b, hb, e, _⟩ := renders_bracket (R := R) hs
  cases xs with
  | nil => exact absurd rfl hne
  | cons x xs =>
    obtain ⟨s1, lead, s2, rfl, hr, _, _⟩ := rendersAll_cons hb
    rw [renders_text hr] at e
    have e' : s ++ R = '[' :: '%' :: (x ++ (lead ++ s2) ++ ']' :: R) := by rw [e]; simp
    generalize x ++ (lead ++ s2) ++ ']' :: R = q at e'
    rw [e', parseTermTree]
    generalize 4 * ('[' :: '%' :: q).length = n
    have hsk : skip ('%' :: q) = '%' :: q := skip_fix (by decide) (by decide) q
    have hterm : ∀ f, term f ('%' :: q) = none := by
      intro f
      cases f with
      | zero => rw [term]
      | succ f =>
        rw [term, termWildcard_ne (by decide), termVar_ne (by decide), termList_ne (by decide),
          literal_ne (by decide) (by decide) (by decide) (by decide) (by decide),
          termTuple_ne (by decide), termConstFunc_ne (by decide), termApply_ne (by decide) (by decide)]
        rfl
    have hpart : ∀ f, part f ('%' :: q) = none := by
      intro f
      cases f with
      | zero => rw [part]
      | succ f => rw [part]; simp [hterm]
    have hparts : ∀ f, parts f ('%' :: q) = (.nil, '%' :: q) := by
      intro f
      cases f with
      | zero => rw [parts]
      | succ f => rw [parts, hpart]
    have hlist : ∀ f, termList f ('[' :: '%' :: q) = none := by
      intro f
      cases f with
      | zero => rw [termList]
      | succ f =>
        rw [termList]
        have h1 : lit "[".toList ('[' :: '%' :: q) = some ('%' :: q) := rfl
        have h2 : lit "]".toList ('%' :: q) = none := rfl
        simp only [h1, hsk, hparts, h2]
    rw [term, termWildcard_ne (by decide), termVar_ne (by decide), hlist,
      literal_ne (by decide) (by decide) (by decide) (by decide) (by decide),
      termTuple_ne (by decide), termConstFunc_ne (by decide), termApply_ne (by decide) (by decide)]
    rfl

theorem empty_links_term {R : List Char} {t : Tree} {r : List Char} (hR : Ends R)
    (h : parseTermTree ('[' :: ']' :: R) = some (t, r)) : r = R := by
  have hs : Renders (printTerm (.list .nil)) ['[', ']'] := by
    rw [printTerm, printListParts]
    exact Renders.group (o := ['[']) (c := [']']) RendersAll.nil
  obtain ⟨tr, _, hread⟩ := term_accepts (t := .list .nil) (by simp [Term.Ok, Parts.Ok]) 2
    ['[', ']'] R hs (by simp) hR
  have : parseTermTree ('[' :: ']' :: R) = some (tr, R) := hread
  rw [this] at h
  exact (Prod.mk.inj (Option.some.inj h)).2.symm

/-! ## Symbols are not read after the start of a name -/

theorem visibility_ne {c : Char} (h : c ≠ 'p') (s : List Char) : visibility (c :: s) = none := by
  have h1 : lit "public".toList (c :: s) = none := lit_cons_ne _ s h
  have h2 : lit "private".toList (c :: s) = none := lit_cons_ne _ s h
  simp only [visibility, h1, h2]

/-- If a symbol is read from the end of a name, the text after the name is a term. -/
theorem symbol_suffix {p y R : List Char} (hy : DottedText (p ++ y)) (hR : Ends R)
    {c : Char} {P : List Char} (hP : skip R = c :: P) (hc : isInitial c = false)
    (hsolid : skip (c :: P) = c :: P)
    (hparam : param (c :: P) = none) (hwhere : wrapped "where".toList (c :: P) = none)
    {st : SymbolTree} {r : List Char} (h : symbol (skip (y ++ R)) = some (st, r)) :
    ∃ t, parseTermTree (c :: P) = some (t, r) := by
  have hcp : c ≠ 'p' := by rintro rfl; exact absurd hc (by decide)
  -- reading the name
  have hname : ∀ (q z : List Char), DottedText (q ++ z) → ∀ x r2,
      symbolName (skip (z ++ R)) = some (x, r2) → r2 = R := by
    intro q z hz x r2 hs
    cases z with
    | nil =>
      rw [List.nil_append, hP, symbolName_none hc] at hs
      cases hs
    | cons d z =>
      have hd : isName d = true := hz.name d (by simp)
      rw [List.cons_append, skip_name hd] at hs
      rcases symbolName_suffix hz hR with h' | ⟨h', _⟩
      · rw [h'] at hs; cases hs
      · rw [h'] at hs; exact (Prod.mk.inj (Option.some.inj hs)).2.symm
  have hvis : ∃ v z q, optional visibility (skip (y ++ R)) = (v, z) ∧
      (∀ x r2, symbolName (skip z) = some (x, r2) → r2 = R) ∧ q = v := by
    cases y with
    | nil =>
      rw [List.nil_append, hP]
      refine ⟨none, c :: P, none, optional_none (visibility_ne hcp P), ?_, rfl⟩
      intro x r2 hs
      rw [hsolid, symbolName_none hc] at hs
      cases hs
    | cons d y =>
      have hd : isName d = true := hy.name d (by simp)
      rw [List.cons_append, skip_name hd, ← List.cons_append]
      cases hv : visibility (d :: y ++ R) with
      | none =>
        exact ⟨none, _, none, optional_none hv, hname p (d :: y) hy, rfl⟩
      | some q =>
        obtain ⟨v, z⟩ := q
        refine ⟨some v, z, some v, optional_some hv, ?_, rfl⟩
        have hz : ∃ k z', d :: y = k ++ z' ∧ z = z' ++ R := by
          unfold visibility at hv
          cases h1 : lit "public".toList (d :: y ++ R) with
          | some r1 =>
            rw [h1] at hv
            obtain ⟨_, rfl⟩ := Prod.mk.inj (Option.some.inj hv)
            obtain ⟨z', e1, e2⟩ := blank_name_lit (by decide) hR h1
            exact ⟨_, z', e1, e2⟩
          | none =>
            rw [h1] at hv
            cases h2 : lit "private".toList (d :: y ++ R) with
            | some r1 =>
              rw [h2] at hv
              obtain ⟨_, rfl⟩ := Prod.mk.inj (Option.some.inj hv)
              obtain ⟨z', e1, e2⟩ := blank_name_lit (by decide) hR h2
              exact ⟨_, z', e1, e2⟩
            | none => rw [h2] at hv; cases hv
        obtain ⟨k, z', e1, rfl⟩ := hz
        exact hname (p ++ k) z' (by rw [List.append_assoc, ← e1]; exact hy)
  obtain ⟨v, z, _, h1, h2, _⟩ := hvis
  unfold symbol at h
  rw [h1] at h
  simp only [] at h
  cases hs : symbolName (skip z) with
  | none => rw [hs] at h; cases h
  | some q =>
    obtain ⟨x, r2⟩ := q
    have := h2 x r2 hs
    subst this
    rw [hs] at h
    have hm1 : many param (c :: P) = ([], c :: P) := by rw [many, hparam]
    have hm2 : many (wrapped "where".toList) (c :: P) = ([], c :: P) := by rw [many, hwhere]
    simp only [hP, hm1, hsolid, hm2] at h
    cases ht : parseTermTree (c :: P) with
    | none => rw [ht] at h; cases h
    | some q =>
      obtain ⟨t, r5⟩ := q
      rw [ht] at h
      obtain ⟨_, rfl⟩ := Prod.mk.inj (Option.some.inj h)
      exact ⟨t, rfl⟩

/-! ## Custom nodes without arguments -/

/-- The text after the operation starts with a delimiter. -/
theorem after_head {ins outs : List (List Char)} {sig : Option Term} {metas : List Term}
    {regions : List Region} {b R : List Char}
    (hb : RendersAll (tailDocs ins outs sig metas (printRegions regions)) b) :
    ∃ c P, b ++ ')' :: R = c :: P ∧ isInitial c = false ∧ skip (c :: P) = c :: P ∧
      param (c :: P) = none ∧ wrapped "where".toList (c :: P) = none := by
  rcases after_op (R := R) hb with ⟨rfl, _⟩ | ⟨k, r, hk, e, _⟩ | ⟨s1, R1, b1, _, e, hr1, _⟩
  · exact ⟨')', R, rfl, by decide, skip_close R, param_ne (by decide) R, wrapped_ne (by decide) _ R⟩
  · rw [e]
    exact ⟨'(', k ++ r, rfl, by decide, skip_fix (by decide) (by decide) _, clause_not_param hk,
      clause_not_where hk⟩
  · obtain ⟨b', _, e', _⟩ := renders_bracket (R := R1) hr1
    rw [e, e']
    exact ⟨'[', _, rfl, by decide, skip_fix (by decide) (by decide) _, param_ne (by decide) _,
      wrapped_ne (by decide) _ _⟩

/-- If the text after the operation starts like a term, this is the empty list of inputs. -/
theorem after_term {ins outs : List (List Char)} {sig : Option Term} {metas : List Term}
    {regions : List Region} {b R : List Char}
    (hb : RendersAll (tailDocs ins outs sig metas (printRegions regions)) b) {t : Tree} {r : List Char}
    (h : parseTermTree (b ++ ')' :: R) = some (t, r)) :
    ∃ q, skip r = '[' :: q ∧ parseTermTree ('[' :: q) = none := by
  rcases after_op (R := R) hb with ⟨rfl, _⟩ | ⟨k, r', hk, e, hr⟩ | ⟨s1, R1, b1, hne, e, hr1, hR1, hsk, ds, hds⟩
  · rw [List.nil_append, term_needs _ (stop_close R)] at h
    cases h
  · rw [e, clause_not_term hk hr] at h
    cases h
  · rw [e] at h
    by_cases hins : ins = []
    case neg =>
      rw [links_not_term hins hr1] at h
      cases h
    subst hins
    have hout : outs ≠ [] := by
      rcases hne with h | h
      · exact absurd rfl h
      · exact h
    obtain ⟨b', hb', e', _⟩ := renders_bracket (R := R1) hr1
    rw [rendersAll_nil hb'] at e'
    rw [e'] at h
    have := empty_links_term hR1 h
    subst this
    obtain ⟨s2, lead, s3, rfl, hr2, _, _⟩ := rendersAll_cons hds
    have h2 := links_not_term hout hr2 (R := lead ++ s3 ++ ')' :: R)
    obtain ⟨b2, _, e2, _⟩ := renders_bracket (R := lead ++ s3 ++ ')' :: R) hr2
    rw [e2] at h2
    refine ⟨_, ?_, h2⟩
    rw [hsk, ← e2]
    simp

theorem metasEnd_bracket (q : List Char) : metasEnd ('[' :: q) = none := by
  have h1 : many (wrapped "meta".toList) ('[' :: q) = ([], '[' :: q) := by
    rw [many, wrapped_ne (by decide)]
  have h2 : skip ('[' :: q) = '[' :: q := skip_fix (by decide) (by decide) q
  simp only [metasEnd, h1, h2, lit_close_ne (c := '[') (by decide)]

theorem tail_name {α : Type} {item : Parser α} {d : Char} {s : List Char} (hd : isName d = true)
    (hitem : item (d :: s) = none) : tail item (d :: s) = none := by
  have hsk := skip_name hd s
  have h1 : optional portLists (d :: s) = (none, d :: s) :=
    optional_none (portLists_ne (ne_of_name hd (by decide)) s)
  have h2 : optional (wrapped "signature".toList) (d :: s) = (none, d :: s) :=
    optional_none (wrapped_ne (ne_of_name hd (by decide)) _ s)
  have h3 : many (wrapped "meta".toList) (d :: s) = ([], d :: s) := by
    rw [many, wrapped_ne (ne_of_name hd (by decide))]
  have h4 : many item (d :: s) = ([], d :: s) := by rw [many, hitem]
  simp only [tail, h1, hsk, h2, h3, h4, lit_close_ne (ne_of_name hd (show isName ')' = false by decide))]

theorem keyword_name {f : Nat} {k x R1 : List Char} {op : OpTree} (hk : k ∈ reservedWords)
    (hx : SymbolText x) (hR1 : Ends R1) :
    nodeKeyword (region f) k op ('(' :: (x ++ R1)) = none := by
  simp only [nodeKeyword, lit_open, skip_word (name_starts hx.1)]
  cases hl : lit k (x ++ R1) with
  | none => rfl
  | some r =>
    obtain ⟨y, rfl, rfl⟩ := blank_name_lit (reserved_names k hk) hR1 hl
    cases y with
    | nil => exact absurd (by simpa using hk) hx.2
    | cons d y =>
      have hd : isName d = true := hx.1.name d (by simp)
      simp only [List.cons_append, skip_name hd,
        tail_name hd (region_ne (ne_of_name hd (show isName '(' = false by decide)) f _)]

section
variable {ins outs : List (List Char)} {sig : Option Term} {metas : List Term} {regions : List Region}
  {x R1 b1 R : List Char}

theorem symbol_name {k : List Char} (hk : ∀ c ∈ k, isName c = true) (hx : SymbolText x) (hR1 : Ends R1)
    (hsk1 : skip R1 = b1 ++ ')' :: R)
    (hb1 : RendersAll (tailDocs ins outs sig metas (printRegions regions)) b1) {st : SymbolTree}
    {r : List Char} (h : nodeSymbol k ('(' :: (x ++ R1)) = some (st, r)) :
    ∃ q, skip r = '[' :: q ∧ parseTermTree ('[' :: q) = none := by
  simp only [nodeSymbol, lit_open, skip_word (name_starts hx.1)] at h
  cases hl : lit k (x ++ R1) with
  | none => rw [hl] at h; cases h
  | some r' =>
    rw [hl] at h
    obtain ⟨y, rfl, rfl⟩ := blank_name_lit hk hR1 hl
    obtain ⟨c, P, e, hc, hsolid, hp, hw⟩ := after_head (R := R) hb1
    rw [e] at hsk1
    obtain ⟨t, ht⟩ := symbol_suffix hx.1 hR1 hsk1 hc hsolid hp hw h
    rw [← e] at ht
    exact after_term hb1 ht

theorem declare_name {k : List Char} {op : SymbolTree → OpTree} (hk : ∀ c ∈ k, isName c = true)
    (hx : SymbolText x) (hR1 : Ends R1) (hsk1 : skip R1 = b1 ++ ')' :: R)
    (hb1 : RendersAll (tailDocs ins outs sig metas (printRegions regions)) b1) :
    nodeDeclare k op ('(' :: (x ++ R1)) = none := by
  unfold nodeDeclare
  cases h : nodeSymbol k ('(' :: (x ++ R1)) with
  | none => rfl
  | some q =>
    obtain ⟨st, r⟩ := q
    obtain ⟨q, hq, _⟩ := symbol_name hk hx hR1 hsk1 hb1 h
    simp only [hq, metasEnd_bracket]

theorem defineFunc_name {f : Nat} (hx : SymbolText x) (hR1 : Ends R1) (hsk1 : skip R1 = b1 ++ ')' :: R)
    (hb1 : RendersAll (tailDocs ins outs sig metas (printRegions regions)) b1) :
    nodeDefineFunc (region f) ('(' :: (x ++ R1)) = none := by
  unfold nodeDefineFunc
  cases h : nodeSymbol "define-func".toList ('(' :: (x ++ R1)) with
  | none => rfl
  | some q =>
    obtain ⟨st, r⟩ := q
    obtain ⟨q, hq, _⟩ := symbol_name (by decide) hx hR1 hsk1 hb1 h
    have h1 : many (wrapped "meta".toList) ('[' :: q) = ([], '[' :: q) := by
      rw [many, wrapped_ne (by decide)]
    have h2 : skip ('[' :: q) = '[' :: q := skip_fix (by decide) (by decide) q
    have h3 : many (region f) ('[' :: q) = ([], '[' :: q) := by
      rw [many, region_ne (by decide)]
    simp only [hq, h1, h2, h3, lit_close_ne (c := '[') (by decide)]

theorem defineAlias_name (hx : SymbolText x) (hR1 : Ends R1) (hsk1 : skip R1 = b1 ++ ')' :: R)
    (hb1 : RendersAll (tailDocs ins outs sig metas (printRegions regions)) b1) :
    nodeDefineAlias ('(' :: (x ++ R1)) = none := by
  unfold nodeDefineAlias
  cases h : nodeSymbol "define-alias".toList ('(' :: (x ++ R1)) with
  | none => rfl
  | some q =>
    obtain ⟨st, r⟩ := q
    obtain ⟨q, hq, hn⟩ := symbol_name (by decide) hx hR1 hsk1 hb1 h
    simp only [hq, hn]

theorem import_name (hx : SymbolText x) (hR1 : Ends R1) (hsk1 : skip R1 = b1 ++ ')' :: R)
    (hb1 : RendersAll (tailDocs ins outs sig metas (printRegions regions)) b1)
    (hm : ∀ t ∈ metas, t.Ok)
    (hn : ins = [] → outs = [] → sig = none → regions = [] → ¬ ImportLike x) :
    nodeImport ('(' :: (x ++ R1)) = none := by
  simp only [nodeImport, lit_open, skip_word (name_starts hx.1)]
  cases hl : lit "import".toList (x ++ R1) with
  | none => rfl
  | some r =>
    obtain ⟨y, rfl, rfl⟩ := blank_name_lit (by decide) hR1 hl
    cases y with
    | nil => exact absurd (show _ ∈ reservedWords by decide) hx.2
    | cons d y =>
      have hd : isName d = true := hx.1.name d (by simp)
      simp only [List.cons_append, skip_name hd]
      rcases symbolName_suffix hx.1 hR1 with h | ⟨h, hdot⟩
      · rw [h]
      · rw [h]
        simp only [hsk1]
        -- the node has ports, a signature or regions, so it is not an import
        suffices h : metasEnd (b1 ++ ')' :: R) = none by rw [h]
        by_cases hports : ins = [] ∧ outs = []
        case neg =>
          rcases after_op (R := R) hb1 with ⟨_, h1, h2, _⟩ | ⟨k, r, hk, e, _⟩ | ⟨s1, R2, b2, _, e, hr1, _⟩
          · exact absurd ⟨h1, h2⟩ hports
          · exfalso
            have : tailDocs ins outs sig metas (printRegions regions) =
                .group ['['] [']'] (ins.map fun x => .text ('%' :: x)) ::
                (.group ['['] [']'] (outs.map fun x => .text ('%' :: x)) :: (printOption sig ++
                (metas.map (printWrapped "meta".toList) ++ printRegions regions))) := by
              unfold tailDocs portDocs
              rw [if_neg hports]; rfl
            rw [this] at hb1
            obtain ⟨s1, lead, s2, rfl, hr, _, _⟩ := rendersAll_cons hb1
            obtain ⟨b', _, e', _⟩ := renders_bracket (R := lead ++ s2 ++ ')' :: R) hr
            have e2 : s1 ++ (lead ++ s2) ++ ')' :: R = s1 ++ (lead ++ s2 ++ ')' :: R) := by simp
            rw [e2, e'] at e
            exact absurd (List.cons.inj e).1 (by decide)
          · obtain ⟨b', _, e', _⟩ := renders_bracket (R := R2) hr1
            rw [e, e']
            exact metasEnd_bracket _
        obtain ⟨rfl, rfl⟩ := hports
        cases sig with
        | some t =>
          obtain ⟨s1, lead, s2, rfl, hr, _, _⟩ := rendersAll_cons (show RendersAll
            (printWrapped "signature".toList t :: (metas.map (printWrapped "meta".toList) ++
              printRegions regions)) b1 from hb1)
          obtain ⟨r, rfl, _⟩ := wrapped_head hr
          have e2 : '(' :: ("signature".toList ++ r) ++ (lead ++ s2) ++ ')' :: R =
            '(' :: ("signature".toList ++ (r ++ (lead ++ s2) ++ ')' :: R)) := by simp
          rw [e2]
          generalize r ++ (lead ++ s2) ++ ')' :: R = z
          have h1 : many (wrapped "meta".toList) ('(' :: ("signature".toList ++ z)) =
              ([], '(' :: ("signature".toList ++ z)) := by
            rw [many, wrapped_other]
            rw [skip_word (k := "signature".toList) (starts_lit (by decide))]; rfl
          have h2 : skip ('(' :: ("signature".toList ++ z)) = '(' :: ("signature".toList ++ z) :=
            skip_fix (by decide) (by decide) _
          simp only [metasEnd, h1, h2, lit_close_ne (c := '(') (by decide)]
        | none =>
          have hr : regions ≠ [] := by
            rintro rfl
            exact hn rfl rfl rfl rfl ⟨d :: y, hdot, rfl⟩
          have hb1 : RendersAll (metas.map (printWrapped "meta".toList) ++ printRegions regions) b1 := hb1
          obtain ⟨ms, R3, b3, h3, _, hsk3, hb3, _⟩ := many_docs (wrapped_needs "meta".toList)
            (stop_close R) (fun e es' h => regions_reject_meta regions e (by rw [h]; simp))
            (fun e he => (regions_paren regions e he).starts)
            (metas_accepts (word_starts (by simp)) b1.length hm) hb1 (Nat.le_refl _)
          simp only [metasEnd, h3, hsk3]
          cases regions with
          | nil => exact absurd rfl hr
          | cons q qs =>
            rw [printRegions] at hb3
            rw [lit_close_starts ((rendersAll_starts hb3 (region_paren q).starts).append _)]

end

end Verif.Text
