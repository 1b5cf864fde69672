import Verif.Text.NodeRound
import Verif.Text.Fuel

/-!
# Printed nodes, regions, modules and packages are read back
-/
namespace Verif.Text

/-! ## Words that start nodes -/

theorem lit_clash {r : List Char} : ∀ {k k' : List Char}, k.isPrefixOf k' = false →
    k'.isPrefixOf k = false → lit k (k' ++ r) = none
  | [], _, h, _ => by simp [List.isPrefixOf] at h
  | _ :: _, [], _, h => by simp [List.isPrefixOf] at h
  | c :: k, d :: k', h1, h2 => by
    by_cases e : c = d
    · subst e
      simp only [List.isPrefixOf, beq_self_eq_true, Bool.true_and] at h1 h2
      simpa [lit] using lit_clash h1 h2
    · rw [List.cons_append]
      exact lit_cons_ne _ _ (fun e' => e e'.symm)

theorem nodeWords_clash : ∀ k ∈ nodeWords, ∀ k' ∈ nodeWords, k ≠ k' →
    k.isPrefixOf k' = false ∧ k'.isPrefixOf k = false := by decide

theorem nodeWords_lit {k k' : List Char} (hk : k ∈ nodeWords) (hk' : k' ∈ nodeWords) (hne : k ≠ k')
    (r : List Char) : lit k (k' ++ r) = none :=
  lit_clash (nodeWords_clash k hk k' hk' hne).1 (nodeWords_clash k hk k' hk' hne).2

theorem nodeWords_starts {k : List Char} (hk : k ∈ nodeWords) : Starts k := by
  simp only [nodeWords, List.mem_cons, List.not_mem_nil, or_false] at hk
  rcases hk with rfl | rfl | rfl | rfl | rfl | rfl | rfl | rfl | rfl | rfl | rfl | rfl <;>
    exact starts_lit (by decide)

/-- All the alternatives whose keyword is not read. -/
structure Unread (f : Nat) (P : List Char → Prop) (s : List Char) : Prop where
  dfg : P "dfg".toList → nodeKeyword (region f) "dfg".toList .dfg s = none
  cfg : P "cfg".toList → nodeKeyword (region f) "cfg".toList .cfg s = none
  block : P "block".toList → nodeKeyword (region f) "block".toList .block s = none
  defineFunc : P "define-func".toList → nodeDefineFunc (region f) s = none
  declareFunc : P "declare-func".toList → nodeDeclare "declare-func".toList .declareFunc s = none
  defineAlias : P "define-alias".toList → nodeDefineAlias s = none
  declareAlias : P "declare-alias".toList → nodeDeclare "declare-alias".toList .declareAlias s = none
  declareConstructor : P "declare-ctr".toList →
    nodeDeclare "declare-ctr".toList .declareConstructor s = none
  declareOperation : P "declare-operation".toList →
    nodeDeclare "declare-operation".toList .declareOperation s = none
  tailLoop : P "tail-loop".toList → nodeKeyword (region f) "tail-loop".toList .tailLoop s = none
  conditional : P "cond".toList → nodeKeyword (region f) "cond".toList .conditional s = none
  imports : P "import".toList → nodeImport s = none

theorem unread_lit (f : Nat) (s : List Char) :
    Unread f (fun k => lit k (skip s) = none) ('(' :: s) :=
  ⟨nodeKeyword_other, nodeKeyword_other, nodeKeyword_other,
    fun h => nodeDefineFunc_none (nodeSymbol_other h), fun h => nodeDeclare_none (nodeSymbol_other h),
    fun h => nodeDefineAlias_none (nodeSymbol_other h), fun h => nodeDeclare_none (nodeSymbol_other h),
    fun h => nodeDeclare_none (nodeSymbol_other h), fun h => nodeDeclare_none (nodeSymbol_other h),
    nodeKeyword_other, nodeKeyword_other, nodeImport_other⟩

theorem unread_word {k : List Char} (hk : k ∈ nodeWords) (f : Nat) (R : List Char) :
    Unread f (fun k' => k' ∈ nodeWords ∧ k' ≠ k) ('(' :: (k ++ R)) := by
  have h := unread_lit f (k ++ R)
  rw [skip_word (nodeWords_starts hk)] at h
  have hl : ∀ k', k' ∈ nodeWords ∧ k' ≠ k → lit k' (k ++ R) = none :=
    fun k' hk' => nodeWords_lit hk'.1 hk hk'.2 R
  exact ⟨fun q => h.dfg (hl _ q), fun q => h.cfg (hl _ q), fun q => h.block (hl _ q),
    fun q => h.defineFunc (hl _ q), fun q => h.declareFunc (hl _ q), fun q => h.defineAlias (hl _ q),
    fun q => h.declareAlias (hl _ q), fun q => h.declareConstructor (hl _ q),
    fun q => h.declareOperation (hl _ q), fun q => h.tailLoop (hl _ q), fun q => h.conditional (hl _ q),
    fun q => h.imports (hl _ q)⟩

/-- Before something that is not a letter no keyword is read. -/
theorem unread_other {c : Char} (hc : isAlpha c = false) {r : List Char} (hsk : skip (c :: r) = c :: r)
    (f : Nat) : Unread f (fun _ => True) ('(' :: c :: r) := by
  have h := unread_lit f (c :: r)
  rw [hsk] at h
  have hl : ∀ d k, isAlpha d = true → lit (d :: k) (c :: r) = none := by
    intro d k hd
    refine lit_cons_ne k r ?_
    rintro rfl
    rw [hc] at hd
    cases hd
  exact ⟨fun _ => h.dfg (hl _ _ (by decide)), fun _ => h.cfg (hl _ _ (by decide)),
    fun _ => h.block (hl _ _ (by decide)), fun _ => h.defineFunc (hl _ _ (by decide)),
    fun _ => h.declareFunc (hl _ _ (by decide)), fun _ => h.defineAlias (hl _ _ (by decide)),
    fun _ => h.declareAlias (hl _ _ (by decide)), fun _ => h.declareConstructor (hl _ _ (by decide)),
    fun _ => h.declareOperation (hl _ _ (by decide)), fun _ => h.tailLoop (hl _ _ (by decide)),
    fun _ => h.conditional (hl _ _ (by decide)), fun _ => h.imports (hl _ _ (by decide))⟩

theorem node_custom {f : Nat} {s : List Char} (h : Unread f (fun _ => True) s) :
    node (f + 1) s = nodeCustom (region f) s := by
  rw [node]
  simp only [h.dfg trivial, h.cfg trivial, h.block trivial, h.defineFunc trivial, h.declareFunc trivial,
    h.defineAlias trivial, h.declareAlias trivial, h.declareConstructor trivial,
    h.declareOperation trivial, h.tailLoop trivial, h.conditional trivial, h.imports trivial, alt_none]

/-! ## Custom nodes -/

theorem unread_custom {ins outs : List (List Char)} {sig : Option Term} {metas : List Term}
    {regions : List Region} {t : Term} (ht : t.Ok) {s1 R1 b1 R : List Char}
    (hs1 : Renders (printTerm t) s1) (hR1 : Ends R1) (hsk1 : skip R1 = b1 ++ ')' :: R)
    (hb1 : RendersAll (tailDocs ins outs sig metas (printRegions regions)) b1)
    (hm : ∀ t ∈ metas, t.Ok)
    (hn : ∀ x, t = .apply x .nil → ins = [] → outs = [] → sig = none → regions = [] → ¬ ImportLike x)
    (f : Nat) : Unread f (fun _ => True) ('(' :: (s1 ++ R1)) := by
  have hst := term_starts ht s1 hs1
  obtain ⟨c, r, rfl, _, halpha, _⟩ := term_head ht hs1
  cases hc : isAlpha c with
  | false => exact unread_other hc (skip_starts (hst.append R1)) f
  | true =>
    obtain ⟨x, rfl⟩ := halpha hc
    have hx : SymbolText x := by
      simp only [Term.Ok] at ht
      exact ht.1
    have e : c :: r = x := by
      simp only [printTerm] at hs1
      exact renders_text hs1
    rw [e]
    exact ⟨fun _ => keyword_name (by decide) hx hR1, fun _ => keyword_name (by decide) hx hR1,
      fun _ => keyword_name (by decide) hx hR1, fun _ => defineFunc_name hx hR1 hsk1 hb1,
      fun _ => declare_name (by decide) hx hR1 hsk1 hb1, fun _ => defineAlias_name hx hR1 hsk1 hb1,
      fun _ => declare_name (by decide) hx hR1 hsk1 hb1,
      fun _ => declare_name (by decide) hx hR1 hsk1 hb1,
      fun _ => declare_name (by decide) hx hR1 hsk1 hb1, fun _ => keyword_name (by decide) hx hR1,
      fun _ => keyword_name (by decide) hx hR1, fun _ => import_name hx hR1 hsk1 hb1 hm (hn x rfl)⟩

/-! ## Nodes are not clauses -/

theorem name_rejects_wrapped {k : List Char} (hk : k = "signature".toList ∨ k = "meta".toList)
    {ins outs : List (List Char)} {sig : Option Term} {metas : List Term} {regions : List Region}
    {x R1 b1 R : List Char} (hx : SymbolText x) (hR1 : Ends R1) (hsk1 : skip R1 = b1 ++ ')' :: R)
    (hb1 : RendersAll (tailDocs ins outs sig metas (printRegions regions)) b1)
    (hbl : tailDocs ins outs sig metas (printRegions regions) ≠ [] → Blank R1)
    (hcust : ins = [] → outs = [] → sig = none → regions = [] →
      ¬ ImportLike x ∧ (metas = [] → ¬ ClauseLike x)) :
    wrapped k ('(' :: (x ++ R1)) = none := by
  have hst := tail_starts (ins := ins) (outs := outs) (sig := sig) (metas := metas) (regions_paren regions)
  simp only [wrapped, lit_open, skip_word (name_starts hx.1)]
  cases hl : lit k (x ++ R1) with
  | none => rfl
  | some r' =>
    have hkn : ∀ c ∈ k, isName c = true := by
      rcases hk with rfl | rfl <;> decide
    obtain ⟨y, rfl, rfl⟩ := blank_name_lit hkn hR1 hl
    cases y with
    | nil =>
      refine absurd ?_ hx.2
      rw [List.append_nil]
      rcases hk with rfl | rfl <;> decide
    | cons d y =>
      have hd : isName d = true := hx.1.name d (by simp)
      simp only [List.cons_append, skip_name hd]
      cases hp : parseTermTree (d :: (y ++ R1)) with
      | none => rfl
      | some q =>
        obtain ⟨tr, r⟩ := q
        simp only []
        by_cases htail : tailDocs ins outs sig metas (printRegions regions) = []
        · exfalso
          rcases after_op (R := R) hb1 with ⟨_, rfl, rfl, rfl, rfl, rfl⟩ | ⟨k', r', _, e', _⟩ | ⟨s1, R1', b1', _, e', hr1', _⟩
          · have hcl := (hcust rfl rfl rfl rfl).2 rfl
            by_cases hrest : isRest d = true
            · refine hcl ⟨d, y, ?_, hrest⟩
              rcases hk with rfl | rfl
              · exact Or.inl rfl
              · exact Or.inr rfl
            · have hdot : d = '.' := by
                simpa [isName, hrest] using hd
              subst hdot
              rw [parseTermTree, term_close (Or.inr (Or.inr rfl))] at hp
              cases hp
          · rw [htail] at hb1
            rw [rendersAll_nil hb1, List.nil_append] at e'
            exact absurd (List.cons.inj e').1 (by decide)
          · rw [htail] at hb1
            obtain ⟨b', _, e2, _⟩ := renders_bracket (R := R1') hr1'
            rw [rendersAll_nil hb1, List.nil_append, e2] at e'
            exact absurd (List.cons.inj e').1 (by decide)
        · have hstW : Starts (skip R1) := by
            rw [hsk1]
            obtain ⟨d', ds, hds⟩ := List.exists_cons_of_ne_nil htail
            rw [hds] at hb1
            exact (rendersAll_starts hb1 (hst d' (by rw [hds]; simp))).append _
          have := mid_not_closed (hbl htail) hstW (fun c hc => hx.1.name c (List.mem_append_right _ hc)) hp
          rw [this]

/-- A node is not read as a signature or as metadata. -/
theorem node_rejects_wrapped {k : List Char} (hk : k = "signature".toList ∨ k = "meta".toList)
    {n : Node} (hn : n.Ok) : Rejects (wrapped k) (printNode n) := by
  match n with
  | .mk op ins outs sig metas regions =>
    rw [Node.Ok] at hn
    obtain ⟨hop, hi, ho, hs, hm, _, _, _, hcust⟩ := hn
    intro s R hsr _
    obtain ⟨b, hb, e0, _⟩ := node_docs (R := R) hsr
    rw [e0]
    have hst := tail_starts (ins := ins) (outs := outs) (sig := sig) (metas := metas) (regions_paren regions)
    have hword : ∀ (w : List Char) (ds : List Doc), printOp op = .text w :: ds → Starts w →
        (∀ r, lit k (w ++ r) = none) → wrapped k ('(' :: (b ++ ')' :: R)) = none := by
      intro w ds hop hw hl
      rw [hop] at hb
      obtain ⟨s1, lead, s2, rfl, hr, _, _⟩ := rendersAll_cons hb
      rw [renders_text hr, List.append_assoc]
      refine wrapped_other ?_
      rw [skip_word hw]
      exact hl _
    have hlit : ∀ w ∈ nodeWords, ∀ r, lit k (w ++ r) = none := by
      intro w hw r
      have h : k.isPrefixOf w = false ∧ w.isPrefixOf k = false := by
        rcases hk with rfl | rfl
        · exact (show ∀ w ∈ nodeWords, ("signature".toList).isPrefixOf w = false ∧
            w.isPrefixOf "signature".toList = false by decide) w hw
        · exact (show ∀ w ∈ nodeWords, ("meta".toList).isPrefixOf w = false ∧
            w.isPrefixOf "meta".toList = false by decide) w hw
      exact lit_clash h.1 h.2
    have hw2 : ∀ w ∈ nodeWords, ∀ ds, printOp op = .text w :: ds →
        wrapped k ('(' :: (b ++ ')' :: R)) = none :=
      fun w hw ds h => hword w ds h (nodeWords_starts hw) (hlit w hw)
    cases op with
    | custom t =>
      simp only [Operation.Ok] at hop
      obtain ⟨s1, R1, b1, e1, hr1, hR1, hsk1, hb1, _, hbl, _⟩ := at_cons (d := printTerm t)
        (by simpa [printOp] using hb) hst (stop_close R)
      rw [e1]
      have hstart := term_starts hop s1 hr1
      obtain ⟨c, r, rfl, _, halpha, _⟩ := term_head hop hr1
      cases hc : isAlpha c with
      | false =>
        refine wrapped_other ?_
        rw [skip_starts (hstart.append R1)]
        have : ∀ d k', isAlpha d = true → lit (d :: k') (c :: (r ++ R1)) = none := by
          intro d k' hd
          refine lit_cons_ne k' _ ?_
          rintro rfl
          rw [hc] at hd; cases hd
        rcases hk with rfl | rfl
        · exact this _ _ (by decide)
        · exact this _ _ (by decide)
      | true =>
        obtain ⟨x, rfl⟩ := halpha hc
        have hx : SymbolText x := by
          simp only [Term.Ok] at hop
          exact hop.1
        have e : c :: r = x := by
          simp only [printTerm] at hr1
          exact renders_text hr1
        rw [e]
        exact name_rejects_wrapped hk hx hR1 hsk1 hb1 hbl (hcust x rfl)
    | dfg => exact hw2 _ (by simp [nodeWords]) _ rfl
    | cfg => exact hw2 _ (by simp [nodeWords]) _ rfl
    | block => exact hw2 _ (by simp [nodeWords]) _ rfl
    | tailLoop => exact hw2 _ (by simp [nodeWords]) _ rfl
    | conditional => exact hw2 _ (by simp [nodeWords]) _ rfl
    | defineFunc s => exact hw2 _ (by simp [nodeWords]) _ rfl
    | declareFunc s => exact hw2 _ (by simp [nodeWords]) _ rfl
    | defineAlias s t => exact hw2 _ (by simp [nodeWords]) _ rfl
    | declareAlias s => exact hw2 _ (by simp [nodeWords]) _ rfl
    | declareConstructor s => exact hw2 _ (by simp [nodeWords]) _ rfl
    | declareOperation s => exact hw2 _ (by simp [nodeWords]) _ rfl
    | «import» x => exact hw2 _ (by simp [nodeWords]) _ rfl

theorem nodesOk_mem {ns : List Node} (h : nodesOk ns) : ∀ n ∈ ns, n.Ok := by
  induction ns with
  | nil => simp
  | cons n ns ih =>
    rw [nodesOk] at h
    intro m hm
    rcases List.mem_cons.mp hm with rfl | hm
    · exact h.1
    · exact ih h.2 m hm

theorem regionsOk_mem {rs : List Region} (h : regionsOk rs) : ∀ r ∈ rs, r.Ok := by
  induction rs with
  | nil => simp
  | cons n ns ih =>
    rw [regionsOk] at h
    intro m hm
    rcases List.mem_cons.mp hm with rfl | hm
    · exact h.1
    · exact ih h.2 m hm

theorem nodes_reject_wrapped {k : List Char} (hk : k = "signature".toList ∨ k = "meta".toList)
    {ns : List Node} (h : nodesOk ns) : ∀ e ∈ printNodes ns, Rejects (wrapped k) e := by
  intro e he
  obtain ⟨n, hn, rfl⟩ := nodes_mem he
  exact node_rejects_wrapped hk (nodesOk_mem h n hn)

/-! ## Nodes and regions -/

theorem buildRegions_good {xs : List RegionTree} {ys : List Region}
    (h : AllGood (fun y x => buildRegion x = .ok y) xs ys) : buildRegions xs = .ok ys := by
  induction h with
  | nil => rw [buildRegions]
  | cons h _ ih => rw [buildRegions]; simp only [h, ih, Res.bind]

theorem buildNodes_good {xs : List NodeTree} {ys : List Node}
    (h : AllGood (fun y x => buildNode x = .ok y) xs ys) : buildNodes xs = .ok ys := by
  induction h with
  | nil => rw [buildNodes]
  | cons h _ ih => rw [buildNodes]; simp only [h, ih, Res.bind]

theorem metasEnd_text {metas : List Term} (hm : ∀ t ∈ metas, t.Ok) {b R : List Char}
    (hb : RendersAll (metas.map (printWrapped "meta".toList)) b) :
    ∃ ms, metasEnd (b ++ ')' :: R) = some (ms, R) ∧ buildAll buildTerm ms = .ok (metas.map Term.flat) := by
  have hb' : RendersAll (metas.map (printWrapped "meta".toList) ++ []) b := by simpa using hb
  obtain ⟨ms, R1, b1, h1, hg, hsk, hb1, _⟩ := many_docs (es := []) (wrapped_needs "meta".toList)
    (stop_close R) (by simp) (by simp) (metas_accepts (word_starts (by simp)) b.length hm) hb' (Nat.le_refl _)
  rw [rendersAll_nil hb1, List.nil_append] at hsk
  refine ⟨ms, ?_, buildAll_good hg⟩
  simp only [metasEnd, h1, hsk, lit_close]

/-- Regions, one by one. -/
theorem regions_accept {f : Nat} {rs : List Region}
    (h : ∀ r ∈ rs, Accepts (region f) (fun x => buildRegion x = .ok r.flat) f (printRegion r)) :
    AllAccepts (region f) (fun r x => buildRegion x = .ok r) f (printRegions rs) (flatRegions rs) := by
  induction rs with
  | nil => rw [printRegions, flatRegions]; exact .nil
  | cons r rs ih =>
    rw [printRegions, flatRegions]
    exact .cons (h r (by simp)) (region_paren r).starts (ih fun q hq => h q (by simp [hq]))

theorem nodes_accept {f : Nat} {ns : List Node}
    (h : ∀ n ∈ ns, Accepts (node f) (fun x => buildNode x = .ok n.flat) f (printNode n)) :
    AllAccepts (node f) (fun n x => buildNode x = .ok n) f (printNodes ns) (flatNodes ns) := by
  induction ns with
  | nil => rw [printNodes, flatNodes]; exact .nil
  | cons r rs ih =>
    rw [printNodes, flatNodes]
    exact .cons (h r (by simp)) (node_paren r).starts (ih fun q hq => h q (by simp [hq]))

theorem region_accepts {f : Nat}
    (ih : ∀ n : Node, n.Ok → Accepts (node f) (fun x => buildNode x = .ok n.flat) f (printNode n))
    {r : Region} (hr : r.Ok) :
    Accepts (region (f + 1)) (fun x => buildRegion x = .ok r.flat) (f + 1) (printRegion r) := by
  match r with
  | .mk kind ins outs sig metas children =>
    rw [Region.Ok] at hr
    obtain ⟨hi, ho, hs, hm, hc⟩ := hr
    intro s R hsr hlen hR
    obtain ⟨b, hb, e0, hl⟩ := region_docs (R := R) hsr
    have hst := tail_starts (ins := ins) (outs := outs) (sig := sig) (metas := metas) (nodes_paren children)
    obtain ⟨s1, R1, b1, e1, hr1, hR1, hsk1, hb1, hl1, _⟩ := at_cons hb hst (stop_close R)
    rw [renders_text hr1] at e1 hl1
    obtain ⟨p, o, ms, xs, ht, hp, ho', hms, hg⟩ := tail_text (w := R) hi ho hs hm (node_needs f)
      (nodes_accept fun n hn => ih n (nodesOk_mem hc n hn)) (nodes_paren children)
      (nodes_reject_wrapped (Or.inl rfl) hc) (nodes_reject_wrapped (Or.inr rfl) hc) hb1 (by omega)
    refine ⟨.mk kind p o ms xs, ?_, ?_⟩
    · show buildRegion (.mk kind p o ms xs) = _
      rw [buildRegion, Region.flat]
      simp only [ho', hms, buildNodes_good hg, hp, Res.bind]
    · rw [e0, region, e1]
      have hkind : regionKind (kindText kind ++ R1) = some (kind, R1) := by
        cases kind <;> rfl
      simp only [lit_open, skip_word (kind_starts kind), hkind, hsk1, ht]

section
variable {f : Nat} {ins outs : List (List Char)} {sig : Option Term} {metas : List Term}
  {regions : List Region} {b R : List Char}

/-- Nodes that start with a keyword. -/
theorem nodeKeyword_text
    (ih : ∀ r : Region, r.Ok → Accepts (region f) (fun x => buildRegion x = .ok r.flat) f (printRegion r))
    (hi : ∀ x ∈ ins, LinkText x) (ho : ∀ x ∈ outs, LinkText x) (hs : ∀ t, sig = some t → t.Ok)
    (hm : ∀ t ∈ metas, t.Ok) (hc : regionsOk regions) {k : List Char} (hk : k ∈ nodeWords)
    (op : OpTree) {o : Operation} (hop : buildOp op = .ok o)
    (hb : RendersAll (.text k :: tailDocs ins outs sig metas (printRegions regions)) b)
    (hl : b.length ≤ f) :
    ∃ x, nodeKeyword (region f) k op ('(' :: (b ++ ')' :: R)) = some (x, R) ∧
      buildNode x = .ok (.mk o ins outs (sig.map Term.flat) (metas.map Term.flat) (flatRegions regions)) ∧
      ∃ R1, b ++ ')' :: R = k ++ R1 := by
  have hst := tail_starts (ins := ins) (outs := outs) (sig := sig) (metas := metas) (regions_paren regions)
  obtain ⟨s1, R1, b1, e1, hr1, hR1, hsk1, hb1, hl1, _⟩ := at_cons hb hst (stop_close R)
  rw [renders_text hr1] at e1 hl1
  obtain ⟨p, o', ms, xs, ht, hp, ho', hms, hg⟩ := tail_text (w := R) hi ho hs hm (region_needs f)
    (regions_accept fun n hn => ih n (regionsOk_mem hc n hn)) (regions_paren regions)
    (regions_reject_signature regions) (regions_reject_meta regions) hb1 (by omega)
  refine ⟨.mk op p o' ms xs, ?_, ?_, R1, e1⟩
  · rw [e1]
    simp only [nodeKeyword, lit_open, skip_word (nodeWords_starts hk), lit_append, hsk1, ht]
  · rw [buildNode]
    simp only [hop, ho', hms, buildRegions_good hg, hp, Res.bind]

/-- Custom nodes. -/
theorem nodeCustom_text
    (ih : ∀ r : Region, r.Ok → Accepts (region f) (fun x => buildRegion x = .ok r.flat) f (printRegion r))
    (hi : ∀ x ∈ ins, LinkText x) (ho : ∀ x ∈ outs, LinkText x) (hs : ∀ t, sig = some t → t.Ok)
    (hm : ∀ t ∈ metas, t.Ok) (hc : regionsOk regions) {t : Term} (htok : t.Ok)
    (hn : ∀ x, t = .apply x .nil → ins = [] → outs = [] → sig = none → regions = [] → ¬ ImportLike x)
    (hb : RendersAll (printTerm t :: tailDocs ins outs sig metas (printRegions regions)) b)
    (hl : b.length ≤ f) :
    ∃ x, node (f + 1) ('(' :: (b ++ ')' :: R)) = some (x, R) ∧
      buildNode x = .ok (.mk (.custom t.flat) ins outs (sig.map Term.flat) (metas.map Term.flat)
        (flatRegions regions)) := by
  have hst := tail_starts (ins := ins) (outs := outs) (sig := sig) (metas := metas) (regions_paren regions)
  obtain ⟨s1, R1, b1, e1, hr1, hR1, hsk1, hb1, hl1, _⟩ := at_cons hb hst (stop_close R)
  obtain ⟨p, o', ms, xs, ht, hp, ho', hms, hg⟩ := tail_text (w := R) hi ho hs hm (region_needs f)
    (regions_accept fun n hn => ih n (regionsOk_mem hc n hn)) (regions_paren regions)
    (regions_reject_signature regions) (regions_reject_meta regions) hb1 (by omega)
  obtain ⟨tr, hbt, hpt⟩ := term_accepts htok s1.length s1 R1 hr1 (Nat.le_refl _) hR1
  refine ⟨.mk (.custom tr) p o' ms xs, ?_, ?_⟩
  · rw [e1, node_custom (unread_custom htok hr1 hR1 hsk1 hb1 hm hn f)]
    simp only [nodeCustom, lit_open, skip_starts ((term_starts htok s1 hr1).append R1), hpt, hsk1, ht]
  · rw [buildNode]
    simp only [buildOp, hbt, ho', hms, buildRegions_good hg, hp, Res.bind]

theorem symbol_starts {s : Symbol} (hs : s.Ok) : ∀ e ∈ printSymbol s, DocStarts e := by
  intro e he
  unfold printSymbol at he
  rcases List.mem_append.mp he with he | he
  · cases hv : s.visibility with
    | none => rw [hv] at he; simp at he
    | some v =>
      rw [hv] at he
      cases v with
      | pub => rw [List.mem_singleton.mp he]; exact text_starts (starts_lit (by decide))
      | priv => rw [List.mem_singleton.mp he]; exact text_starts (starts_lit (by decide))
  · rcases List.mem_cons.mp he with rfl | he
    · exact text_starts (name_starts hs.name.1)
    · rcases List.mem_append.mp he with he | he
      · exact (params_accepts 0 hs.params).starts e he
      · rcases List.mem_append.mp he with he | he
        · exact (metas_paren _ e he).starts
        · rw [List.mem_singleton.mp he]; exact term_starts hs.signature

/-- The start of nodes that introduce symbols. -/
theorem nodeSymbol_text {k : List Char} (hk : k ∈ nodeWords) {s : Symbol} (hs : s.Ok) {es : List Doc}
    (hst : ∀ e ∈ es, DocStarts e) (hb : RendersAll (.text k :: (printSymbol s ++ es)) b) :
    ∃ st R' b', nodeSymbol k ('(' :: (b ++ ')' :: R)) = some (st, R') ∧ buildSymbol st = .ok s.flat ∧
      skip R' = b' ++ ')' :: R ∧ RendersAll es b' ∧ b'.length ≤ b.length ∧
      ∃ R1, b ++ ')' :: R = k ++ R1 := by
  obtain ⟨s1, R1, b1, e1, hr1, hR1, hsk1, hb1, hl1, _⟩ := at_cons hb (by
    intro e he
    rcases List.mem_append.mp he with he | he
    · exact symbol_starts hs e he
    · exact hst e he) (stop_close R)
  rw [renders_text hr1] at e1 hl1
  obtain ⟨st, R', b', h, hbs, hsk, hb', hl', _⟩ := symbol_text hs hst (stop_close R) hb1
  refine ⟨st, R', b', ?_, hbs, hsk, hb', by omega, R1, e1⟩
  rw [e1]
  simp only [nodeSymbol, lit_open, skip_word (nodeWords_starts hk), lit_append, hsk1, h]

theorem nodeDeclare_text (hm : ∀ t ∈ metas, t.Ok) {k : List Char} (hk : k ∈ nodeWords) {s : Symbol}
    (hs : s.Ok) {op : SymbolTree → OpTree} {o : Symbol → Operation}
    (hop : ∀ st x, buildSymbol st = .ok x → buildOp (op st) = .ok (o x))
    (hb : RendersAll (.text k :: (printSymbol s ++ metas.map (printWrapped "meta".toList))) b) :
    ∃ x, nodeDeclare k op ('(' :: (b ++ ')' :: R)) = some (x, R) ∧
      buildNode x = .ok (.mk (o s.flat) [] [] none (metas.map Term.flat) []) ∧
      ∃ R1, b ++ ')' :: R = k ++ R1 := by
  obtain ⟨st, R', b', h, hbs, hsk, hb', _, he⟩ := nodeSymbol_text (R := R) hk hs
    (fun e he => (metas_paren metas e he).starts) hb
  obtain ⟨ms, hme, hms⟩ := metasEnd_text (R := R) hm hb'
  refine ⟨.mk (op st) none none ms [], ?_, ?_, he⟩
  · simp only [nodeDeclare, h, hsk, hme]
  · rw [buildNode, buildRegions]
    simp only [hop st _ hbs, buildOption, hms, portsOf, Res.bind]

end

theorem node_accepts {f : Nat}
    (ih : ∀ r : Region, r.Ok → Accepts (region f) (fun x => buildRegion x = .ok r.flat) f (printRegion r))
    {n : Node} (hn : n.Ok) :
    Accepts (node (f + 1)) (fun x => buildNode x = .ok n.flat) (f + 1) (printNode n) := by
  match n with
  | .mk op ins outs sig metas regions =>
    rw [Node.Ok] at hn
    obtain ⟨hop, hi, ho, hs, hm, hc, hports, hregs, hcust⟩ := hn
    intro s R hsr hlen hR
    obtain ⟨b, hb, e0, hl⟩ := node_docs (R := R) hsr
    cases op with
    | dfg =>
      obtain ⟨x, hx, hbx, R1, e1⟩ := nodeKeyword_text (R := R) ih hi ho hs hm hc (k := "dfg".toList)
        (by decide) .dfg (o := .dfg) rfl hb (by omega)
      refine ⟨x, hbx.trans (by rw [Node.flat]; rfl), ?_⟩
      have hu := unread_word (k := "dfg".toList) (by decide) f R1
      rw [← e1] at hu
      rw [e0, node]
      simp only [hx, alt_none, alt_some]
    | cfg =>
      obtain ⟨x, hx, hbx, R1, e1⟩ := nodeKeyword_text (R := R) ih hi ho hs hm hc (k := "cfg".toList)
        (by decide) .cfg (o := .cfg) rfl hb (by omega)
      refine ⟨x, hbx.trans (by rw [Node.flat]; rfl), ?_⟩
      have hu := unread_word (k := "cfg".toList) (by decide) f R1
      rw [← e1] at hu
      rw [e0, node]
      simp only [hu.dfg (by decide), hx, alt_none, alt_some]
    | block =>
      obtain ⟨x, hx, hbx, R1, e1⟩ := nodeKeyword_text (R := R) ih hi ho hs hm hc (k := "block".toList)
        (by decide) .block (o := .block) rfl hb (by omega)
      refine ⟨x, hbx.trans (by rw [Node.flat]; rfl), ?_⟩
      have hu := unread_word (k := "block".toList) (by decide) f R1
      rw [← e1] at hu
      rw [e0, node]
      simp only [hu.dfg (by decide), hu.cfg (by decide), hx, alt_none, alt_some]
    | tailLoop =>
      obtain ⟨x, hx, hbx, R1, e1⟩ := nodeKeyword_text (R := R) ih hi ho hs hm hc (k := "tail-loop".toList)
        (by decide) .tailLoop (o := .tailLoop) rfl hb (by omega)
      refine ⟨x, hbx.trans (by rw [Node.flat]; rfl), ?_⟩
      have hu := unread_word (k := "tail-loop".toList) (by decide) f R1
      rw [← e1] at hu
      rw [e0, node]
      simp only [hu.dfg (by decide), hu.cfg (by decide), hu.block (by decide), hu.defineFunc (by decide), hu.declareFunc (by decide), hu.defineAlias (by decide), hu.declareAlias (by decide), hu.declareConstructor (by decide), hu.declareOperation (by decide), hx, alt_none, alt_some]
    | conditional =>
      obtain ⟨x, hx, hbx, R1, e1⟩ := nodeKeyword_text (R := R) ih hi ho hs hm hc (k := "cond".toList)
        (by decide) .conditional (o := .conditional) rfl hb (by omega)
      refine ⟨x, hbx.trans (by rw [Node.flat]; rfl), ?_⟩
      have hu := unread_word (k := "cond".toList) (by decide) f R1
      rw [← e1] at hu
      rw [e0, node]
      simp only [hu.dfg (by decide), hu.cfg (by decide), hu.block (by decide), hu.defineFunc (by decide), hu.declareFunc (by decide), hu.defineAlias (by decide), hu.declareAlias (by decide), hu.declareConstructor (by decide), hu.declareOperation (by decide), hu.tailLoop (by decide), hx, alt_none, alt_some]
    | declareFunc sy =>
      obtain ⟨rfl, rfl, rfl⟩ := hports.resolve_left (by simp [Operation.HasPorts])
      obtain rfl := hregs.resolve_left (by simp [Operation.HasRegions])
      obtain ⟨x, hx, hbx, R1, e1⟩ := nodeDeclare_text (R := R) (op := .declareFunc) (o := .declareFunc) hm
        (k := "declare-func".toList) (by decide) hop
        (fun st x h => by simp only [buildOp, h, Res.bind])
        (by simpa [printOp, tailDocs, portDocs, printOption, printRegions] using hb)
      refine ⟨x, hbx.trans (by rw [Node.flat, flatRegions]; rfl), ?_⟩
      have hu := unread_word (k := "declare-func".toList) (by decide) f R1
      rw [← e1] at hu
      rw [e0, node]
      simp only [hu.dfg (by decide), hu.cfg (by decide), hu.block (by decide), hu.defineFunc (by decide), hx, alt_none, alt_some]
    | declareAlias sy =>
      obtain ⟨rfl, rfl, rfl⟩ := hports.resolve_left (by simp [Operation.HasPorts])
      obtain rfl := hregs.resolve_left (by simp [Operation.HasRegions])
      obtain ⟨x, hx, hbx, R1, e1⟩ := nodeDeclare_text (R := R) (op := .declareAlias) (o := .declareAlias) hm
        (k := "declare-alias".toList) (by decide) hop
        (fun st x h => by simp only [buildOp, h, Res.bind])
        (by simpa [printOp, tailDocs, portDocs, printOption, printRegions] using hb)
      refine ⟨x, hbx.trans (by rw [Node.flat, flatRegions]; rfl), ?_⟩
      have hu := unread_word (k := "declare-alias".toList) (by decide) f R1
      rw [← e1] at hu
      rw [e0, node]
      simp only [hu.dfg (by decide), hu.cfg (by decide), hu.block (by decide), hu.defineFunc (by decide), hu.declareFunc (by decide), hu.defineAlias (by decide), hx, alt_none, alt_some]
    | declareConstructor sy =>
      obtain ⟨rfl, rfl, rfl⟩ := hports.resolve_left (by simp [Operation.HasPorts])
      obtain rfl := hregs.resolve_left (by simp [Operation.HasRegions])
      obtain ⟨x, hx, hbx, R1, e1⟩ := nodeDeclare_text (R := R) (op := .declareConstructor) (o := .declareConstructor) hm
        (k := "declare-ctr".toList) (by decide) hop
        (fun st x h => by simp only [buildOp, h, Res.bind])
        (by simpa [printOp, tailDocs, portDocs, printOption, printRegions] using hb)
      refine ⟨x, hbx.trans (by rw [Node.flat, flatRegions]; rfl), ?_⟩
      have hu := unread_word (k := "declare-ctr".toList) (by decide) f R1
      rw [← e1] at hu
      rw [e0, node]
      simp only [hu.dfg (by decide), hu.cfg (by decide), hu.block (by decide), hu.defineFunc (by decide), hu.declareFunc (by decide), hu.defineAlias (by decide), hu.declareAlias (by decide), hx, alt_none, alt_some]
    | declareOperation sy =>
      obtain ⟨rfl, rfl, rfl⟩ := hports.resolve_left (by simp [Operation.HasPorts])
      obtain rfl := hregs.resolve_left (by simp [Operation.HasRegions])
      obtain ⟨x, hx, hbx, R1, e1⟩ := nodeDeclare_text (R := R) (op := .declareOperation) (o := .declareOperation) hm
        (k := "declare-operation".toList) (by decide) hop
        (fun st x h => by simp only [buildOp, h, Res.bind])
        (by simpa [printOp, tailDocs, portDocs, printOption, printRegions] using hb)
      refine ⟨x, hbx.trans (by rw [Node.flat, flatRegions]; rfl), ?_⟩
      have hu := unread_word (k := "declare-operation".toList) (by decide) f R1
      rw [← e1] at hu
      rw [e0, node]
      simp only [hu.dfg (by decide), hu.cfg (by decide), hu.block (by decide), hu.defineFunc (by decide), hu.declareFunc (by decide), hu.defineAlias (by decide), hu.declareAlias (by decide), hu.declareConstructor (by decide), hx, alt_none, alt_some]
    | custom t =>
      obtain ⟨x, hx, hbx⟩ := nodeCustom_text (R := R) ih hi ho hs hm hc hop
        (fun x e h1 h2 h3 h4 => (hcust x (by rw [e]) h1 h2 h3 h4).1) hb (by omega)
      refine ⟨x, hbx.trans (by rw [Node.flat]; rfl), ?_⟩
      rw [e0, hx]
    | «import» y =>
      obtain ⟨rfl, rfl, rfl⟩ := hports.resolve_left (by simp [Operation.HasPorts])
      obtain rfl := hregs.resolve_left (by simp [Operation.HasRegions])
      have hop : SymbolText y := hop
      have hmst : ∀ e ∈ metas.map (printWrapped "meta".toList), DocStarts e :=
        fun e he => (metas_paren metas e he).starts
      obtain ⟨s1, R1, b1, e1, hr1, hR1, hsk1, hb1, hl1, _⟩ := at_cons (d := .text "import".toList)
        (ds := .text y :: metas.map (printWrapped "meta".toList))
        (by simpa [printOp, tailDocs, portDocs, printOption, printRegions] using hb) (by
          intro e he
          rcases List.mem_cons.mp he with rfl | he
          · exact text_starts (name_starts hop.1)
          · exact hmst e he) (stop_close R)
      rw [renders_text hr1] at e1
      obtain ⟨s2, R2, b2, e2, hr2, hR2, hsk2, hb2, _⟩ := at_cons hb1 hmst (stop_close R)
      rw [renders_text hr2] at e2
      obtain ⟨ms, hme, hms⟩ := metasEnd_text (R := R) hm hb2
      refine ⟨.mk (.import y) none none ms [], ?_, ?_⟩
      · show buildNode _ = _
        rw [buildNode, buildRegions, Node.flat, flatRegions]
        simp only [buildOp, buildOption, hms, portsOf, Res.bind]
        rfl
      · have hu := unread_word (k := "import".toList) (by decide) f R1
        rw [← e1] at hu
        have hx : nodeImport ('(' :: (b ++ ')' :: R)) = some (.mk (.import y) none none ms [], R) := by
          rw [e1]
          simp only [nodeImport, lit_open, skip_word (nodeWords_starts (k := "import".toList) (by decide)),
            lit_append, hsk1, e2, symbolName_text hop hR2.name, hsk2, hme]
        rw [e0, node]
        simp only [hu.dfg (by decide), hu.cfg (by decide), hu.block (by decide), hu.defineFunc (by decide), hu.declareFunc (by decide), hu.defineAlias (by decide), hu.declareAlias (by decide), hu.declareConstructor (by decide), hu.declareOperation (by decide), hu.tailLoop (by decide), hu.conditional (by decide), hx, alt_none, alt_some]
    | defineAlias sy t =>
      obtain ⟨rfl, rfl, rfl⟩ := hports.resolve_left (by simp [Operation.HasPorts])
      obtain rfl := hregs.resolve_left (by simp [Operation.HasRegions])
      obtain ⟨hsy, ht⟩ : sy.Ok ∧ t.Ok := hop
      have hmst : ∀ e ∈ metas.map (printWrapped "meta".toList), DocStarts e :=
        fun e he => (metas_paren metas e he).starts
      obtain ⟨st, R', b', h, hbs, hsk, hb', _, R1, e1⟩ := nodeSymbol_text (R := R)
        (k := "define-alias".toList) (by decide) hsy
        (es := printTerm t :: metas.map (printWrapped "meta".toList)) (by
          intro e he
          rcases List.mem_cons.mp he with rfl | he
          · exact term_starts ht
          · exact hmst e he)
        (by simpa [printOp, tailDocs, portDocs, printOption, printRegions] using hb)
      obtain ⟨s2, R2, b2, e2, hr2, hR2, hsk2, hb2, _⟩ := at_cons hb' hmst (stop_close R)
      obtain ⟨tr, hbt, hpt⟩ := term_accepts ht s2.length s2 R2 hr2 (Nat.le_refl _) hR2
      obtain ⟨ms, hme, hms⟩ := metasEnd_text (R := R) hm hb2
      refine ⟨.mk (.defineAlias st tr) none none ms [], ?_, ?_⟩
      · show buildNode _ = _
        rw [buildNode, buildRegions, Node.flat, flatRegions]
        simp only [buildOp, hbs, hbt, buildOption, hms, portsOf, Res.bind]
        rfl
      · have hu := unread_word (k := "define-alias".toList) (by decide) f R1
        rw [← e1] at hu
        have hx : nodeDefineAlias ('(' :: (b ++ ')' :: R)) =
            some (.mk (.defineAlias st tr) none none ms [], R) := by
          simp only [nodeDefineAlias, h, hsk, e2, hpt, hsk2, hme]
        rw [e0, node]
        simp only [hu.dfg (by decide), hu.cfg (by decide), hu.block (by decide), hu.defineFunc (by decide), hu.declareFunc (by decide), hx, alt_none, alt_some]
    | defineFunc sy =>
      obtain ⟨rfl, rfl, rfl⟩ := hports.resolve_left (by simp [Operation.HasPorts])
      have hsy : sy.Ok := hop
      obtain ⟨st, R', b', h, hbs, hsk, hb', hlb, R1, e1⟩ := nodeSymbol_text (R := R)
        (k := "define-func".toList) (by decide) hsy
        (es := metas.map (printWrapped "meta".toList) ++ printRegions regions) (by
          intro e he
          rcases List.mem_append.mp he with he | he
          · exact (metas_paren metas e he).starts
          · exact (regions_paren regions e he).starts)
        (by simpa [printOp, tailDocs, portDocs, printOption] using hb)
      obtain ⟨ms, R3, b3, h3, hg3, hsk3, hb3, hl3⟩ := many_docs (wrapped_needs "meta".toList)
        (stop_close R) (fun e es' h => regions_reject_meta regions e (by rw [h]; simp))
        (fun e he => (regions_paren regions e he).starts)
        (metas_accepts (word_starts (by simp)) b'.length hm) hb' (Nat.le_refl _)
      have hb3' : RendersAll (printRegions regions ++ []) b3 := by simpa using hb3
      obtain ⟨xs, R4, b4, h4, hg4, hsk4, hb4, _⟩ := many_docs (es := []) (region_needs f) (stop_close R)
        (by simp) (by simp) (regions_accept fun n hn => ih n (regionsOk_mem hc n hn)) hb3' (by omega)
      rw [rendersAll_nil hb4, List.nil_append] at hsk4
      refine ⟨.mk (.defineFunc st) none none ms xs, ?_, ?_⟩
      · show buildNode _ = _
        rw [buildNode, Node.flat]
        simp only [buildOp, hbs, buildOption, buildAll_good hg3, buildRegions_good hg4, portsOf, Res.bind]
        rfl
      · have hu := unread_word (k := "define-func".toList) (by decide) f R1
        rw [← e1] at hu
        have hx : nodeDefineFunc (region f) ('(' :: (b ++ ')' :: R)) =
            some (.mk (.defineFunc st) none none ms xs, R) := by
          simp only [nodeDefineFunc, h, hsk, h3, hsk3, h4, hsk4, lit_close]
        rw [e0, node]
        simp only [hu.dfg (by decide), hu.cfg (by decide), hu.block (by decide), hx, alt_none, alt_some]

/-- Printed nodes and regions are read back. -/
theorem accepts_all (f : Nat) :
    (∀ n : Node, n.Ok → Accepts (node f) (fun x => buildNode x = .ok n.flat) f (printNode n)) ∧
    (∀ r : Region, r.Ok → Accepts (region f) (fun x => buildRegion x = .ok r.flat) f (printRegion r)) := by
  induction f with
  | zero =>
    constructor
    · intro n _ s R hs hl _
      have := (node_paren n).starts s hs
      exact absurd (List.length_eq_zero_iff.mp (Nat.le_zero.mp hl)) this.ne_nil
    · intro r _ s R hs hl _
      have := (region_paren r).starts s hs
      exact absurd (List.length_eq_zero_iff.mp (Nat.le_zero.mp hl)) this.ne_nil
  | succ f ih => exact ⟨fun n hn => node_accepts ih.2 hn, fun r hr => region_accepts ih.1 hr⟩

/-! ## Modules -/

/-- The header of a module. -/
abbrev modDoc : Doc := .group ['('] [')'] [.text "mod".toList]

theorem mod_text {s : List Char} (h : Renders modDoc s) : s = "(mod)".toList := by
  obtain ⟨b, hb, rfl⟩ := renders_group h
  obtain ⟨s1, lead, s2, rfl, hr, hrs, hl⟩ := rendersAll_cons hb
  rcases hl with ⟨_, rfl, rfl⟩ | ⟨_, hne⟩
  · rw [renders_text hr]; rfl
  · exact absurd rfl hne

theorem mod_rejects_meta : Rejects (wrapped "meta".toList) modDoc := by
  intro s R hs _
  rw [mod_text hs]
  refine wrapped_other ?_
  rfl

theorem word_not_term {r : List Char} (hr : Ends r) : parseTermTree ("mod".toList ++ r) = none := by
  have h := symbolName_clause (k := "mod".toList) (by decide) hr
  have e : "mod".toList ++ r = 'm' :: ("od".toList ++ r) := rfl
  unfold parseTermTree
  rw [e] at h ⊢
  rw [show 4 * ('m' :: ("od".toList ++ r)).length + 4 = (4 * ('m' :: ("od".toList ++ r)).length + 2) + 2
    from rfl, term_initial (by decide) _ (termWildcard_ne (by decide) _)
    (literalFloat_ne (by decide) (by decide) (by decide) _), h]

theorem mod_rejects_node : Rejects parseNodeTree modDoc := by
  intro s R hs hR
  rw [mod_text hs]
  unfold parseNodeTree
  have hsk : skip ("mod".toList ++ (')' :: R)) = "mod".toList ++ (')' :: R) :=
    skip_word (starts_lit (by decide)) _
  have hu := unread_lit (R.length + 4) ("mod".toList ++ (')' :: R))
  rw [hsk] at hu
  have hu' : Unread (R.length + 4) (fun _ => True) ('(' :: ("mod".toList ++ (')' :: R))) :=
    ⟨fun _ => hu.dfg rfl, fun _ => hu.cfg rfl, fun _ => hu.block rfl, fun _ => hu.defineFunc rfl,
      fun _ => hu.declareFunc rfl, fun _ => hu.defineAlias rfl, fun _ => hu.declareAlias rfl,
      fun _ => hu.declareConstructor rfl, fun _ => hu.declareOperation rfl, fun _ => hu.tailLoop rfl,
      fun _ => hu.conditional rfl, fun _ => hu.imports rfl⟩
  have hl : ("(mod)".toList ++ R).length = R.length + 4 + 1 := by simp
  rw [hl, show "(mod)".toList ++ R = '(' :: ("mod".toList ++ (')' :: R)) from rfl, node_custom hu']
  have ht : parseTermTree ("mod".toList ++ (')' :: R)) = none := word_not_term (by simp [Ends])
  simp only [nodeCustom, lit_open, hsk, ht]

theorem parseNode_needs : NeedsText parseNodeTree := fun T hT => node_needs T.length T hT

theorem parseNode_accepts (N : Nat) {n : Node} (hn : n.Ok) :
    Accepts parseNodeTree (fun x => buildNode x = .ok n.flat) N (printNode n) := by
  intro s R hs _ hR
  exact (accepts_all (s ++ R).length).1 n hn s R hs (by simp) hR

theorem parseNodes_accept (N : Nat) {ns : List Node} (h : nodesOk ns) :
    AllAccepts parseNodeTree (fun n x => buildNode x = .ok n) N (printNodes ns) (flatNodes ns) := by
  induction ns with
  | nil => rw [printNodes, flatNodes]; exact .nil
  | cons n ns ih =>
    rw [nodesOk] at h
    rw [printNodes, flatNodes]
    exact .cons (parseNode_accepts N h.1) (node_paren n).starts (ih h.2)

/-- The documents of modules. -/
def moduleDocs (ms : List Module) : List Doc := ms.flatMap fun m => modDoc :: printModule m

theorem moduleDocs_paren (ms : List Module) : ∀ e ∈ moduleDocs ms, IsParen e := by
  intro e he
  obtain ⟨m, _, he⟩ := List.mem_flatMap.mp he
  rcases List.mem_cons.mp he with rfl | he
  · exact ⟨_, rfl⟩
  · rcases List.mem_append.mp he with he | he
    · exact metas_paren _ e he
    · exact nodes_paren _ e he

theorem moduleDocs_head {ms : List Module} {e : Doc} {es : List Doc} (h : moduleDocs ms = e :: es) :
    e = modDoc := by
  cases ms with
  | nil => cases h
  | cons m ms => exact (List.cons.inj h).1.symm

theorem module_text {m : Module} (hm : m.Ok) (ms : List Module) {b T : List Char} (hT : Stop T)
    (hb : RendersAll (moduleDocs (m :: ms)) b) :
    ∃ x R b', moduleRule (b ++ T) = some (x, R) ∧ buildModule x = .ok m.flat ∧ skip R = b' ++ T ∧
      RendersAll (moduleDocs ms) b' := by
  have hes := moduleDocs_paren ms
  have hmod : ∀ e ∈ printNodes m.children ++ moduleDocs ms, IsParen e := by
    intro e he
    rcases List.mem_append.mp he with he | he
    · exact nodes_paren _ e he
    · exact hes e he
  have hb' : RendersAll (modDoc :: (m.metas.map (printWrapped "meta".toList) ++
      (printNodes m.children ++ moduleDocs ms))) b := by
    simpa [moduleDocs, printModule] using hb
  obtain ⟨s1, R1, b1, e1, hr1, hR1, hsk1, hb1, _⟩ := at_cons hb' (by
    intro e he
    rcases List.mem_append.mp he with he | he
    · exact (metas_paren _ e he).starts
    · exact (hmod e he).starts) hT
  rw [mod_text hr1] at e1
  obtain ⟨mt, R2, b2, h2, hg2, hsk2, hb2, _⟩ := many_docs (wrapped_needs "meta".toList) hT (by
    intro e es' h
    cases hch : m.children with
    | nil =>
      rw [hch, printNodes, List.nil_append] at h
      rw [moduleDocs_head h]
      exact mod_rejects_meta
    | cons n ns =>
      have hn := hm.2
      rw [hch] at h hn
      rw [printNodes] at h
      rw [nodesOk] at hn
      rw [← (List.cons.inj h).1]
      exact node_rejects_wrapped (Or.inr rfl) hn.1) (fun e he => (hmod e he).starts)
    (metas_accepts (word_starts (by simp)) b1.length hm.1) hb1 (Nat.le_refl _)
  obtain ⟨nt, R3, b3, h3, hg3, hsk3, hb3, _⟩ := many_docs parseNode_needs hT (by
    intro e es' h
    rw [moduleDocs_head h]
    exact mod_rejects_node) (fun e he => (hes e he).starts)
    (parseNodes_accept b2.length hm.2) hb2 (Nat.le_refl _)
  refine ⟨⟨mt, nt⟩, R3, b3, ?_, ?_, hsk3, hb3⟩
  · have h1 : skip ("mod)".toList ++ R1) = "mod".toList ++ (')' :: R1) :=
      skip_word (k := "mod)".toList) (starts_lit (by decide)) R1
    rw [e1, show "(mod)".toList ++ R1 = '(' :: ("mod)".toList ++ R1) from rfl]
    simp only [moduleRule, lit_open, h1, lit_append, skip_close, lit_close, hsk1, h2, hsk2, h3]
  · simp only [buildModule, buildAll_good hg2, buildNodes_good hg3, Res.bind]
    rfl

theorem module_stop {T : List Char} (hT : Stop T) : moduleRule T = none := by
  rcases hT with rfl | ⟨w, rfl⟩ | ⟨w, rfl⟩
  · rfl
  · simp only [moduleRule, lit_paren_ne (c := ')') (by decide)]
  · simp only [moduleRule, lit_paren_ne (c := ']') (by decide)]

theorem moduleDocs_length (ms : List Module) : ms.length ≤ (moduleDocs ms).length := by
  induction ms with
  | nil => simp
  | cons m ms ih =>
    simp only [moduleDocs, List.flatMap_cons, List.cons_append, List.length_cons, List.length_append]
    simp only [moduleDocs] at ih
    omega

theorem more_modules {T : List Char} (hT : Stop T) {ms : List Module} (h : ∀ m ∈ ms, m.Ok) :
    ∀ (f : Nat) (s b : List Char), skip s = b ++ T → RendersAll (moduleDocs ms) b → ms.length ≤ f →
    ∃ xs R, more moduleRule f s = (xs, R) ∧ skip R = T ∧
      AllGood (fun m x => buildModule x = .ok m) xs (ms.map Module.flat) := by
  induction ms with
  | nil =>
    intro f s b hs hb _
    have := rendersAll_nil hb
    subst this
    refine ⟨[], s, ?_, hs, .nil⟩
    cases f with
    | zero => rw [more]
    | succ f => rw [more, hs, List.nil_append, module_stop hT]
  | cons m ms ih =>
    intro f s b hs hb hf
    obtain ⟨f, rfl⟩ : ∃ g, f = g + 1 := ⟨f - 1, by simp at hf; omega⟩
    obtain ⟨x, R, b', h1, hbx, hsk, hb'⟩ := module_text (h m (by simp)) ms hT hb
    obtain ⟨xs, R', h2, hsk', hg⟩ := ih (fun q hq => h q (by simp [hq])) f R b' hsk hb' (by simpa using hf)
    refine ⟨x :: xs, R', ?_, hsk', .cons hbx hg⟩
    rw [more, hs, h1]
    simp only [h2]

/-- A printed package is read back, unless something follows it. -/
theorem package_text {p : Package} (hp : p.Ok) {s T : List Char} (hT : Stop T)
    (hs : RendersAll (printPackage p) s) :
    parsePackage (s ++ T) = if T = [] then .ok p.flat else .error := by
  have hs' : RendersAll (.group ['('] [')'] [.text "hugr".toList, .text "0".toList] ::
      moduleDocs p.modules) s := hs
  have hst : ∀ e ∈ moduleDocs p.modules, DocStarts e := fun e he => (moduleDocs_paren _ e he).starts
  obtain ⟨s1, R1, b1, e1, hr1, hR1, hsk1, hb1, _⟩ := at_cons hs' hst hT
  obtain ⟨R2, b2, e2, hsk2, hR2, hsk2', hb2, _⟩ := paren_word (R := R1) (k := "hugr".toList)
    (starts_lit (by decide)) (by
      intro e he
      rw [List.mem_singleton.mp he]
      exact text_starts (starts_lit (by decide))) hr1
  obtain ⟨s3, lead, s4, rfl, hr3, hr4, hl4⟩ := rendersAll_cons hb2
  rcases hl4 with ⟨_, rfl, rfl⟩ | ⟨_, hne⟩
  case inr => exact absurd rfl hne
  have e3 := renders_text hr3
  subst e3
  have hmany : ∃ xs R, many moduleRule (b1 ++ T) = (xs, R) ∧ skip R = T ∧
      AllGood (fun m x => buildModule x = .ok m) xs (p.modules.map Module.flat) := by
    cases hms : p.modules with
    | nil =>
      rw [hms] at hb1
      have := rendersAll_nil hb1
      subst this
      exact ⟨[], T, by rw [List.nil_append, many, module_stop hT], hT.skip, .nil⟩
    | cons m ms =>
      rw [hms] at hb1
      obtain ⟨x, R, b', h1, hbx, hsk, hb'⟩ := module_text (hp m (by rw [hms]; simp)) ms hT hb1
      have hlen : ms.length ≤ R.length := by
        have h3 := moduleDocs_length ms
        have h4 := rendersAll_length hb' (fun e he => (moduleDocs_paren _ e he).starts)
        have h5 : (b' ++ T).length ≤ R.length := by rw [← hsk]; exact skip_le R
        rw [List.length_append] at h5
        omega
      obtain ⟨xs, R', h2, hsk', hg⟩ := more_modules hT (fun q hq => hp q (by rw [hms]; simp [hq]))
        R.length R b' hsk hb' hlen
      refine ⟨x :: xs, R', ?_, hsk', .cons hbx hg⟩
      rw [many, h1]
      simp only [h2]
  obtain ⟨xs, R, hm, hsk, hg⟩ := hmany
  have hrule : packageRule (s ++ T) = if T = [] then some xs else none := by
    have h0 : lit "0".toList ("0".toList ++ ([] ++ []) ++ ')' :: R1) = some (')' :: R1) := rfl
    rw [e1, e2]
    simp only [packageRule, lit_open, hsk2, lit_append, hsk2', h0, skip_close, lit_close, hsk1, hm, hsk]
    cases T <;> rfl
  rw [parsePackage, hrule]
  split
  · next h => 
    split at h
    · cases h
    · next hT => rw [if_neg hT]
  · next ms h =>
    split at h
    · next hT =>
      cases h
      rw [if_pos hT]
      simp only [buildAll_good hg, Res.bind]
      rfl
    · cases h

end Verif.Text
