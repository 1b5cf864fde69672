import Verif.Resolve.Props
/-!
# C69: what comes out of the tables can be resolved again
-/
namespace Verif.Resolve
open Verif
open Verif.Binary (NodeId LinkIndex RegionId TermId Literal)
open Verif.Scope

theorem sameParams_names : ∀ {ps ps' : List Param}, SameParams ps ps' → ps'.map Param.name = ps.map Param.name
  | [], [], _ => rfl
  | .mk x t :: ps, .mk x' t' :: ps', h => by
    simp only [SameParams, SameParam] at h
    simp [Param.name, h.1.1, sameParams_names h.2]
  | [], _ :: _, h => by simp only [SameParams] at h
  | _ :: _, [], h => by simp only [SameParams] at h

theorem sameSymbol_names {y y' : Symbol} (h : SameSymbol y y') :
    y'.name = y.name ∧ y'.params.map Param.name = y.params.map Param.name := by
  cases y
  cases y'
  simp only [SameSymbol] at h
  exact ⟨h.2.1, sameParams_names h.2.2.1⟩

theorem sameOperation_symbol {o o' : Operation} (h : SameOperation o o') : o'.symbolName = o.symbolName ∧
    o'.symbol.map (fun y => y.params.map Param.name) = o.symbol.map (fun y => y.params.map Param.name) := by
  cases o with
  | simple k => simp only [SameOperation] at h; subst h; exact ⟨rfl, rfl⟩
  | defineFunc y =>
    simp only [SameOperation] at h
    obtain ⟨y', rfl, h⟩ := h
    simp [Operation.symbolName, Operation.symbol, sameSymbol_names h]
  | declare k y =>
    simp only [SameOperation] at h
    obtain ⟨y', rfl, h⟩ := h
    simp [Operation.symbolName, Operation.symbol, sameSymbol_names h]
  | defineAlias y t =>
    simp only [SameOperation] at h
    obtain ⟨y', t', rfl, h, _⟩ := h
    simp [Operation.symbolName, Operation.symbol, sameSymbol_names h]
  | custom t =>
    simp only [SameOperation] at h
    obtain ⟨t', rfl, _⟩ := h
    exact ⟨rfl, rfl⟩
  | «import» x => simp only [SameOperation] at h; subst h; exact ⟨rfl, rfl⟩

theorem sameNodes_introduced {f : String → String} : ∀ {cs cs' : List Node}, SameNodes f cs cs' →
    introducedNames cs' = introducedNames cs
  | [], [], _ => rfl
  | c :: cs, c' :: cs', h => by
    simp only [SameNodes] at h
    have ih := sameNodes_introduced h.2
    have h1 := h.1
    cases c
    simp only [SameNode] at h1
    obtain ⟨o', rs', ms', sig', rfl, ho, _⟩ := h1
    simp only [introducedNames, List.filterMap_cons, Node.operation, (sameOperation_symbol ho).1] at ih ⊢
    rw [ih]
  | [], _ :: _, h => by simp only [SameNodes] at h
  | _ :: _, [], h => by simp only [SameNodes] at h

mutual
theorem term_same : ∀ (t t' : Term) (v : List String), SameTerm t t' → ScopedTerm v t → ScopedTerm v t'
  | .wildcard, t', v, h, hs => by simp only [SameTerm] at h; subst h; simp only [ScopedTerm]
  | .var x, t', v, h, hs => by simp only [SameTerm] at h; subst h; exact hs
  | .apply x ts, t', v, h, hs => by
    simp only [SameTerm] at h
    obtain ⟨ts', rfl, h⟩ := h
    simp only [ScopedTerm] at hs ⊢
    exact terms_same ts ts' v h hs
  | .list ts, t', v, h, hs => by
    simp only [SameTerm] at h
    obtain ⟨ts', rfl, h⟩ := h
    simp only [ScopedTerm] at hs ⊢
    exact parts_same ts ts' v h hs
  | .literal l, t', v, h, hs => by
    simp only [SameTerm] at h
    obtain ⟨l', rfl, _⟩ := h
    simp only [ScopedTerm]
  | .tuple ts, t', v, h, hs => by
    simp only [SameTerm] at h
    obtain ⟨ts', rfl, h⟩ := h
    simp only [ScopedTerm] at hs ⊢
    exact parts_same ts ts' v h hs
  | .func r, t', v, h, hs => by
    simp only [SameTerm] at h
    obtain ⟨r', rfl, h⟩ := h
    simp only [ScopedTerm] at hs ⊢
    exact region_same r r' none v h hs
termination_by structural t => t
theorem terms_same : ∀ (t t' : List Term) (v : List String), SameTerms t t' → ScopedTerms v t → ScopedTerms v t'
  | [], [], v, h, hs => hs
  | t :: ts, t' :: ts', v, h, hs => by
    simp only [SameTerms] at h
    simp only [ScopedTerms] at hs ⊢
    exact ⟨term_same t t' v h.1 hs.1, terms_same ts ts' v h.2 hs.2⟩
  | [], _ :: _, _, h, _ => by simp only [SameTerms] at h
  | _ :: _, [], _, h, _ => by simp only [SameTerms] at h
termination_by structural t => t
theorem option_same : ∀ (t t' : Option Term) (v : List String), SameOption t t' → ScopedOption v t → ScopedOption v t'
  | none, none, v, h, hs => hs
  | some t, some t', v, h, hs => by
    simp only [SameOption] at h
    simp only [ScopedOption] at hs ⊢
    exact term_same t t' v h hs
  | none, some _, _, h, _ => by simp only [SameOption] at h
  | some _, none, _, h, _ => by simp only [SameOption] at h
termination_by structural t => t
theorem part_same : ∀ (t t' : SeqPart) (v : List String), SamePart t t' → ScopedPart v t → ScopedPart v t'
  | .item t, .item t', v, h, hs => by
    simp only [SamePart] at h
    simp only [ScopedPart] at hs ⊢
    exact term_same t t' v h hs
  | .splice t, .splice t', v, h, hs => by
    simp only [SamePart] at h
    simp only [ScopedPart] at hs ⊢
    exact term_same t t' v h hs
  | .item _, .splice _, _, h, _ => by simp only [SamePart] at h
  | .splice _, .item _, _, h, _ => by simp only [SamePart] at h
termination_by structural t => t
theorem parts_same : ∀ (t t' : List SeqPart) (v : List String), SameParts t t' → ScopedParts v t → ScopedParts v t'
  | [], [], v, h, hs => hs
  | t :: ts, t' :: ts', v, h, hs => by
    simp only [SameParts] at h
    simp only [ScopedParts] at hs ⊢
    exact ⟨part_same t t' v h.1 hs.1, parts_same ts ts' v h.2 hs.2⟩
  | [], _ :: _, _, h, _ => by simp only [SameParts] at h
  | _ :: _, [], _, h, _ => by simp only [SameParts] at h
termination_by structural t => t
theorem param_same : ∀ (t t' : Param) (v : List String), SameParam t t' → ScopedParam v t → ScopedParam v t'
  | .mk x t, .mk x' t', v, h, hs => by
    simp only [SameParam] at h
    simp only [ScopedParam] at hs ⊢
    exact term_same t t' v h.2 hs
termination_by structural t => t
theorem params_same : ∀ (t t' : List Param) (v : List String), SameParams t t' → ScopedParams v t → ScopedParams v t'
  | [], [], v, h, hs => hs
  | t :: ts, t' :: ts', v, h, hs => by
    have hn := sameParams_names h
    simp only [SameParams] at h
    simp only [ScopedParams] at hs ⊢
    simp only [List.map_cons, List.cons.injEq] at hn
    rw [hn.1]
    exact ⟨param_same t t' v h.1 hs.1, hs.2.1, params_same ts ts' _ h.2 hs.2.2⟩
  | [], _ :: _, _, h, _ => by simp only [SameParams] at h
  | _ :: _, [], _, h, _ => by simp only [SameParams] at h
termination_by structural t => t
theorem symbol_same : ∀ (y y' : Symbol), SameSymbol y y' → ScopedSymbol y → ScopedSymbol y'
  | .mk v x ps cs t, .mk v' x' ps' cs' t', h, hs => by
    simp only [SameSymbol] at h
    simp only [ScopedSymbol] at hs ⊢
    rw [sameParams_names h.2.2.1]
    exact ⟨params_same ps ps' _ h.2.2.1 hs.1, terms_same cs cs' _ h.2.2.2.1 hs.2.1, term_same t t' _ h.2.2.2.2 hs.2.2⟩
termination_by structural t => t
theorem operation_same : ∀ (o o' : Operation) (v : List String), SameOperation o o' → ScopedOperation v o →
    ScopedOperation v o'
  | .simple k, o', v, h, hs => by simp only [SameOperation] at h; subst h; exact hs
  | .defineFunc y, o', v, h, hs => by
    simp only [SameOperation] at h
    obtain ⟨y', rfl, h⟩ := h
    simp only [ScopedOperation] at hs ⊢
    exact symbol_same y y' h hs
  | .declare k y, o', v, h, hs => by
    simp only [SameOperation] at h
    obtain ⟨y', rfl, h⟩ := h
    simp only [ScopedOperation] at hs ⊢
    exact symbol_same y y' h hs
  | .defineAlias y t, o', v, h, hs => by
    simp only [SameOperation] at h
    obtain ⟨y', t', rfl, h, h'⟩ := h
    simp only [ScopedOperation] at hs ⊢
    rw [(sameSymbol_names h).2]
    exact ⟨symbol_same y y' h hs.1, term_same t t' _ h' hs.2⟩
  | .custom t, o', v, h, hs => by
    simp only [SameOperation] at h
    obtain ⟨t', rfl, h⟩ := h
    simp only [ScopedOperation] at hs ⊢
    exact term_same t t' v h hs
  | .import x, o', v, h, hs => by simp only [SameOperation] at h; subst h; exact hs
termination_by structural t => t
theorem node_same : ∀ (n n' : Node) (f : String → String) (v : List String), SameNode f n n' → ScopedNode v n →
    ScopedNode v n'
  | .mk o ins outs rs ms sig, n', f, v, h, hs => by
    simp only [SameNode] at h
    obtain ⟨o', rs', ms', sig', rfl, h1, h2, h3, h4⟩ := h
    simp only [ScopedNode] at hs ⊢
    have a := operation_same o o' v h1 hs.1
    have e := (sameOperation_symbol h1).2
    have b := fun w => terms_same ms ms' w h2
    have c := fun w => option_same sig sig' w h3
    have d := fun w => regions_same rs rs' _ w h4
    refine ⟨a, ?_⟩
    replace hs := hs.2
    revert hs e
    cases o.symbol <;> cases o'.symbol <;> intro e hs
    · exact ⟨b _ hs.1, c _ hs.2.1, d _ hs.2.2⟩
    · simp at e
    · simp at e
    · simp only [Option.map_some, Option.some.injEq] at e
      simp only [e]
      exact ⟨b _ hs.1, c _ hs.2.1, d _ hs.2.2⟩
termination_by structural t => t
theorem nodes_same : ∀ (t t' : List Node) (f : String → String) (v : List String), SameNodes f t t' → ScopedNodes v t →
    ScopedNodes v t'
  | [], [], f, v, h, hs => hs
  | t :: ts, t' :: ts', f, v, h, hs => by
    simp only [SameNodes] at h
    simp only [ScopedNodes] at hs ⊢
    exact ⟨node_same t t' f v h.1 hs.1, nodes_same ts ts' f v h.2 hs.2⟩
  | [], _ :: _, _, _, h, _ => by simp only [SameNodes] at h
  | _ :: _, [], _, _, h, _ => by simp only [SameNodes] at h
termination_by structural t => t
theorem region_same : ∀ (r r' : Region) (f : Option (String → String)) (v : List String), SameRegion f r r' →
    ScopedRegion v r → ScopedRegion v r'
  | .mk k srcs tgts cs ms sig, r', f, v, h, hs => by
    simp only [SameRegion] at h
    obtain ⟨g, cs', ms', sig', _, rfl, h1, h2, h3⟩ := h
    simp only [ScopedRegion] at hs ⊢
    rw [sameNodes_introduced h1]
    exact ⟨terms_same ms ms' v h2 hs.1, option_same sig sig' v h3 hs.2.1, hs.2.2.1, nodes_same cs cs' g v h1 hs.2.2.2⟩
termination_by structural t => t
theorem regions_same : ∀ (t t' : List Region) (f : Option (String → String)) (v : List String), SameRegions f t t' →
    ScopedRegions v t → ScopedRegions v t'
  | [], [], f, v, h, hs => hs
  | t :: ts, t' :: ts', f, v, h, hs => by
    simp only [SameRegions] at h
    simp only [ScopedRegions] at hs ⊢
    exact ⟨region_same t t' f v h.1 hs.1, regions_same ts ts' f v h.2 hs.2⟩
  | [], _ :: _, _, _, h, _ => by simp only [SameRegions] at h
  | _ :: _, [], _, _, h, _ => by simp only [SameRegions] at h
termination_by structural t => t
end

theorem scopedNodes_append {v : List String} : ∀ {a b : List Node}, ScopedNodes v a → ScopedNodes v b →
    ScopedNodes v (a ++ b)
  | [], _, _, h => h
  | n :: ns, b, h, h' => by
    simp only [ScopedNodes, List.cons_append] at h ⊢
    exact ⟨h.1, scopedNodes_append h.2 h'⟩

theorem scopedNodes_imports {v : List String} : ∀ (xs : List String),
    ScopedNodes v (xs.map fun x => .mk (.import x) [] [] [] [] none)
  | [] => by simp only [List.map_nil, ScopedNodes]
  | x :: xs => by
    simp only [List.map_cons, ScopedNodes, ScopedNode, ScopedOperation, ScopedTerms, ScopedOption, ScopedRegions]
    exact ⟨⟨trivial, trivial, trivial, trivial⟩, scopedNodes_imports xs⟩

/-- **C69** What the view of the tables of a resolved module gives is well scoped too: resolving it again is not rejected
with an error. -/
theorem C69_view_scoped (drain : List NodeId → List NodeId) (hp : ∀ l, (drain l).Perm l) (m m' : Module)
    (M : Binary.Module) (hd : moduleDepth m ≤ 65535) (h : resolve drain m = .ok M)
    (hv : ∃ steps, ∀ f, steps ≤ f → asAst M f = .ok m') :
    ScopedModule m' ∧ (moduleDepth m' ≤ 65535 → ∀ e, resolve drain m' ≠ .error e) := by
  suffices hm : ScopedModule m' from ⟨hm, fun hd' e he => (C69_resolve_scoped drain hp m' hd').2.1 e he hm⟩
  obtain ⟨f, hv⟩ := hv
  obtain ⟨F, m'', imports, hn, hi, hs, hf⟩ := C69_view_resolve drain hp m M hd h
  have hsc := (C69_resolve_scoped drain hp m hd).1 M h
  have e : m' = m'' := by
    have := hv (max f F) (Nat.le_max_left ..)
    rw [hf _ (Nat.le_max_right ..)] at this
    cases this
    rfl
  subst e
  obtain ⟨⟨k, srcs, tgts, cs, ms, sig⟩⟩ := m
  obtain ⟨g, cs', ms', _, rfl, h1, h2⟩ := hs
  refine ⟨?_, scopedNodes_append (nodes_same cs cs' g [] h1 hsc.2.1) (scopedNodes_imports imports),
    terms_same ms ms' [] h2 hsc.2.2⟩
  have e2 : introducedNames (imports.map fun x => Node.mk (.import x) [] [] [] [] none) = imports := by
    simp [introducedNames, Node.operation, Operation.symbolName, List.filterMap_map, Function.comp_def]
  have e3 : introducedNames (cs' ++ imports.map fun x => Node.mk (.import x) [] [] [] [] none) =
      introducedNames cs ++ imports := by
    rw [← sameNodes_introduced h1]
    conv_rhs => rw [← e2]
    simp only [introducedNames, List.filterMap_append]
  rw [e3, List.nodup_append]
  refine ⟨hsc.1, hn, ?_⟩
  rintro a ha b hb rfl
  exact ((hi a).1 hb).1 ha

/-- A resolved module for which this says something. -/
example : ∃ M m', resolve id sample = .ok M ∧ (∃ steps, ∀ f, steps ≤ f → asAst M f = .ok m') ∧ ScopedModule m' := by
  have hd : moduleDepth sample ≤ 65535 := by decide +kernel
  obtain ⟨M, h⟩ : ∃ M, resolve id sample = .ok M := by
    have : (match resolve id sample with | .ok _ => true | _ => false) = true := by decide +kernel
    cases hr : resolve id sample with
    | ok M => exact ⟨M, rfl⟩
    | error e => rw [hr] at this; cases this
    | panic => rw [hr] at this; cases this
  obtain ⟨F, m', _, _, _, _, hv⟩ := C69_view_resolve id (fun _ => .refl _) sample M hd h
  exact ⟨M, m', h, ⟨F, hv⟩, (C69_view_scoped id (fun _ => .refl _) sample m' M hd h ⟨F, hv⟩).1⟩

end Verif.Resolve
