import Verif.Resolve.ModuleLemmas
/-!
# What is represented is well scoped
-/
namespace Verif.Resolve
open Verif
open Verif.Binary (NodeId LinkIndex RegionId TermId Literal)
open Verif.Scope

/-- The names of the variables in scope. -/
def Env.names (e : Env) : List String :=
  match e.vars with
  | some (_, ns) => ns
  | none => []

theorem Env.names_inside (e : Env) (id : NodeId) (o : Operation) :
    (e.inside id o).names = match o.symbol with | some y => y.params.map Param.name | none => e.names := by
  unfold Env.inside
  cases o.symbol <;> rfl

theorem repNodes_length {m : Binary.Module} {e : Env} {names : List String} : ∀ {cs : List Node} {ids : List NodeId},
    RepNodes m e names cs ids → cs.length = ids.length
  | [], [], _ => rfl
  | _ :: _, _ :: _, h => by
    simp only [RepNodes] at h
    simp [repNodes_length h.2]
  | [], _ :: _, h => by simp only [RepNodes] at h
  | _ :: _, [], h => by simp only [RepNodes] at h

section
variable {m : Binary.Module}
mutual
theorem term_scoped : ∀ (t : Term) (e : Env) (id : TermId), RepTerm m e t id → ScopedTerm e.names t
  | .wildcard, _, _, _ => by simp only [ScopedTerm]
  | .var x, e, id, h => by
    simp only [RepTerm] at h
    obtain ⟨n, i, names, _, h1, h2⟩ := h
    simp only [ScopedTerm, Env.names, h1]
    exact List.mem_of_getElem? h2
  | .apply x ts, e, id, h => by
    simp only [RepTerm] at h
    obtain ⟨_, ids, _, _, h⟩ := h
    simp only [ScopedTerm]
    exact terms_scoped ts e ids h
  | .list ps, e, id, h => by
    simp only [RepTerm] at h
    obtain ⟨ids, _, h⟩ := h
    simp only [ScopedTerm]
    exact parts_scoped ps e ids h
  | .literal _, _, _, _ => by simp only [ScopedTerm]
  | .tuple ps, e, id, h => by
    simp only [RepTerm] at h
    obtain ⟨ids, _, h⟩ := h
    simp only [ScopedTerm]
    exact parts_scoped ps e ids h
  | .func r, e, id, h => by
    simp only [RepTerm] at h
    obtain ⟨rid, _, h⟩ := h
    simp only [ScopedTerm]
    exact region_scoped r e none rid h
termination_by structural t => t
theorem terms_scoped : ∀ (ts : List Term) (e : Env) (ids : List TermId), RepTerms m e ts ids → ScopedTerms e.names ts
  | [], _, _, _ => by simp only [ScopedTerms]
  | t :: ts, e, id :: ids, h => by
    simp only [RepTerms] at h
    simp only [ScopedTerms]
    exact ⟨term_scoped t e id h.1, terms_scoped ts e ids h.2⟩
  | _ :: _, _, [], h => by simp only [RepTerms] at h
termination_by structural t => t
theorem option_scoped : ∀ (t : Option Term) (e : Env) (id : Option TermId), RepOption m e t id → ScopedOption e.names t
  | none, _, _, _ => by simp only [ScopedOption]
  | some t, e, some id, h => by
    simp only [RepOption] at h
    simp only [ScopedOption]
    exact term_scoped t e id h
  | some _, _, none, h => by simp only [RepOption] at h
termination_by structural t => t
theorem part_scoped : ∀ (p : SeqPart) (e : Env) (q : Binary.SeqPart), RepPart m e p q → ScopedPart e.names p
  | .item t, e, .item id, h => by
    simp only [RepPart] at h
    simp only [ScopedPart]
    exact term_scoped t e id h
  | .splice t, e, .splice id, h => by
    simp only [RepPart] at h
    simp only [ScopedPart]
    exact term_scoped t e id h
  | .item _, _, .splice _, h => by simp only [RepPart] at h
  | .splice _, _, .item _, h => by simp only [RepPart] at h
termination_by structural t => t
theorem parts_scoped : ∀ (ts : List SeqPart) (e : Env) (ids : List Binary.SeqPart), RepParts m e ts ids →
    ScopedParts e.names ts
  | [], _, _, _ => by simp only [ScopedParts]
  | t :: ts, e, id :: ids, h => by
    simp only [RepParts] at h
    simp only [ScopedParts]
    exact ⟨part_scoped t e id h.1, parts_scoped ts e ids h.2⟩
  | _ :: _, _, [], h => by simp only [RepParts] at h
termination_by structural t => t
theorem param_scoped : ∀ (p : Param) (e : Env) (q : Binary.Param), RepParam m e p q → ScopedParam e.names p
  | .mk x t, e, q, h => by
    simp only [RepParam] at h
    simp only [ScopedParam]
    exact term_scoped t e _ h.2
termination_by structural t => t
theorem params_scoped : ∀ (ps : List Param) (e : Env) (id : NodeId) (before : List String) (qs : List Binary.Param),
    RepParams m e id before ps qs → ScopedParams before ps
  | [], _, _, _, _, _ => by simp only [ScopedParams]
  | p :: ps, e, id, before, q :: qs, h => by
    simp only [RepParams] at h
    simp only [ScopedParams]
    exact ⟨param_scoped p _ q h.1, h.2.1, params_scoped ps e id _ qs h.2.2⟩
  | _ :: _, _, _, _, [], h => by simp only [RepParams] at h
termination_by structural t => t
theorem symbol_scoped : ∀ (y : Symbol) (e : Env) (id : NodeId) (q : Binary.Symbol), RepSymbol m e id y q → ScopedSymbol y
  | .mk v x ps cs t, e, id, q, h => by
    simp only [RepSymbol] at h
    simp only [ScopedSymbol]
    exact ⟨params_scoped ps e id [] _ h.2.2.1, terms_scoped cs _ _ h.2.2.2.1, term_scoped t _ _ h.2.2.2.2⟩
termination_by structural t => t
theorem operation_scoped : ∀ (o : Operation) (e : Env) (id : NodeId) (q : Binary.Operation), RepOperation m e id o q →
    ScopedOperation e.names o
  | .simple _, _, _, _, _ => by simp only [ScopedOperation]
  | .defineFunc y, e, id, q, h => by
    simp only [RepOperation] at h
    obtain ⟨q, _, h⟩ := h
    simp only [ScopedOperation]
    exact symbol_scoped y e id q h
  | .declare _ y, e, id, q, h => by
    simp only [RepOperation] at h
    obtain ⟨q, _, h⟩ := h
    simp only [ScopedOperation]
    exact symbol_scoped y e id q h
  | .defineAlias y t, e, id, q, h => by
    simp only [RepOperation] at h
    obtain ⟨q, tid, _, h, h'⟩ := h
    simp only [ScopedOperation]
    exact ⟨symbol_scoped y e id q h, term_scoped t _ tid h'⟩
  | .custom t, e, id, q, h => by
    simp only [RepOperation] at h
    obtain ⟨tid, _, h⟩ := h
    simp only [ScopedOperation]
    exact term_scoped t e tid h
  | .import _, _, _, _, _ => by simp only [ScopedOperation]
termination_by structural t => t
theorem node_scoped : ∀ (n : Node) (e : Env) (names : List String) (id : NodeId), RepNode m e names n id →
    ScopedNode e.names n
  | .mk o ins outs rs ms sig, e, names, id, h => by
    simp only [RepNode] at h
    obtain ⟨n, _, _, _, h1, h2, h3, h4⟩ := h
    simp only [ScopedNode]
    have a := terms_scoped ms _ _ h2
    have b := option_scoped sig _ _ h3
    have c := regions_scoped rs _ _ _ h4
    rw [Env.names_inside] at a b c
    exact ⟨operation_scoped o e id _ h1, a, b, c⟩
termination_by structural t => t
theorem nodes_scoped : ∀ (ns : List Node) (e : Env) (names : List String) (ids : List NodeId), RepNodes m e names ns ids →
    ScopedNodes e.names ns
  | [], _, _, _, _ => by simp only [ScopedNodes]
  | t :: ts, e, names, id :: ids, h => by
    simp only [RepNodes] at h
    simp only [ScopedNodes]
    exact ⟨node_scoped t e names id h.1, nodes_scoped ts e names ids h.2⟩
  | _ :: _, _, _, [], h => by simp only [RepNodes] at h
termination_by structural t => t
theorem region_scoped : ∀ (r : Region) (e : Env) (outer : Option (List String)) (id : RegionId),
    RepRegion m e outer r id → ScopedRegion e.names r
  | .mk k srcs tgts cs ms sig, e, outer, id, h => by
    simp only [RepRegion] at h
    obtain ⟨r, names, _, _, h1, h2, _, _, _, h3, h4⟩ := h
    simp only [ScopedRegion]
    rw [introduced_names (repNodes_length h4)] at h3
    have c := nodes_scoped cs _ names _ h4
    exact ⟨terms_scoped ms e _ h1, option_scoped sig e _ h2, h3, c⟩
termination_by structural t => t
theorem regions_scoped : ∀ (rs : List Region) (e : Env) (outer : Option (List String)) (ids : List RegionId),
    RepRegions m e outer rs ids → ScopedRegions e.names rs
  | [], _, _, _, _ => by simp only [ScopedRegions]
  | t :: ts, e, outer, id :: ids, h => by
    simp only [RepRegions] at h
    simp only [ScopedRegions]
    exact ⟨region_scoped t e outer id h.1, regions_scoped ts e outer ids h.2⟩
  | _ :: _, _, _, [], h => by simp only [RepRegions] at h
termination_by structural t => t
end
end

theorem module_scoped {M : Binary.Module} {a : Module} (h : RepModule M a) : ScopedModule a := by
  obtain ⟨⟨k, srcs, tgts, cs, ms, sig⟩⟩ := a
  obtain ⟨r, names, imports, ids, rest, _, _, _, _, _, _, _, _, _, _, _, hnd, hcs, hms⟩ := h
  rw [introduced_names (repNodes_length hcs)] at hnd
  exact ⟨hnd, nodes_scoped cs _ names _ hcs, terms_scoped ms _ _ hms⟩

end Verif.Resolve
