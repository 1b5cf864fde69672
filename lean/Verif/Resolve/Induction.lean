import Verif.Resolve.Regions
/-!
# The result of the resolution represents the module
-/
namespace Verif.Resolve
open Verif
open Verif.Binary (NodeId LinkIndex RegionId TermId Literal)
open Verif.Scope

/-- The states have the same tables; only the scopes differ. -/
structure SameTables (s t : State) : Prop where
  nodes : t.nodes = s.nodes
  regions : t.regions = s.regions
  terms : t.terms = s.terms
  imports : t.imports = s.imports

theorem SameTables.step {s t : State} (h : SameTables s t) : Step [] s t := by
  refine ⟨Nat.le_of_eq (by rw [h.nodes]), fun j _ _ => by rw [h.nodes], Nat.le_of_eq (by rw [h.regions]), fun j _ => by rw [h.regions],
    by rw [h.terms]; exact List.prefix_rfl, by rw [h.imports]; exact List.prefix_rfl, fun p hp => ?_⟩
  rw [h.imports] at hp
  exact Or.inl hp

theorem SameTables.good {s t : State} (h : SameTables s t) {fs : List Frame} {vs : VarStack} {ls : List OpenRegion}
    (hi : Inv t vs ls fs) : Good [] fs (fun _ => False) s t vs ls fun _ _ => True :=
  ⟨hi, h.step, Frees.of_eq h.imports, fun _ _ _ => trivial⟩

theorem Good.setNode {fs : List Frame} {f : String → Prop} {a b : State} {vs : VarStack} {ls : List OpenRegion}
    {r : Binary.Module → List (String × NodeId) → Prop} (h : Good [] fs f a b vs ls r) {i : Nat}
    (hi : i < a.nodes.length) (n : Binary.Node) :
    Good [i] fs f a { b with nodes := b.nodes.set i n } vs ls fun m imps => r m imps ∧ m.nodes[i]? = some n := by
  obtain ⟨h1, h2, h3, h4⟩ := h
  have hb : i < b.nodes.length := Nat.lt_of_lt_of_le hi h2.nodes_le
  refine ⟨?_, ⟨?_, ?_, h2.regions_le, h2.regions_eq, h2.terms, h2.imports, ?_⟩, h3, ?_⟩
  · refine { h1 with varNodes := ?_, bound := ?_, nodes := ?_, importNodes := ?_ }
    · simpa only [List.length_set] using h1.varNodes
    · simpa only [List.length_set] using h1.bound
    · simpa only [List.length_set] using h1.nodes
    · simpa only [List.length_set] using h1.importNodes
  · simpa only [List.length_set] using h2.nodes_le
  · intro j hj hn
    rw [← h2.nodes_eq j hj (by simp)]
    exact List.getElem?_set_ne (fun e => hn (by simp [e]))
  · intro p hp
    rcases h2.fresh p hp with h | ⟨h, h', h''⟩
    · exact Or.inl h
    · refine Or.inr ⟨h, by simpa only [List.length_set] using h', ?_⟩
      rw [← h'']
      exact List.getElem?_set_ne (by omega)
  · intro m imps hf
    refine ⟨h4 m imps ⟨fun j hj hl => ?_, hf.regions, hf.terms, hf.imports⟩, ?_⟩
    · rcases hj with hj | hj
      · cases hj
      rw [hf.nodes j (Or.inr hj) (by simpa only [List.length_set] using hl)]
      exact List.getElem?_set_ne (by omega)
    · rw [hf.nodes i (Or.inl (by simp)) (by simpa only [List.length_set] using hb)]
      exact List.getElem?_set_self hb

theorem Step.alloc {ids : List Nat} {a b c : State} (h1 : Step [] a b) (h2 : Step ids b c)
    (hi : ∀ i ∈ ids, a.nodes.length ≤ i) (he : b.imports = a.imports) : Step [] a c := by
  refine ⟨Nat.le_trans h1.nodes_le h2.nodes_le, fun j hj _ => ?_, Nat.le_trans h1.regions_le h2.regions_le,
    fun j hj => ?_, h1.terms.trans h2.terms, h1.imports.trans h2.imports, fun p hp => ?_⟩
  · rw [h2.nodes_eq j (Nat.lt_of_lt_of_le hj h1.nodes_le) (fun hc => absurd (hi j hc) (by omega)),
      h1.nodes_eq j hj (by simp)]
  · rw [h2.regions_eq j (Nat.lt_of_lt_of_le hj h1.regions_le), h1.regions_eq j hj]
  · rcases h2.fresh p hp with h | ⟨h, h', h''⟩
    · exact Or.inl (he ▸ h)
    · exact Or.inr ⟨Nat.le_trans h1.nodes_le h, h', h''⟩

theorem Final.alloc_left {m : Binary.Module} {imps : List (String × NodeId)} {ids : List Nat} {a b c : State}
    (h : Final m imps [] a c) (h2 : Step ids b c) (hab : ∀ i ∈ ids, b.nodes.length ≤ i) : Final m imps [] a b := by
  refine ⟨fun j hj hl => ?_, fun j hj hl => ?_, h2.terms.trans h.terms, h2.imports.trans h.imports⟩
  · rw [h.nodes j hj (Nat.lt_of_lt_of_le hl h2.nodes_le)]
    exact h2.nodes_eq j hl fun hc => absurd (hab j hc) (by omega)
  · rw [h.regions j hj (Nat.lt_of_lt_of_le hl h2.regions_le), h2.regions_eq j hl]

theorem Final.alloc_right {m : Binary.Module} {imps : List (String × NodeId)} {ids : List Nat} {a b c : State}
    (h : Final m imps [] a c) (h1 : Step [] a b) (hi : ∀ i ∈ ids, a.nodes.length ≤ i) : Final m imps ids b c :=
  ⟨fun j hj hl => h.nodes j (Or.inr (hj.elim (hi j) (Nat.le_trans h1.nodes_le))) hl,
    fun j hj hl => h.regions j (Nat.le_trans h1.regions_le hj) hl, h.terms, h.imports⟩

/-- What is in scope inside a node. -/
def insideVars (id : NodeId) (o : Operation) (vs : VarStack) : VarStack :=
  match o.symbol with
  | some y => (id.toNat, y.params.map Param.name) :: vs
  | none => vs

theorem envFor_inside (id : NodeId) (o : Operation) (vs : VarStack) (fs : List Frame) (imps : List (String × NodeId)) :
    envFor (insideVars id o vs) fs imps = (envFor vs fs imps).inside id o := by
  unfold insideVars Env.inside
  cases o.symbol with
  | none => rfl
  | some y => simp [envFor]

theorem simple_toTable (k : Simple) : k.toTable = simpleTable k := by cases k <;> rfl
theorem declaration_toTable (k : Declaration) (q : Binary.Symbol) : k.toTable q = declarationTable k q := by
  cases k <;> rfl

theorem nodeLinks_eq (o : Operation) (ins outs : List String) (rs : List Region) (ms : List Term) (sig : Option Term) :
    nodeLinks (.mk o ins outs rs ms sig) = ins ++ outs ++ (if o.closed then [] else regionsLinks rs) := by
  cases o <;> simp [nodeLinks, Operation.closed]

theorem closed_outer (o : Operation) (names : List String) :
    (if o.closed then none else some names) = (match o with | .defineFunc _ => none | _ => some names) := by
  cases o <;> rfl

theorem ids_of_alloc {s : State} {n : Nat} {ids : List NodeId} (h : ids.map UInt32.toNat = List.range' s.nodes.length n) :
    (ids.map UInt32.toNat).Nodup ∧ (∀ i ∈ ids, s.nodes.length ≤ i.toNat) ∧
      (∀ i ∈ ids, i.toNat < s.nodes.length + n) ∧ ids.length = n := by
  refine ⟨by rw [h]; exact List.nodup_range', fun i hi => ?_, fun i hi => ?_, ?_⟩
  · have := List.mem_map_of_mem (f := UInt32.toNat) hi
    rw [h, List.mem_range'_1] at this
    exact this.1
  · have := List.mem_map_of_mem (f := UInt32.toNat) hi
    rw [h, List.mem_range'_1] at this
    exact this.2
  · have := congrArg List.length h
    simpa using this

/-- The nodes of a region, from the allocation of their ids on. -/
theorem children_ok {cs : List Node} {s s7 s8 : State} {vs : VarStack} {ls : List OpenRegion} {r : Nat}
    {fs : List Frame} {ids : List NodeId} (hi : Inv s vs ls (⟨r, []⟩ :: fs))
    (ha : allocNodes cs.length s = .ok ids s7) (hd : declareNodes ids cs s7 = .ok () s8) :
    Inv s8 vs ls (⟨r, (introduced cs ids).map fun p => (p.1, p.2.toNat)⟩ :: fs) ∧ Step [] s s8 ∧
      s8.imports = s.imports ∧ s8.regions = s.regions ∧
      (ids.map UInt32.toNat).Nodup ∧ (∀ i ∈ ids, s.nodes.length ≤ i.toNat) ∧
      (∀ i ∈ ids, i.toNat < s8.nodes.length) ∧ (∀ i ∈ ids, i.toNat ∉ vs.map Prod.fst) ∧ ids.length = cs.length := by
  obtain ⟨e7, hids, hlen⟩ := allocNodes_ok ha hi.nodes
  obtain ⟨hn, hlo, hhi, hl⟩ := ids_of_alloc hids
  have hi7 : Inv s7 vs ls (⟨r, []⟩ :: fs) := by
    rw [e7]
    exact hi.addNodes (by simpa using hlen)
  have hl7 : s7.nodes.length = s.nodes.length + cs.length := by rw [e7]; simp
  have hstep : Step [] s s7 := by rw [e7]; exact step_addNodes _ _
  obtain ⟨⟨t, e8⟩, hi8⟩ := declareNodes_ok (f0 := ⟨r, []⟩) hi7 hd hn (fun i hi => by rw [hl7]; exact hhi i hi)
    (fun i hi' hc => by
      obtain ⟨b, hb, e⟩ := List.mem_map.1 hc
      obtain ⟨f, hf, hb⟩ := List.mem_flatMap.1 hb
      have := hi.bound f hf b hb
      have := hlo i hi'
      omega)
  rw [List.nil_append] at hi8
  have hst : SameTables s7 s8 := by rw [e8]; exact ⟨rfl, rfl, rfl, rfl⟩
  refine ⟨hi8, hstep.trans_nil hst.step, by rw [e8, e7], by rw [e8, e7], hn, hlo, fun i hi => by rw [e8]; show _ < s7.nodes.length; rw [hl7]; exact hhi i hi, ?_, hl⟩
  intro i hi' hc
  obtain ⟨v, hv, e⟩ := List.mem_map.1 hc
  have := hi.varNodes v hv
  have := hlo i hi'
  omega

mutual
theorem term_good : ∀ (t : Term) {s s' : State} {vs : VarStack} {ls : List OpenRegion} {fs : List Frame} {id : TermId},
    Inv s vs ls fs → fs.length + termDepth t ≤ 65535 → resolveTerm t s = .ok id s' →
    Good [] fs (fun x => FreeTerm x t) s s' vs ls fun m imps => RepTerm m (envFor vs fs imps) t id
  | .wildcard, s, s', vs, ls, fs, id, hi, hd, h => by
    simp only [resolveTerm] at h
    refine (internTerm_good hi h).imp (fun x => by simp [FreeTerm]) fun m imps hr => ?_
    obtain ⟨t', h1, h2⟩ := hr
    rw [sameTerm_eq h1 (fun _ => nofun)] at h2
    simpa only [RepTerm] using h2
  | .var x, s, s', vs, ls, fs, id, hi, hd, h => by
    simp only [resolveTerm] at h
    obtain ⟨v, s1, h1, h'⟩ := bind_ok h
    obtain ⟨rfl, names, hv, hx⟩ := resolveVar_ok hi h1
    clear h
    rename' h' => h
    refine (internTerm_good hi h).imp (fun x => by simp [FreeTerm]) fun m imps hr => ?_
    obtain ⟨t', h1, h2⟩ := hr
    rw [sameTerm_eq h1 (fun _ => nofun)] at h2
    simp only [RepTerm]
    exact ⟨v.1, v.2, names, h2, hv, hx⟩
  | .apply x ts, s, s', vs, ls, fs, id, hi, hd, h => by
    simp only [resolveTerm] at h
    simp only [termDepth] at hd
    obtain ⟨n, s1, h1, h⟩ := bind_ok h
    obtain ⟨ids, s2, h2, h⟩ := bind_ok h
    have g1 := resolveSymbolName_good hi h1
    have g2 := terms_good ts g1.1 hd h2
    have g3 := internTerm_good g2.1 h
    refine (g1.seq (g2.seq g3)).imp (fun y => by simp only [FreeTerm, or_false]; rw [eq_comm]) fun m imps hr => ?_
    obtain ⟨r1, r2, t', h1, h2⟩ := hr
    rw [sameTerm_eq h1 (fun _ => nofun)] at h2
    simp only [RepTerm]
    exact ⟨n, ids, h2, r1, r2⟩
  | .list ps, s, s', vs, ls, fs, id, hi, hd, h => by
    simp only [resolveTerm] at h
    simp only [termDepth] at hd
    obtain ⟨ids, s2, h2, h⟩ := bind_ok h
    have g2 := parts_good ps hi hd h2
    have g3 := internTerm_good g2.1 h
    refine (g2.seq g3).imp (fun y => by simp only [FreeTerm, or_false]) fun m imps hr => ?_
    obtain ⟨r2, t', h1, h2⟩ := hr
    rw [sameTerm_eq h1 (fun _ => nofun)] at h2
    simp only [RepTerm]
    exact ⟨ids, h2, r2⟩
  | .literal l, s, s', vs, ls, fs, id, hi, hd, h => by
    simp only [resolveTerm] at h
    refine (internTerm_good hi h).imp (fun x => by simp [FreeTerm]) fun m imps hr => ?_
    obtain ⟨t', h1, h2⟩ := hr
    obtain ⟨l', rfl, hl⟩ := sameTerm_literal h1
    simp only [RepTerm]
    exact ⟨l', h2, hl⟩
  | .tuple ps, s, s', vs, ls, fs, id, hi, hd, h => by
    simp only [resolveTerm] at h
    simp only [termDepth] at hd
    obtain ⟨ids, s2, h2, h⟩ := bind_ok h
    have g2 := parts_good ps hi hd h2
    have g3 := internTerm_good g2.1 h
    refine (g2.seq g3).imp (fun y => by simp only [FreeTerm, or_false]) fun m imps hr => ?_
    obtain ⟨r2, t', h1, h2⟩ := hr
    rw [sameTerm_eq h1 (fun _ => nofun)] at h2
    simp only [RepTerm]
    exact ⟨ids, h2, r2⟩
  | .func r, s, s', vs, ls, fs, id, hi, hd, h => by
    simp only [resolveTerm] at h
    simp only [termDepth] at hd
    obtain ⟨rid, s2, h2, h⟩ := bind_ok h
    obtain ⟨ls', _, he, g2⟩ := region_good r true hi hd h2
    rw [he rfl] at g2
    have g3 := internTerm_good g2.1 h
    refine (g2.seq g3).imp (fun y => by simp only [FreeTerm, or_false]) fun m imps hr => ?_
    obtain ⟨r2, t', h1, h2⟩ := hr
    rw [sameTerm_eq h1 (fun _ => nofun)] at h2
    simp only [RepTerm]
    exact ⟨rid, h2, r2 (headNames ls) List.prefix_rfl⟩
termination_by structural t => t
theorem terms_good : ∀ (ts : List Term) {s s' : State} {vs : VarStack} {ls : List OpenRegion} {fs : List Frame}
    {ids : List TermId}, Inv s vs ls fs → fs.length + termsDepth ts ≤ 65535 → resolveTerms ts s = .ok ids s' →
    Good [] fs (fun x => FreeTerms x ts) s s' vs ls fun m imps => RepTerms m (envFor vs fs imps) ts ids
  | [], s, s', vs, ls, fs, id, hi, hd, h => by
    simp only [resolveTerms] at h
    cases h
    exact (Good.refl hi).imp (fun x => by simp [FreeTerms]) fun m imps _ => by simp only [RepTerms]
  | t :: ts, s, s', vs, ls, fs, id, hi, hd, h => by
    simp only [resolveTerms] at h
    simp only [termsDepth] at hd
    obtain ⟨id, s1, h1, h⟩ := bind_ok h
    obtain ⟨ids, s2, h2, h⟩ := bind_ok h
    cases h
    have g1 := term_good t hi (by omega) h1
    have g2 := terms_good ts g1.1 (by omega) h2
    exact (g1.seq g2).imp (fun y => by simp only [FreeTerms]) fun m imps hr => by simp only [RepTerms]; exact hr
termination_by structural t => t
theorem option_good : ∀ (t : Option Term) {s s' : State} {vs : VarStack} {ls : List OpenRegion} {fs : List Frame}
    {id : Option TermId}, Inv s vs ls fs → fs.length + optionDepth t ≤ 65535 → resolveOption t s = .ok id s' →
    Good [] fs (fun x => FreeOption x t) s s' vs ls fun m imps => RepOption m (envFor vs fs imps) t id
  | none, s, s', vs, ls, fs, id, hi, hd, h => by
    simp only [resolveOption] at h
    cases h
    exact (Good.refl hi).imp (fun x => by simp [FreeOption]) fun m imps _ => by simp only [RepOption]
  | some t, s, s', vs, ls, fs, id, hi, hd, h => by
    simp only [resolveOption] at h
    simp only [optionDepth] at hd
    obtain ⟨id, s1, h1, h⟩ := bind_ok h
    cases h
    exact (term_good t hi hd h1).imp (fun y => by simp only [FreeOption]) fun m imps hr => by
      simp only [RepOption]; exact hr
termination_by structural t => t
theorem part_good : ∀ (p : SeqPart) {s s' : State} {vs : VarStack} {ls : List OpenRegion} {fs : List Frame}
    {q : Binary.SeqPart}, Inv s vs ls fs → fs.length + partDepth p ≤ 65535 → resolvePart p s = .ok q s' →
    Good [] fs (fun x => FreePart x p) s s' vs ls fun m imps => RepPart m (envFor vs fs imps) p q
  | .item t, s, s', vs, ls, fs, id, hi, hd, h => by
    simp only [resolvePart] at h
    simp only [partDepth] at hd
    obtain ⟨id, s1, h1, h⟩ := bind_ok h
    cases h
    exact (term_good t hi hd h1).imp (fun y => by simp only [FreePart]) fun m imps hr => by
      simp only [RepPart]; exact hr
  | .splice t, s, s', vs, ls, fs, id, hi, hd, h => by
    simp only [resolvePart] at h
    simp only [partDepth] at hd
    obtain ⟨id, s1, h1, h⟩ := bind_ok h
    cases h
    exact (term_good t hi hd h1).imp (fun y => by simp only [FreePart]) fun m imps hr => by
      simp only [RepPart]; exact hr
termination_by structural t => t
theorem parts_good : ∀ (ps : List SeqPart) {s s' : State} {vs : VarStack} {ls : List OpenRegion} {fs : List Frame}
    {qs : List Binary.SeqPart}, Inv s vs ls fs → fs.length + partsDepth ps ≤ 65535 → resolveParts ps s = .ok qs s' →
    Good [] fs (fun x => FreeParts x ps) s s' vs ls fun m imps => RepParts m (envFor vs fs imps) ps qs
  | [], s, s', vs, ls, fs, id, hi, hd, h => by
    simp only [resolveParts] at h
    cases h
    exact (Good.refl hi).imp (fun x => by simp [FreeParts]) fun m imps _ => by simp only [RepParts]
  | t :: ts, s, s', vs, ls, fs, id, hi, hd, h => by
    simp only [resolveParts] at h
    simp only [partsDepth] at hd
    obtain ⟨id, s1, h1, h⟩ := bind_ok h
    obtain ⟨ids, s2, h2, h⟩ := bind_ok h
    cases h
    have g1 := part_good t hi (by omega) h1
    have g2 := parts_good ts g1.1 (by omega) h2
    exact (g1.seq g2).imp (fun y => by simp only [FreeParts]) fun m imps hr => by simp only [RepParts]; exact hr
termination_by structural t => t
theorem param_good : ∀ (p : Param) {s s' : State} {n : Nat} {before : List String} {vr : VarStack}
    {ls : List OpenRegion} {fs : List Frame} {q : Binary.Param}, Inv s ((n, before) :: vr) ls fs →
    fs.length + paramDepth p ≤ 65535 → resolveParam p s = .ok q s' → p.name ∉ before ∧
    Good [] fs (fun x => FreeParam x p) s s' ((n, before ++ [p.name]) :: vr) ls
      fun m imps => RepParam m (envFor ((n, before) :: vr) fs imps) p q
  | .mk x t, s, s', n, before, vr, ls, fs, q, hi, hd, h => by
    simp only [resolveParam] at h
    simp only [paramDepth] at hd
    obtain ⟨id, s1, h1, h⟩ := bind_ok h
    obtain ⟨_, s2, h2, h⟩ := bind_ok h
    cases h
    have g1 := term_good t hi hd h1
    obtain ⟨hx, hi2, t, e⟩ := declareVar_ok g1.1 h2
    have g2 : Good [] fs (fun _ => False) s1 s' ((n, before ++ [x]) :: vr) ls fun _ _ => True :=
      SameTables.good (by rw [e]; exact ⟨rfl, rfl, rfl, rfl⟩) hi2
    refine ⟨hx, (g1.seq g2).imp (fun y => by simp only [FreeParam, or_false]) fun m imps hr => ?_⟩
    simp only [RepParam]
    exact ⟨trivial, hr.1⟩
termination_by structural t => t
theorem params_good : ∀ (ps : List Param) {s s' : State} {n : Nat} {before : List String} {vr : VarStack}
    {ls : List OpenRegion} {fs : List Frame} {qs : List Binary.Param}, Inv s ((n, before) :: vr) ls fs →
    fs.length + paramsDepth ps ≤ 65535 → resolveParams ps s = .ok qs s' →
    Good [] fs (fun x => FreeParams x ps) s s' ((n, before ++ ps.map Param.name) :: vr) ls
      fun m imps => RepParams m (envFor vr fs imps) (UInt32.ofNat n) before ps qs
  | [], s, s', n, before, vr, ls, fs, q, hi, hd, h => by
    simp only [resolveParams] at h
    cases h
    rw [List.map_nil, List.append_nil]
    exact (Good.refl hi).imp (fun x => by simp [FreeParams]) fun m imps _ => by simp only [RepParams]
  | p :: ps, s, s', n, before, vr, ls, fs, q, hi, hd, h => by
    simp only [resolveParams] at h
    simp only [paramsDepth] at hd
    obtain ⟨q, s1, h1, h⟩ := bind_ok h
    obtain ⟨qs, s2, h2, h⟩ := bind_ok h
    cases h
    obtain ⟨hp, g1⟩ := param_good p hi (by omega) h1
    have g2 := params_good ps g1.1 (by omega) h2
    rw [List.append_assoc] at g2
    exact (g1.seq g2).imp (fun y => by simp only [FreeParams]) fun m imps hr => by
      simp only [RepParams]; exact ⟨hr.1, hp, hr.2⟩
termination_by structural t => t
theorem symbol_good : ∀ (y : Symbol) {s s' : State} {n : Nat} {vr : VarStack}
    {ls : List OpenRegion} {fs : List Frame} {q : Binary.Symbol}, Inv s ((n, []) :: vr) ls fs →
    fs.length + symbolDepth y ≤ 65535 → resolveSymbol y s = .ok q s' →
    Good [] fs (fun x => FreeSymbol x y) s s' ((n, y.params.map Param.name) :: vr) ls
      fun m imps => RepSymbol m (envFor vr fs imps) (UInt32.ofNat n) y q
  | .mk v x ps cs t, s, s', n, vr, ls, fs, q, hi, hd, h => by
    simp only [resolveSymbol] at h
    simp only [symbolDepth] at hd
    obtain ⟨qs, s1, h1, h⟩ := bind_ok h
    obtain ⟨ids, s2, h2, h⟩ := bind_ok h
    obtain ⟨id, s3, h3, h⟩ := bind_ok h
    cases h
    have g1 := params_good ps hi (by omega) h1
    rw [List.nil_append] at g1
    have g2 := terms_good cs g1.1 (by omega) h2
    have g3 := term_good t g2.1 (by omega) h3
    exact (g1.seq (g2.seq g3)).imp (fun y => by simp only [FreeSymbol]) fun m imps hr => by
      simp only [RepSymbol]; exact ⟨trivial, trivial, hr.1, hr.2.1, hr.2.2⟩
termination_by structural t => t
theorem operation_good : ∀ (o : Operation) {s s' : State} {id : NodeId} {vs : VarStack}
    {ls : List OpenRegion} {fs : List Frame} {q : Binary.Operation},
    Inv s (if o.hasSymbol then (id.toNat, []) :: vs else vs) ls fs →
    fs.length + operationDepth o ≤ 65535 → resolveOperation o s = .ok q s' →
    Good [] fs (fun x => FreeOperation x o) s s' (insideVars id o vs) ls
      fun m imps => RepOperation m (envFor vs fs imps) id o q
  | .simple k, s, s', id, vs, ls, fs, q, hi, hd, h => by
    simp only [resolveOperation] at h
    cases h
    exact (Good.refl hi).imp (fun x => by simp [FreeOperation]) fun m imps _ => by
      simp only [RepOperation]; exact simple_toTable k
  | .defineFunc y, s, s', id, vs, ls, fs, q, hi, hd, h => by
    simp only [resolveOperation] at h
    simp only [operationDepth] at hd
    obtain ⟨q, s1, h1, h⟩ := bind_ok h
    cases h
    exact (symbol_good y hi hd h1).imp (fun y => by simp only [FreeOperation]) fun m imps hr => by
      simp only [RepOperation]; exact ⟨q, rfl, by simpa using hr⟩
  | .declare k y, s, s', id, vs, ls, fs, q, hi, hd, h => by
    simp only [resolveOperation] at h
    simp only [operationDepth] at hd
    obtain ⟨q, s1, h1, h⟩ := bind_ok h
    cases h
    exact (symbol_good y hi hd h1).imp (fun y => by simp only [FreeOperation]) fun m imps hr => by
      simp only [RepOperation]; exact ⟨q, declaration_toTable k q, by simpa using hr⟩
  | .defineAlias y t, s, s', id, vs, ls, fs, q, hi, hd, h => by
    simp only [resolveOperation] at h
    simp only [operationDepth] at hd
    obtain ⟨q, s1, h1, h⟩ := bind_ok h
    obtain ⟨tid, s2, h2, h⟩ := bind_ok h
    cases h
    have g1 := symbol_good y hi (by omega) h1
    have g2 := term_good t g1.1 (by omega) h2
    refine (g1.seq g2).imp (fun y => by simp only [FreeOperation]) fun m imps hr => ?_
    simp only [RepOperation]
    refine ⟨q, tid, rfl, by simpa using hr.1, ?_⟩
    have := hr.2
    simpa [envFor] using this
  | .custom t, s, s', id, vs, ls, fs, q, hi, hd, h => by
    simp only [resolveOperation] at h
    simp only [operationDepth] at hd
    obtain ⟨tid, s1, h1, h⟩ := bind_ok h
    cases h
    exact (term_good t hi hd h1).imp (fun y => by simp only [FreeOperation]) fun m imps hr => by
      simp only [RepOperation]; exact ⟨tid, rfl, hr⟩
  | .import x, s, s', id, vs, ls, fs, q, hi, hd, h => by
    simp only [resolveOperation] at h
    cases h
    exact (Good.refl hi).imp (fun x => by simp [FreeOperation]) fun m imps _ => by simp only [RepOperation]
termination_by structural t => t
theorem node_good : ∀ (n : Node) {s s' : State} {id : NodeId} {vs : VarStack} {ls : List OpenRegion}
    {fs : List Frame}, Inv s vs ls fs → fs.length + nodeDepth n ≤ 65535 → id.toNat < s.nodes.length →
    id.toNat ∉ vs.map Prod.fst → resolveNode n id s = .ok () s' →
    ∃ ls', LinkGrow (nodeLinks n) ls ls' ∧ Good [id.toNat] fs (fun x => FreeNode x n) s s' vs ls'
      fun m imps => ∀ names, headNames ls' <+: names → RepNode m (envFor vs fs imps) names n id
  | .mk o ins outs rs ms sig, s, s', id, vs, ls, fs, hi, hd, hl, hv, h => by
    simp only [resolveNode] at h
    simp only [nodeDepth] at hd
    obtain ⟨inputs, s1, h1, h⟩ := bind_ok h
    obtain ⟨outputs, s2, h2, h⟩ := bind_ok h
    obtain ⟨op, s3, h3, h⟩ := bind_ok h
    obtain ⟨ms', s4, h4, h⟩ := bind_ok h
    obtain ⟨rs', s5, h5, h⟩ := bind_ok h
    obtain ⟨sig', s6, h6, h⟩ := bind_ok h
    obtain ⟨_, s7, h7, h⟩ := bind_ok h
    obtain ⟨ls1, k1, g1⟩ := resolveLinks_good hi h1
    obtain ⟨ls2, k2, g2⟩ := resolveLinks_good g1.1 h2
    have g2' : Good [] fs (fun _ => False) s2 (if o.hasSymbol then { s2 with vars := s2.vars.enter id.toNat } else s2)
        (if o.hasSymbol then (id.toNat, []) :: vs else vs) ls2 fun _ _ => True := by
      cases o.hasSymbol with
      | false => exact Good.refl g2.1
      | true =>
        exact SameTables.good (s := s2) (t := { s2 with vars := s2.vars.enter id.toNat }) ⟨rfl, rfl, rfl, rfl⟩
          (enterVars_ok g2.1 (Nat.lt_of_lt_of_le hl (g1.2.1.trans_nil g2.2.1).nodes_le) hv)
    have g3 := operation_good o g2'.1 (by omega) h3
    have g4 := terms_good ms g3.1 (by omega) h4
    obtain ⟨ls5, k5, g5⟩ := regions_good rs o.closed g4.1 (by omega) h5
    have g6 := option_good sig g5.1 (by omega) h6
    have g7 : Good [] fs (fun _ => False) s6 s7 vs ls5 fun _ _ => True := by
      cases hy : o.symbol with
      | none =>
        have : o.hasSymbol = false := by simp [Operation.hasSymbol, hy]
        rw [this] at h7
        cases h7
        have := g6.1
        simp only [insideVars, hy] at this
        exact Good.refl this
      | some y =>
        have : o.hasSymbol = true := by simp [Operation.hasSymbol, hy]
        rw [this] at h7
        have := g6.1
        simp only [insideVars, hy] at this
        obtain ⟨hi7, t, e⟩ := exitVars_ok this h7
        exact SameTables.good (by rw [e]; exact ⟨rfl, rfl, rfl, rfl⟩) hi7
    by_cases hlt : id.toNat < s7.nodes.length
    · rw [if_pos hlt] at h
      cases h
      refine ⟨ls5, ?_, ?_⟩
      · rw [nodeLinks_eq]
        exact (k1.trans k2).trans k5
      have G := g1.seq (g2.seq (g2'.seq (g3.seq (g4.seq (g5.seq (g6.seq g7))))))
      refine (G.setNode hl ⟨op, inputs, outputs, rs', ms', sig'⟩).imp (fun x => ?_) fun m imps hr names hp => ?_
      · simp only [FreeNode, false_or, or_false]
      · obtain ⟨⟨r1, r2, -, r3, r4, r5, r6, -⟩, hN⟩ := hr
        rw [envFor_inside] at r4 r6
        have r5 := r5 names hp
        rw [envFor_inside, closed_outer] at r5
        simp only [RepNode]
        have p2 := k5.head.trans hp
        refine ⟨_, hN, r1 names (k2.head.trans p2), r2 names p2, r3, r4, r6, ?_⟩
        revert r5
        cases o <;> exact fun h => h
    · rw [if_neg hlt] at h
      cases h
termination_by structural t => t
theorem nodes_good : ∀ (ns : List Node) {s s' : State} {ids : List NodeId} {vs : VarStack} {ls : List OpenRegion}
    {fs : List Frame}, Inv s vs ls fs → fs.length + nodesDepth ns ≤ 65535 → (ids.map UInt32.toNat).Nodup →
    (∀ id ∈ ids, id.toNat < s.nodes.length) → (∀ id ∈ ids, id.toNat ∉ vs.map Prod.fst) →
    resolveNodeList ns ids s = .ok () s' →
    ∃ ls', LinkGrow (nodesLinks ns) ls ls' ∧ Good (ids.map UInt32.toNat) fs (fun x => FreeNodes x ns) s s' vs ls'
      fun m imps => ∀ names, headNames ls' <+: names → RepNodes m (envFor vs fs imps) names ns ids
  | [], s, s', [], vs, ls, fs, hi, hd, hn, hl, hv, h => by
    simp only [resolveNodeList] at h
    cases h
    refine ⟨ls, by simp only [nodesLinks]; exact LinkGrow.refl ls, (Good.refl hi).imp (fun x => ?_)
      fun m imps _ names _ => ?_⟩
    · simp [FreeNodes]
    · simp only [RepNodes]
  | n :: ns, s, s', id :: ids, vs, ls, fs, hi, hd, hn, hl, hv, h => by
    simp only [resolveNodeList] at h
    simp only [nodesDepth] at hd
    obtain ⟨_, s1, h1, h⟩ := bind_ok h
    rw [List.map_cons, List.nodup_cons] at hn
    obtain ⟨ls1, k1, g1⟩ := node_good n hi (by omega) (hl id (by simp)) (hv id (by simp)) h1
    have hl' : ∀ i ∈ ids, i.toNat < s.nodes.length := fun i hi => hl i (by simp [hi])
    obtain ⟨ls2, k2, g2⟩ := nodes_good ns g1.1 (by omega) hn.2
      (fun i hi => Nat.lt_of_lt_of_le (hl' i hi) g1.2.1.nodes_le) (fun i hi => hv i (by simp [hi])) h
    have hlm : ∀ i ∈ ids.map UInt32.toNat, i < s.nodes.length := by
      intro i hi
      obtain ⟨j, hj, rfl⟩ := List.mem_map.1 hi
      exact hl' j hj
    refine ⟨ls2, by simp only [nodesLinks]; exact k1.trans k2, g2.1, ?_, ?_, ?_⟩
    · exact g1.2.1.trans g2.2.1 hlm
    · exact (g1.2.2.1.trans g2.2.2.1).congr fun x => by simp only [FreeNodes]
    · intro m imps hf names hp
      simp only [RepNodes]
      have hf' : Final m imps ([id.toNat] ++ ids.map UInt32.toNat) s s' := hf
      refine ⟨g1.2.2.2 m imps (hf'.left g2.2.1 hlm (fun i hi => ?_)) names (k2.head.trans hp),
        g2.2.2.2 m imps (hf'.right g1.2.1) names hp⟩
      rw [List.mem_singleton] at hi
      rw [hi]
      exact hn.1
  | [], _, _, _ :: _, _, _, _, _, _, _, _, _, h => by simp [resolveNodeList] at h
  | _ :: _, _, _, [], _, _, _, _, _, _, _, _, h => by simp [resolveNodeList] at h
termination_by structural t => t
theorem region_good : ∀ (r : Region) (closed : Bool) {s s' : State} {id : RegionId} {vs : VarStack}
    {ls : List OpenRegion} {fs : List Frame}, Inv s vs ls fs → fs.length + regionDepth r ≤ 65535 →
    resolveRegion r closed s = .ok id s' →
    ∃ ls', LinkGrow (if closed then [] else regionLinks r) ls ls' ∧ (closed = true → ls' = ls) ∧
      Good [] fs (fun x => FreeRegion x r) s s' vs ls'
      fun m imps => ∀ names, headNames ls' <+: names →
        RepRegion m (envFor vs fs imps) (if closed then none else some names) r id
  | .mk k srcs tgts cs ms sig, closed, s, s', id, vs, ls, fs, hi, hd, h => by
    simp only [resolveRegion] at h
    simp only [regionDepth] at hd
    obtain ⟨ms', s1, h1, h⟩ := bind_ok h
    obtain ⟨sig', s2, h2, h⟩ := bind_ok h
    obtain ⟨rid, s3, h3, h⟩ := bind_ok h
    obtain ⟨sources, s5, h5, h⟩ := bind_ok h
    obtain ⟨targets, s6, h6, h⟩ := bind_ok h
    obtain ⟨ids, s7, h7, h⟩ := bind_ok h
    obtain ⟨_, s8, h8, h⟩ := bind_ok h
    obtain ⟨_, s9, h9, h⟩ := bind_ok h
    obtain ⟨scope, s10, h10, hfin⟩ := bind_ok h
    have g1 := terms_good ms hi (by omega) h1
    have g2 := option_good sig g1.1 (by omega) h2
    have g12 := g1.seq g2
    unfold insertRegion at h3
    cases hid : newId s2.regions.length with
    | none => rw [hid] at h3; cases h3
    | some rid' =>
    rw [hid] at h3
    cases h3
    obtain ⟨e1, e2⟩ := newId_some hid
    have hi4 := enterRegion_ok (closed := closed) g2.1 hid (by omega)
    generalize hs4 : enterRegion rid closed { s2 with regions := s2.regions ++ [defaultRegion] } = s4 at h5 hi4
    have t4n : s4.nodes = s2.nodes := by rw [← hs4]; rfl
    have t4r : s4.regions = s2.regions ++ [defaultRegion] := by rw [← hs4]; rfl
    have t4t : s4.terms = s2.terms := by rw [← hs4]; rfl
    have t4i : s4.imports = s2.imports := by rw [← hs4]; rfl
    obtain ⟨ls5, k5, g5⟩ := resolveLinks_good hi4 h5
    obtain ⟨ls6, k6, g6⟩ := resolveLinks_good g5.1 h6
    have g56 := g5.seq g6
    obtain ⟨hi8, st8, im8, re8, hnod, hlo, hhi, hfresh, hlen⟩ := children_ok g6.1 h7 h8
    obtain ⟨ls9, k9, g9⟩ := nodes_good cs hi8 (by simp only [List.length_cons]; omega) hnod hhi hfresh h9
    have hlo' : ∀ i ∈ ids.map UInt32.toNat, s6.nodes.length ≤ i := by
      intro i hi
      obtain ⟨j, hj, rfl⟩ := List.mem_map.1 hi
      exact hlo j hj
    have st69 : Step [] s6 s9 := st8.alloc g9.2.1 hlo' im8
    have st49 : Step [] s4 s9 := g56.2.1.trans_nil st69
    have kk := (k5.trans k6).trans k9
    -- leaving the scopes
    have hexit : ∃ ls', LinkGrow (if closed then [] else regionLinks (.mk k srcs tgts cs ms sig)) ls ls' ∧
        (closed = true → ls' = ls) ∧ Inv s10 vs ls' fs ∧ SameTables s9 s10 ∧
        (closed = true → ScopeIs (headNames ls9) (srcs ++ tgts ++ nodesLinks cs) scope) ∧
        (closed = false → scope = none ∧ ls' = ls9) := by
      cases closed with
      | true =>
        simp only [exitRegion, if_pos] at h10
        obtain ⟨sc, sa, ha, h10⟩ := bind_ok h10
        obtain ⟨_, sb, hb, h10⟩ := bind_ok h10
        cases h10
        simp only [enterLinks, if_pos] at kk
        cases ls9 with
        | nil => exact kk.elim
        | cons f9 r9 =>
          obtain ⟨rfl, _, _, c4, c5⟩ := kk
          obtain ⟨hia, ⟨ta, ea⟩, q1, q2⟩ := exitLinks_ok g9.1 ha
          obtain ⟨hib, tb, eb⟩ := exitSymbols_ok hia hb
          refine ⟨r9, LinkGrow.refl _, fun _ => rfl, hib, by rw [eb, ea]; exact ⟨rfl, rfl, rfl, rfl⟩, fun _ => ?_,
            fun h => absurd h (by decide)⟩
          refine ⟨g9.1.linkNames f9 (by simp), fun x => ?_, sc, rfl, q1, ?_⟩
          · simpa [headNames] using c4 x
          · rw [q2, c5]; simp
      | false =>
        simp only [exitRegion, Bool.false_eq_true, if_false] at h10
        obtain ⟨_, sb, hb, h10⟩ := bind_ok h10
        cases h10
        obtain ⟨hib, tb, eb⟩ := exitSymbols_ok g9.1 hb
        simp only [enterLinks, Bool.false_eq_true, if_false] at kk
        refine ⟨ls9, ?_, fun h => absurd h (by decide), hib, by rw [eb]; exact ⟨rfl, rfl, rfl, rfl⟩,
          fun h => absurd h (by decide), fun _ => ⟨rfl, rfl⟩⟩
        simpa [regionLinks] using kk
    obtain ⟨ls', kl, hcl, hi10, st10, hsc, hop⟩ := hexit
    by_cases hlt : rid.toNat < s10.regions.length
    swap
    · rw [if_neg hlt] at hfin; cases hfin
    rw [if_pos hlt] at hfin
    cases hfin
    refine ⟨ls', kl, hcl, ?_⟩
    have hr9 : s10.regions = s9.regions := st10.regions
    have hr49 := st49.regions_le
    rw [t4r, List.length_append, List.length_singleton] at hr49
    have hstep : Step [] s2
        { s10 with regions := s10.regions.set id.toNat ⟨k, sources, targets, ids, ms', sig', scope⟩ } := by
      refine ⟨?_, ?_, ?_, ?_, ?_, ?_, ?_⟩
      · show s2.nodes.length ≤ s10.nodes.length
        rw [st10.nodes, ← t4n]; exact st49.nodes_le
      · intro j hj hn
        show s10.nodes[j]? = _
        rw [st10.nodes, ← t4n]; exact st49.nodes_eq j (by rw [t4n]; exact hj) hn
      · show s2.regions.length ≤ (s10.regions.set _ _).length
        rw [List.length_set, hr9]; omega
      · intro j hj
        show (s10.regions.set _ _)[j]? = _
        rw [List.getElem?_set_ne (by omega), hr9, st49.regions_eq j (by rw [t4r]; simp; omega), t4r,
          List.getElem?_append_left hj]
      · show s2.terms <+: s10.terms
        rw [st10.terms, ← t4t]; exact st49.terms
      · show s2.imports <+: s10.imports
        rw [st10.imports, ← t4i]; exact st49.imports
      · intro p hp
        have hp' : p ∈ s10.imports := hp
        rw [st10.imports] at hp'
        rcases st49.fresh p hp' with h | h
        · rw [t4i] at h; exact Or.inl h
        · right
          show _ ∧ _ < s10.nodes.length ∧ s10.nodes[_]? = _
          rw [st10.nodes, ← t4n]
          exact h
    have gr : Good [] fs (fun x => x ∉ introducedNames cs ∧ FreeNodes x cs) s2
        { s10 with regions := s10.regions.set id.toNat ⟨k, sources, targets, ids, ms', sig', scope⟩ } vs ls'
        fun m imps => ∀ names, headNames ls' <+: names →
          m.regions[id.toNat]? = some ⟨k, sources, targets, ids, ms', sig', scope⟩ ∧
          ∃ own, (if closed then own = headNames ls9 else own = names) ∧ LinksAre own srcs sources ∧
            LinksAre own tgts targets ∧
            RepNodes m { envFor vs fs imps with scopes := introduced cs ids :: scopesFor fs } own cs ids := by
      refine ⟨?_, hstep, ?_, ?_⟩
      · refine { hi10 with linkRegions := ?_, frameRegions := ?_, regions := ?_ }
        · simpa only [List.length_set] using hi10.linkRegions
        · simpa only [List.length_set] using hi10.frameRegions
        · simpa only [List.length_set] using hi10.regions
      · intro x
        show x ∈ s10.imports.map Prod.fst ↔ _
        rw [st10.imports, g9.2.2.1 x, im8, g56.2.2.1 x, t4i, lookup_enter hlen.symm]
        tauto
      · intro m imps hf names hp
        have f49 : Final m imps [] s4 s9 := by
          refine ⟨fun j hj hl => ?_, fun j hj hl => ?_, ?_, ?_⟩
          · rw [t4n] at hj
            rw [hf.nodes j hj (by show j < s10.nodes.length; rw [st10.nodes]; exact hl)]
            show s10.nodes[j]? = _
            rw [st10.nodes]
          · rw [t4r, List.length_append, List.length_singleton] at hj
            rw [hf.regions j (by omega) (by show j < (s10.regions.set _ _).length; rw [List.length_set, hr9]; exact hl)]
            show (s10.regions.set _ _)[j]? = _
            rw [List.getElem?_set_ne (by omega), hr9]
          · rw [← st10.terms]; exact hf.terms
          · rw [← st10.imports]; exact hf.imports
        have f46 := f49.left_nil st69
        have f89 : Final m imps (ids.map UInt32.toNat) s8 s9 := (f49.right_nil g56.2.1).alloc_right st8 hlo'
        have r56 := g56.2.2.2 m imps f46
        have r9 := g9.2.2.2 m imps f89
        refine ⟨?_, ?_⟩
        · rw [hf.regions id.toNat (by omega) (by show _ < (s10.regions.set _ _).length; rw [List.length_set]; exact hlt)]
          exact List.getElem?_set_self hlt
        · have key : ∀ own, headNames ls9 <+: own → LinksAre own srcs sources ∧ LinksAre own tgts targets ∧
              RepNodes m { envFor vs fs imps with scopes := introduced cs ids :: scopesFor fs } own cs ids := by
            intro own hown
            have hr := r9 own hown
            simp only [envFor, scopesFor_introduced] at hr
            have p6 := k9.head.trans hown
            exact ⟨r56.1 own (k6.head.trans p6), r56.2 own p6, hr⟩
          cases closed with
          | true => exact ⟨headNames ls9, rfl, key _ List.prefix_rfl⟩
          | false =>
            rw [(hop rfl).2] at hp
            exact ⟨names, rfl, key names hp⟩
    refine (g12.seq gr).imp (fun x => ?_) fun m imps hr names hp => ?_
    · simp only [FreeRegion, or_assoc]
    · obtain ⟨⟨r1, r2⟩, r3⟩ := hr
      obtain ⟨hR, own, hown, a1, a2, a3⟩ := r3 names hp
      simp only [RepRegion]
      refine ⟨_, own, hR, rfl, r1, r2, ?_, a1, a2, ?_, a3⟩
      · cases closed with
        | true =>
          simp only [if_pos] at hown ⊢
          rw [hown]
          exact hsc rfl
        | false =>
          simp only [Bool.false_eq_true, if_false] at hown ⊢
          exact ⟨hown, (hop rfl).1⟩
      · have := g9.1.symbols.2.2.2.names _ (List.mem_cons_self ..)
        simpa [List.map_map, Function.comp_def] using this
termination_by structural t => t
theorem regions_good : ∀ (rs : List Region) (closed : Bool) {s s' : State} {ids : List RegionId} {vs : VarStack}
    {ls : List OpenRegion} {fs : List Frame}, Inv s vs ls fs → fs.length + regionsDepth rs ≤ 65535 →
    resolveRegions rs closed s = .ok ids s' →
    ∃ ls', LinkGrow (if closed then [] else regionsLinks rs) ls ls' ∧
      Good [] fs (fun x => FreeRegions x rs) s s' vs ls'
      fun m imps => ∀ names, headNames ls' <+: names →
        RepRegions m (envFor vs fs imps) (if closed then none else some names) rs ids
  | [], closed, s, s', ids, vs, ls, fs, hi, hd, h => by
    simp only [resolveRegions] at h
    cases h
    refine ⟨ls, ?_, (Good.refl hi).imp (fun x => by simp [FreeRegions]) fun m imps _ names _ => by
      simp only [RepRegions]⟩
    cases closed <;> simp only [regionsLinks, if_pos, Bool.false_eq_true, if_false] <;> exact LinkGrow.refl ls
  | r :: rs, closed, s, s', ids, vs, ls, fs, hi, hd, h => by
    simp only [resolveRegions] at h
    simp only [regionsDepth] at hd
    obtain ⟨id, s1, h1, h⟩ := bind_ok h
    obtain ⟨ids', s2, h2, h⟩ := bind_ok h
    cases h
    obtain ⟨ls1, k1, _, g1⟩ := region_good r closed hi (by omega) h1
    obtain ⟨ls2, k2, g2⟩ := regions_good rs closed g1.1 (by omega) h2
    refine ⟨ls2, ?_, (g1.seq g2).imp (fun y => by simp only [FreeRegions]) fun m imps hr names hp => ?_⟩
    · have := k1.trans k2
      cases closed
      · simpa [regionsLinks] using this
      · simpa using this
    · simp only [RepRegions]
      have a := hr.1 names (k2.head.trans hp)
      have b := hr.2 names hp
      cases closed
      · exact ⟨a, b⟩
      · exact ⟨a, b⟩
termination_by structural t => t
end

end Verif.Resolve
