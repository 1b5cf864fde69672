import Verif.Resolve.Scoped
/-!
# Well-scoped modules that are not too large can be resolved
-/
namespace Verif.Resolve
open Verif
open Verif.Binary (NodeId LinkIndex RegionId TermId Literal)
open Verif.Scope

/-- How many entries the tables have. -/
def load (s : State) : Nat := s.nodes.length + s.regions.length + s.terms.length

/-- The call gives no error; if it fits then it does not panic and the tables have at most `b` entries after it. -/
def Runs {α : Type} (fits : Prop) (b : Nat) : R α → Prop
  | .ok _ s => fits → load s ≤ b
  | .error _ => False
  | .panic => ¬ fits

theorem Runs.bind {α β : Type} {fits : Prop} {b1 b2 : Nat} {r : R α} {f : α → State → R β} (h : Runs fits b1 r)
    (hf : ∀ a s, r = .ok a s → (fits → load s ≤ b1) → Runs fits b2 (f a s)) : Runs fits b2 (r.bind f) := by
  cases r with
  | ok a s => exact hf a s rfl h
  | error e => exact h.elim
  | panic => exact h

theorem Runs.mono {α : Type} {fits : Prop} {b1 b2 : Nat} {r : R α} (h : Runs fits b1 r) (hb : b1 ≤ b2) :
    Runs fits b2 r := by
  cases r with
  | ok a s => exact fun hf => Nat.le_trans (h hf) hb
  | error e => exact h.elim
  | panic => exact h

/-- The names of the variables in scope. -/
def topNames : VarStack → List String
  | [] => []
  | v :: _ => v.2

/-- How many ports the innermost closed region has so far. -/
def headUses : List OpenRegion → Nat
  | [] => 0
  | f :: _ => f.uses

theorem LinkGrow.uses {xs : List String} : ∀ {a b : List OpenRegion}, LinkGrow xs a b → a ≠ [] →
    b ≠ [] ∧ headUses b = headUses a + xs.length
  | [], _, _, h => absurd rfl h
  | _ :: _, [], h, _ => h.elim
  | _ :: _, _ :: _, h, _ => ⟨by simp, h.2.2.2.2⟩

theorem newId_of_lt {n : Nat} (h : n < 4294967295) : newId n = some (UInt32.ofNat n) := if_pos h

theorem internTerm_runs {t : Binary.Term} {s : State} {fits : Prop} {b : Nat}
    (hb : fits → load s ≤ b ∧ b + 1 ≤ 4294967295) : Runs fits (b + 1) (internTerm t s) := by
  unfold internTerm
  cases hf : s.terms.findIdx? (sameTerm t) with
  | some i =>
    have hi : i < s.terms.length := by
      rw [List.findIdx?_eq_some_iff_getElem] at hf
      exact hf.1
    simp only []
    cases hn : newId i with
    | some id => exact fun hf => Nat.le_succ_of_le (hb hf).1
    | none =>
      intro hf
      have := hb hf
      unfold load at this
      rw [newId_of_lt (by omega)] at hn
      cases hn
  | none =>
    simp only []
    cases hn : newId s.terms.length with
    | some id =>
      intro hf
      have := hb hf
      simp only [load, List.length_append, List.length_singleton] at this ⊢
      omega
    | none =>
      intro hf
      have := hb hf
      unfold load at this
      rw [newId_of_lt (by omega)] at hn
      cases hn

theorem resolveVar_runs {x : String} {s : State} {vs : VarStack} {ls : List OpenRegion} {fs : List Frame} {fits : Prop}
    {b : Nat} (hi : Inv s vs ls fs) (hx : x ∈ topNames vs) (hb : fits → load s ≤ b) :
    Runs fits b (resolveVar x s) := by
  have ha := var_step_agrees s.vars vs (.resolve x) hi.vars trivial
  unfold resolveVar
  cases vs with
  | nil => cases hx
  | cons v vr =>
    obtain ⟨n, names⟩ := v
    have hx' : x ∈ names := hx
    simp only [VarTable.step, VarSpec.step, if_pos hx'] at ha
    cases hr : s.vars.resolve x with
    | none => rw [hr] at ha; exact ha.elim
    | some o =>
      simp only [hr, Option.map_some, StepAgrees] at ha
      rw [ha.1]
      exact hb

theorem insertNode_runs {n : Binary.Node} {s : State} {fits : Prop} {b : Nat}
    (hb : fits → load s ≤ b ∧ b + 1 ≤ 4294967295) : Runs fits (b + 1) (insertNode n s) := by
  unfold insertNode
  cases hn : newId s.nodes.length with
  | some id =>
    intro hf
    have := hb hf
    simp only [load, List.length_append, List.length_singleton] at this ⊢
    omega
  | none =>
    intro hf
    have := hb hf
    unfold load at this
    rw [newId_of_lt (by omega)] at hn
    cases hn

theorem insertRegion_runs {n : Binary.Region} {s : State} {fits : Prop} {b : Nat}
    (hb : fits → load s ≤ b ∧ b + 1 ≤ 4294967295) : Runs fits (b + 1) (insertRegion n s) := by
  unfold insertRegion
  cases hn : newId s.regions.length with
  | some id =>
    intro hf
    have := hb hf
    simp only [load, List.length_append, List.length_singleton] at this ⊢
    omega
  | none =>
    intro hf
    have := hb hf
    unfold load at this
    rw [newId_of_lt (by omega)] at hn
    cases hn

theorem resolveSymbolName_runs {x : String} {s : State} {vs : VarStack} {ls : List OpenRegion} {fs : List Frame}
    {fits : Prop} {b : Nat} (hi : Inv s vs ls fs) (hb : fits → load s ≤ b ∧ b + 1 ≤ 4294967295) :
    Runs fits (b + 1) (resolveSymbolName x s) := by
  unfold resolveSymbolName
  rw [symrep_resolve s.symbols fs x hi.symbols]
  cases SymSpec.lookup fs x with
  | some k => exact fun hf => Nat.le_succ_of_le (hb hf).1
  | none =>
    simp only []
    cases s.imports.lookup x with
    | some k => exact fun hf => Nat.le_succ_of_le (hb hf).1
    | none => exact (insertNode_runs hb).bind fun a s' _ h => h

theorem resolveLinks_runs : ∀ {xs : List String} {s : State} {vs : VarStack} {ls : List OpenRegion} {fs : List Frame}
    {fits : Prop} {b : Nat}, Inv s vs ls fs → ls ≠ [] → (fits → load s ≤ b ∧ headUses ls + xs.length ≤ 4294967295) →
    Runs fits b (resolveLinks xs s)
  | [], s, vs, ls, fs, fits, b, _, _, hb => fun hf => (hb hf).1
  | x :: xs, s, vs, ls, fs, fits, b, hi, hne, hb => by
    have h1 : Runs fits b (resolveLink x s) := by
      have ha := link_step_agrees s.links ls (.useLink x) hi.links trivial
      unfold resolveLink
      cases ls with
      | nil => exact absurd rfl hne
      | cons f r =>
        simp only [LinkTable.step, LinkSpec.step] at ha
        by_cases hu : f.uses + 1 < 2 ^ 32
        · rw [if_pos hu] at ha
          cases hr : s.links.useLink x with
          | none => rw [hr] at ha; exact ha.elim
          | some o =>
            obtain ⟨t, out⟩ := o
            rw [hr] at ha
            simp only [StepAgrees] at ha
            rw [ha.1]
            exact fun hf => (hb hf).1
        · rw [if_neg hu] at ha
          cases hr : s.links.useLink x with
          | none =>
            intro hf
            have := (hb hf).2
            simp only [headUses, List.length_cons] at this
            omega
          | some o =>
            obtain ⟨t, out⟩ := o
            rw [hr] at ha
            exact ha.elim
    refine h1.bind fun i s1 hr h1 => ?_
    obtain ⟨ls1, k1, g1⟩ := resolveLink_good hi hr
    obtain ⟨hne1, hu1⟩ := k1.uses hne
    refine (resolveLinks_runs g1.1 hne1 fun hf => ⟨h1 hf, ?_⟩).bind fun is s2 _ h2 => h2
    have := (hb hf).2
    rw [hu1]
    simp only [List.length_cons, List.length_singleton, List.length_nil] at this ⊢
    omega

theorem allocNodes_runs : ∀ {n : Nat} {s : State} {fits : Prop} {b : Nat}, (fits → load s ≤ b ∧ b + n ≤ 4294967295) →
    Runs fits (b + n) (allocNodes n s)
  | 0, s, fits, b, hb => fun hf => (hb hf).1
  | n + 1, s, fits, b, hb => by
    refine (insertNode_runs (b := b) fun hf => ⟨(hb hf).1, by have := hb hf; omega⟩).bind fun i s1 _ h1 => ?_
    refine (allocNodes_runs (b := b + 1) fun hf => ⟨h1 hf, by have := hb hf; omega⟩).bind fun is s2 _ h2 => ?_
    exact fun hf => by have := h2 hf; omega

theorem declareNodes_runs {f0 : Frame} {fr : List Frame} {vs : VarStack} {ls : List OpenRegion} {fits : Prop} {b : Nat} :
    ∀ {cs : List Node} {ids : List NodeId} {s : State} {binds : List (String × Nat)},
    Inv s vs ls (⟨f0.region, binds⟩ :: fr) → cs.length = ids.length →
    (ids.map UInt32.toNat).Nodup → (∀ i ∈ ids, i.toNat < s.nodes.length) →
    (∀ i ∈ ids, i.toNat ∉ (((⟨f0.region, binds⟩ : Frame) :: fr).flatMap (·.binds)).map Prod.snd) →
    (binds.map Prod.fst ++ introducedNames cs).Nodup → (fits → load s ≤ b) → Runs fits b (declareNodes ids cs s)
  | [], [], s, binds, hi, _, _, _, _, _, hf => hf
  | c :: cs, id :: ids, s, binds, hi, hlen, hn, hl, hb, hd, hf => by
    simp only [declareNodes]
    rw [List.map_cons, List.nodup_cons] at hn
    simp only [introducedNames, List.filterMap_cons] at hd
    cases ho : c.operation.symbolName with
    | none =>
      rw [ho] at hd
      exact declareNodes_runs hi (by simpa using hlen) hn.2 (fun i hi => hl i (List.mem_cons_of_mem _ hi))
        (fun i hi => hb i (List.mem_cons_of_mem _ hi)) hd hf
    | some x =>
      rw [ho] at hd
      simp only at hd ⊢
      have ha := symrep_insert s.symbols ⟨f0.region, binds⟩ fr x id.toNat hi.symbols (hb id (by simp))
      have hfind : Frame.find ⟨f0.region, binds⟩ x = none := by
        simp only [Frame.find, Option.map_eq_none_iff, List.find?_eq_none, decide_eq_true_eq]
        intro p hp e
        rw [List.nodup_append] at hd
        exact hd.2.2 p.1 (List.mem_map_of_mem hp) x (by simp) e
      simp only [SymSpec.step, hfind] at ha
      cases hr : s.symbols.insert x id.toNat with
      | none => rw [hr] at ha; exact ha.elim
      | some o =>
        obtain ⟨t, out⟩ := o
        rw [hr] at ha
        simp only [StepAgrees] at ha
        obtain ⟨rfl, hrep⟩ := ha
        simp only
        have hi' : Inv { s with symbols := t } vs ls (⟨f0.region, binds ++ [(x, id.toNat)]⟩ :: fr) :=
          { hi with
            symbols := hrep
            frameRegions := fun f hf => by
              rcases List.mem_cons.1 hf with rfl | hf
              · exact hi.frameRegions ⟨f0.region, binds⟩ (by simp)
              · exact hi.frameRegions f (by simp [hf])
            bound := fun f hf b hb' => by
              rcases List.mem_cons.1 hf with rfl | hf
              · rcases List.mem_append.1 hb' with hb' | hb'
                · exact hi.bound ⟨f0.region, binds⟩ (by simp) b hb'
                · simp at hb'; subst hb'; exact hl id (by simp)
              · exact hi.bound f (by simp [hf]) b hb' }
        refine declareNodes_runs hi' (by simpa using hlen) hn.2 (fun i hi => hl i (List.mem_cons_of_mem _ hi))
          (fun i hi' => ?_) ?_ hf
        · have h1 := hb i (List.mem_cons_of_mem _ hi')
          have h2 : i.toNat ≠ id.toNat := fun e => hn.1 (e ▸ List.mem_map_of_mem hi')
          simp only [List.flatMap_cons, List.map_append, List.mem_append, not_or] at h1 ⊢
          exact ⟨⟨h1.1, by simpa using h2⟩, h1.2⟩
        · simpa [introducedNames, List.append_assoc] using hd
  | [], _ :: _, _, _, _, h, _, _, _, _, _ => by simp at h
  | _ :: _, [], _, _, _, h, _, _, _, _, _ => by simp at h

/-- The ids of the nodes of a region and their symbols. -/
theorem children_runs {cs : List Node} {s : State} {vs : VarStack} {ls : List OpenRegion} {r : Nat} {fs : List Frame}
    {fits : Prop} {b c : Nat} {α : Type} {k : List NodeId → State → R α} (hi : Inv s vs ls (⟨r, []⟩ :: fs))
    (hd : (introducedNames cs).Nodup) (hb : fits → load s ≤ b ∧ b + cs.length ≤ 4294967295)
    (hk : ∀ ids s7 s8, allocNodes cs.length s = .ok ids s7 → declareNodes ids cs s7 = .ok () s8 →
      (fits → load s8 ≤ b + cs.length) → Runs fits c (k ids s8)) :
    Runs fits c ((allocNodes cs.length s).bind fun ids s => (declareNodes ids cs s).bind fun _ s => k ids s) := by
  refine (allocNodes_runs hb).bind fun ids s7 ha h7 => ?_
  obtain ⟨e7, hids, hlen⟩ := allocNodes_ok ha hi.nodes
  obtain ⟨hn, hlo, hhi, hl⟩ := ids_of_alloc hids
  have hi7 : Inv s7 vs ls (⟨r, []⟩ :: fs) := by
    rw [e7]
    exact hi.addNodes (by simpa using hlen)
  have hl7 : s7.nodes.length = s.nodes.length + cs.length := by rw [e7]; simp
  refine (declareNodes_runs (f0 := ⟨r, []⟩) (b := b + cs.length) hi7 hl.symm hn (fun i hi => by rw [hl7]; exact hhi i hi)
    (fun i hi' hc => by
      obtain ⟨b, hb, e⟩ := List.mem_map.1 hc
      obtain ⟨f, hf, hb⟩ := List.mem_flatMap.1 hb
      have := hi.bound f hf b hb
      have := hlo i hi'
      omega) (by simpa using hd) h7).bind fun _ s8 hd h8 => ?_
  exact hk ids s7 s8 ha hd h8

theorem declareVar_runs {x : String} {s : State} {n : Nat} {names : List String} {vr : VarStack}
    {ls : List OpenRegion} {fs : List Frame} {fits : Prop} {b : Nat} (hi : Inv s ((n, names) :: vr) ls fs)
    (hx : x ∉ names) (hb : fits → load s ≤ b ∧ names.length < 65535) : Runs fits b (declareVar x s) := by
  have ha := var_step_agrees s.vars ((n, names) :: vr) (.insert x) hi.vars trivial
  unfold declareVar
  simp only [VarTable.step, VarSpec.step, if_neg hx] at ha
  by_cases hl : names.length < 65535
  · rw [if_pos hl] at ha
    cases hr : s.vars.insert x with
    | none => rw [hr] at ha; exact ha.elim
    | some o =>
      obtain ⟨t, out⟩ := o
      rw [hr] at ha
      simp only [StepAgrees] at ha
      rw [ha.1]
      exact fun hf => (hb hf).1
  · rw [if_neg hl] at ha
    cases hr : s.vars.insert x with
    | none => exact fun hf => hl (hb hf).2
    | some o => rw [hr] at ha; exact ha.elim

theorem exitVars_runs {s : State} {v : Nat × List String} {vr : VarStack} {ls : List OpenRegion} {fs : List Frame}
    {fits : Prop} {b : Nat} (hi : Inv s (v :: vr) ls fs) (hb : fits → load s ≤ b) : Runs fits b (exitVars s) := by
  have ha := var_step_agrees s.vars (v :: vr) .exit hi.vars trivial
  unfold exitVars
  simp only [VarTable.step, VarSpec.step] at ha
  cases hr : s.vars.exit with
  | none => rw [hr] at ha; exact ha.elim
  | some t => exact hb

theorem exitSymbols_runs {s : State} {f : Frame} {vs : VarStack} {ls : List OpenRegion} {fs : List Frame}
    {fits : Prop} {b : Nat} (hi : Inv s vs ls (f :: fs)) (hb : fits → load s ≤ b) : Runs fits b (exitSymbols s) := by
  obtain ⟨t, ht, hrep⟩ := symrep_exit s.symbols f fs hi.symbols
  unfold exitSymbols
  rw [ht]
  exact hb

theorem exitLinks_runs {s : State} {f : OpenRegion} {vs : VarStack} {ls : List OpenRegion} {fs : List Frame}
    {fits : Prop} {b : Nat} (hi : Inv s vs (f :: ls) fs) (hb : fits → load s ≤ b) : Runs fits b (exitLinks s) := by
  have ha := link_step_agrees s.links (f :: ls) .exit hi.links trivial
  unfold exitLinks
  simp only [LinkTable.step, LinkSpec.step] at ha
  cases hr : s.links.exit with
  | none => rw [hr] at ha; exact ha.elim
  | some o =>
    obtain ⟨t, out⟩ := o
    rw [hr] at ha
    simp only [StepAgrees] at ha
    rw [ha.1]
    exact hb

mutual
theorem nodeLinks_size : ∀ n : Node, (nodeLinks n).length ≤ nodeSize n
  | .mk o ins outs rs ms sig => by
    have := regionsLinks_size rs
    rw [nodeLinks_eq]
    simp only [nodeSize, List.length_append]
    split
    · simp only [List.length_nil]; omega
    · omega
termination_by structural t => t
theorem nodesLinks_size : ∀ n : List Node, (nodesLinks n).length ≤ nodesSize n
  | [] => by simp [nodesLinks]
  | n :: ns => by
    have := nodeLinks_size n
    have := nodesLinks_size ns
    simp only [nodesLinks, nodesSize, List.length_append]
    omega
termination_by structural t => t
theorem regionLinks_size : ∀ r : Region, (regionLinks r).length ≤ regionSize r
  | .mk k srcs tgts cs ms sig => by
    have := nodesLinks_size cs
    simp only [regionLinks, regionSize, List.length_append]
    omega
termination_by structural t => t
theorem regionsLinks_size : ∀ r : List Region, (regionsLinks r).length ≤ regionsSize r
  | [] => by simp [regionsLinks]
  | n :: ns => by
    have := regionLinks_size n
    have := regionsLinks_size ns
    simp only [regionsLinks, regionsSize, List.length_append]
    omega
termination_by structural t => t
end

theorem topNames_inside (id : NodeId) (o : Operation) (vs : VarStack) :
    topNames (insideVars id o vs) = match o.symbol with | some y => y.params.map Param.name | none => topNames vs := by
  unfold insideVars
  cases o.symbol <;> rfl

mutual
theorem term_runs : ∀ (t : Term) {s : State} {vs : VarStack} {ls : List OpenRegion} {fs : List Frame} {fits : Prop}
    {b : Nat}, Inv s vs ls fs → fs.length + termDepth t ≤ 65535 → ScopedTerm (topNames vs) t →
    (fits → load s ≤ b ∧ b + termSize t ≤ 4294967295 ∧ termArity t ≤ 65535) →
    Runs fits (b + termSize t) (resolveTerm t s)
  | .wildcard, s, vs, ls, fs, fits, b, hi, hd, hs, hb => by
    simp only [resolveTerm, termSize] at hb ⊢
    exact internTerm_runs fun hf => ⟨(hb hf).1, (hb hf).2.1⟩
  | .var x, s, vs, ls, fs, fits, b, hi, hd, hs, hb => by
    simp only [resolveTerm, termSize, ScopedTerm] at hs hb ⊢
    exact (resolveVar_runs hi hs fun hf => (hb hf).1).bind fun v s1 _ h1 =>
      internTerm_runs fun hf => ⟨h1 hf, (hb hf).2.1⟩
  | .apply x ts, s, vs, ls, fs, fits, b, hi, hd, hs, hb => by
    simp only [resolveTerm, termSize, ScopedTerm, termDepth, termArity] at hs hb hd ⊢
    refine (resolveSymbolName_runs (b := b) hi fun hf => ⟨(hb hf).1, by have := hb hf; omega⟩).bind fun n s1 hr h1 => ?_
    have g1 := resolveSymbolName_good hi hr
    refine (terms_runs ts (b := b + 1) g1.1 hd hs fun hf => ⟨h1 hf, by have := hb hf; omega⟩).bind fun ids s2 hr h2 => ?_
    exact (internTerm_runs fun hf => ⟨h2 hf, by have := hb hf; omega⟩).mono (by omega)
  | .list ps, s, vs, ls, fs, fits, b, hi, hd, hs, hb => by
    simp only [resolveTerm, termSize, ScopedTerm, termDepth, termArity] at hs hb hd ⊢
    refine (parts_runs ps (b := b) hi hd hs fun hf => ⟨(hb hf).1, by have := hb hf; omega⟩).bind fun ids s2 hr h2 => ?_
    exact (internTerm_runs fun hf => ⟨h2 hf, by have := hb hf; omega⟩).mono (by omega)
  | .literal l, s, vs, ls, fs, fits, b, hi, hd, hs, hb => by
    simp only [resolveTerm, termSize] at hb ⊢
    exact internTerm_runs fun hf => ⟨(hb hf).1, (hb hf).2.1⟩
  | .tuple ps, s, vs, ls, fs, fits, b, hi, hd, hs, hb => by
    simp only [resolveTerm, termSize, ScopedTerm, termDepth, termArity] at hs hb hd ⊢
    refine (parts_runs ps (b := b) hi hd hs fun hf => ⟨(hb hf).1, by have := hb hf; omega⟩).bind fun ids s2 hr h2 => ?_
    exact (internTerm_runs fun hf => ⟨h2 hf, by have := hb hf; omega⟩).mono (by omega)
  | .func r, s, vs, ls, fs, fits, b, hi, hd, hs, hb => by
    simp only [resolveTerm, termSize, ScopedTerm, termDepth, termArity] at hs hb hd ⊢
    refine (region_runs r true (b := b) hi hd hs (fun h => by cases h) (fun hf => ⟨(hb hf).1, by have := hb hf; omega⟩)
      (fun h => by cases h)).bind fun ids s2 hr h2 => ?_
    exact (internTerm_runs fun hf => ⟨h2 hf, by have := hb hf; omega⟩).mono (by omega)
termination_by structural t => t
theorem terms_runs : ∀ (ts : List Term) {s : State} {vs : VarStack} {ls : List OpenRegion} {fs : List Frame} {fits : Prop}
    {b : Nat}, Inv s vs ls fs → fs.length + termsDepth ts ≤ 65535 → ScopedTerms (topNames vs) ts →
    (fits → load s ≤ b ∧ b + termsSize ts ≤ 4294967295 ∧ termsArity ts ≤ 65535) →
    Runs fits (b + termsSize ts) (resolveTerms ts s)
  | [], s, vs, ls, fs, fits, b, hi, hd, hs, hb => by
    simp only [resolveTerms, termsSize]
    exact fun hf => (hb hf).1
  | t :: ts, s, vs, ls, fs, fits, b, hi, hd, hs, hb => by
    simp only [resolveTerms, termsSize, ScopedTerms, termsDepth, termsArity] at hs hb hd ⊢
    refine (term_runs t (b := b) hi (by omega) hs.1 fun hf => ⟨(hb hf).1, by have := hb hf; omega⟩).bind fun id s1 hr h1 => ?_
    refine (terms_runs ts (b := b + termSize t) (term_good t hi (by omega) hr).1 (by omega) hs.2 fun hf =>
      ⟨h1 hf, by have := hb hf; omega⟩).bind fun ids s2 hr h2 => ?_
    exact fun hf => by have := h2 hf; omega
termination_by structural t => t
theorem option_runs : ∀ (t : Option Term) {s : State} {vs : VarStack} {ls : List OpenRegion} {fs : List Frame}
    {fits : Prop} {b : Nat}, Inv s vs ls fs → fs.length + optionDepth t ≤ 65535 → ScopedOption (topNames vs) t →
    (fits → load s ≤ b ∧ b + optionSize t ≤ 4294967295 ∧ optionArity t ≤ 65535) →
    Runs fits (b + optionSize t) (resolveOption t s)
  | none, s, vs, ls, fs, fits, b, hi, hd, hs, hb => by
    simp only [resolveOption, optionSize]
    exact fun hf => (hb hf).1
  | some t, s, vs, ls, fs, fits, b, hi, hd, hs, hb => by
    simp only [resolveOption, optionSize, ScopedOption, optionDepth, optionArity] at hs hb hd ⊢
    exact (term_runs t (b := b) hi hd hs hb).bind fun id s1 hr h1 => h1
termination_by structural t => t
theorem part_runs : ∀ (p : SeqPart) {s : State} {vs : VarStack} {ls : List OpenRegion} {fs : List Frame}
    {fits : Prop} {b : Nat}, Inv s vs ls fs → fs.length + partDepth p ≤ 65535 → ScopedPart (topNames vs) p →
    (fits → load s ≤ b ∧ b + partSize p ≤ 4294967295 ∧ partArity p ≤ 65535) →
    Runs fits (b + partSize p) (resolvePart p s)
  | .item t, s, vs, ls, fs, fits, b, hi, hd, hs, hb => by
    simp only [resolvePart, partSize, ScopedPart, partDepth, partArity] at hs hb hd ⊢
    exact (term_runs t (b := b) hi hd hs hb).bind fun id s1 hr h1 => h1
  | .splice t, s, vs, ls, fs, fits, b, hi, hd, hs, hb => by
    simp only [resolvePart, partSize, ScopedPart, partDepth, partArity] at hs hb hd ⊢
    exact (term_runs t (b := b) hi hd hs hb).bind fun id s1 hr h1 => h1
termination_by structural t => t
theorem parts_runs : ∀ (ps : List SeqPart) {s : State} {vs : VarStack} {ls : List OpenRegion} {fs : List Frame}
    {fits : Prop} {b : Nat}, Inv s vs ls fs → fs.length + partsDepth ps ≤ 65535 → ScopedParts (topNames vs) ps →
    (fits → load s ≤ b ∧ b + partsSize ps ≤ 4294967295 ∧ partsArity ps ≤ 65535) →
    Runs fits (b + partsSize ps) (resolveParts ps s)
  | [], s, vs, ls, fs, fits, b, hi, hd, hs, hb => by
    simp only [resolveParts, partsSize]
    exact fun hf => (hb hf).1
  | t :: ts, s, vs, ls, fs, fits, b, hi, hd, hs, hb => by
    simp only [resolveParts, partsSize, ScopedParts, partsDepth, partsArity] at hs hb hd ⊢
    refine (part_runs t (b := b) hi (by omega) hs.1 fun hf => ⟨(hb hf).1, by have := hb hf; omega⟩).bind fun id s1 hr h1 => ?_
    refine (parts_runs ts (b := b + partSize t) (part_good t hi (by omega) hr).1 (by omega) hs.2 fun hf =>
      ⟨h1 hf, by have := hb hf; omega⟩).bind fun ids s2 hr h2 => ?_
    exact fun hf => by have := h2 hf; omega
termination_by structural t => t
theorem param_runs : ∀ (p : Param) {s : State} {n : Nat} {before : List String} {vr : VarStack} {ls : List OpenRegion}
    {fs : List Frame} {fits : Prop} {b : Nat}, Inv s ((n, before) :: vr) ls fs → fs.length + paramDepth p ≤ 65535 →
    ScopedParam before p → p.name ∉ before →
    (fits → load s ≤ b ∧ b + paramSize p ≤ 4294967295 ∧ paramArity p ≤ 65535 ∧ before.length < 65535) →
    Runs fits (b + paramSize p) (resolveParam p s)
  | .mk x t, s, n, before, vr, ls, fs, fits, b, hi, hd, hs, hx, hb => by
    simp only [resolveParam, paramSize, ScopedParam, paramDepth, paramArity] at hs hb hd ⊢
    refine (term_runs t (b := b) hi hd hs fun hf => ⟨(hb hf).1, (hb hf).2.1, (hb hf).2.2.1⟩).bind fun id s1 hr h1 => ?_
    exact (declareVar_runs (term_good t hi hd hr).1 hx fun hf => ⟨h1 hf, (hb hf).2.2.2⟩).bind fun _ s2 _ h2 => h2
termination_by structural t => t
theorem params_runs : ∀ (ps : List Param) {s : State} {n : Nat} {before : List String} {vr : VarStack}
    {ls : List OpenRegion} {fs : List Frame} {fits : Prop} {b : Nat}, Inv s ((n, before) :: vr) ls fs →
    fs.length + paramsDepth ps ≤ 65535 → ScopedParams before ps →
    (fits → load s ≤ b ∧ b + paramsSize ps ≤ 4294967295 ∧ paramsArity ps ≤ 65535 ∧ before.length + ps.length ≤ 65535) →
    Runs fits (b + paramsSize ps) (resolveParams ps s)
  | [], s, n, before, vr, ls, fs, fits, b, hi, hd, hs, hb => by
    simp only [resolveParams, paramsSize]
    exact fun hf => (hb hf).1
  | p :: ps, s, n, before, vr, ls, fs, fits, b, hi, hd, hs, hb => by
    simp only [resolveParams, paramsSize, ScopedParams, paramsDepth, paramsArity, List.length_cons] at hs hb hd ⊢
    refine (param_runs p (b := b) hi (by omega) hs.1 hs.2.1 fun hf => ⟨(hb hf).1, by have := hb hf; omega⟩).bind
      fun q s1 hr h1 => ?_
    refine (params_runs ps (b := b + paramSize p) (param_good p hi (by omega) hr).2.1 (by omega) hs.2.2 fun hf =>
      ⟨h1 hf, by have := hb hf; simp only [List.length_append, List.length_singleton]; omega⟩).bind fun qs s2 hr h2 => ?_
    exact fun hf => by have := h2 hf; omega
termination_by structural t => t
theorem symbol_runs : ∀ (y : Symbol) {s : State} {n : Nat} {vr : VarStack} {ls : List OpenRegion} {fs : List Frame}
    {fits : Prop} {b : Nat}, Inv s ((n, []) :: vr) ls fs → fs.length + symbolDepth y ≤ 65535 → ScopedSymbol y →
    (fits → load s ≤ b ∧ b + symbolSize y ≤ 4294967295 ∧ symbolArity y ≤ 65535) →
    Runs fits (b + symbolSize y) (resolveSymbol y s)
  | .mk v x ps cs t, s, n, vr, ls, fs, fits, b, hi, hd, hs, hb => by
    simp only [resolveSymbol, symbolSize, ScopedSymbol, symbolDepth, symbolArity] at hs hb hd ⊢
    refine (params_runs ps (b := b) hi (by omega) hs.1 fun hf =>
      ⟨(hb hf).1, by have := hb hf; simp only [List.length_nil]; omega⟩).bind fun qs s1 hr h1 => ?_
    have g1 := params_good ps hi (by omega) hr
    rw [List.nil_append] at g1
    refine (terms_runs cs (b := b + paramsSize ps) g1.1 (by omega) hs.2.1 fun hf =>
      ⟨h1 hf, by have := hb hf; omega⟩).bind fun ids s2 hr h2 => ?_
    have g2 := terms_good cs g1.1 (by omega) hr
    refine (term_runs t (b := b + paramsSize ps + termsSize cs) g2.1 (by omega) hs.2.2 fun hf =>
      ⟨h2 hf, by have := hb hf; omega⟩).bind fun id s3 hr h3 => ?_
    exact fun hf => by have := h3 hf; omega
termination_by structural t => t
theorem operation_runs : ∀ (o : Operation) {s : State} {id : NodeId} {vs : VarStack} {ls : List OpenRegion}
    {fs : List Frame} {fits : Prop} {b : Nat}, Inv s (if o.hasSymbol then (id.toNat, []) :: vs else vs) ls fs →
    fs.length + operationDepth o ≤ 65535 → ScopedOperation (topNames vs) o →
    (fits → load s ≤ b ∧ b + operationSize o ≤ 4294967295 ∧ operationArity o ≤ 65535) →
    Runs fits (b + operationSize o) (resolveOperation o s)
  | .simple k, s, id, vs, ls, fs, fits, b, hi, hd, hs, hb => by
    simp only [resolveOperation, operationSize]
    exact fun hf => (hb hf).1
  | .defineFunc y, s, id, vs, ls, fs, fits, b, hi, hd, hs, hb => by
    simp only [resolveOperation, operationSize, ScopedOperation, operationDepth, operationArity] at hs hb hd ⊢
    exact (symbol_runs y (b := b) hi hd hs hb).bind fun id s1 hr h1 => h1
  | .declare k y, s, id, vs, ls, fs, fits, b, hi, hd, hs, hb => by
    simp only [resolveOperation, operationSize, ScopedOperation, operationDepth, operationArity] at hs hb hd ⊢
    exact (symbol_runs y (b := b) hi hd hs hb).bind fun id s1 hr h1 => h1
  | .defineAlias y t, s, id, vs, ls, fs, fits, b, hi, hd, hs, hb => by
    simp only [resolveOperation, operationSize, ScopedOperation, operationDepth, operationArity] at hs hb hd ⊢
    refine (symbol_runs y (b := b) hi (by omega) hs.1 fun hf => ⟨(hb hf).1, by have := hb hf; omega⟩).bind
      fun q s1 hr h1 => ?_
    refine (term_runs t (b := b + symbolSize y) (symbol_good y hi (by omega) hr).1 (by omega) hs.2 fun hf =>
      ⟨h1 hf, by have := hb hf; omega⟩).bind fun id s2 hr h2 => ?_
    exact fun hf => by have := h2 hf; omega
  | .custom t, s, id, vs, ls, fs, fits, b, hi, hd, hs, hb => by
    simp only [resolveOperation, operationSize, ScopedOperation, operationDepth, operationArity] at hs hb hd ⊢
    exact (term_runs t (b := b) hi hd hs hb).bind fun id s1 hr h1 => h1
  | .import x, s, id, vs, ls, fs, fits, b, hi, hd, hs, hb => by
    simp only [resolveOperation, operationSize]
    exact fun hf => (hb hf).1
termination_by structural t => t
theorem node_runs : ∀ (n : Node) {s : State} {id : NodeId} {vs : VarStack} {ls : List OpenRegion} {fs : List Frame}
    {fits : Prop} {b : Nat}, Inv s vs ls fs → fs.length + nodeDepth n ≤ 65535 → id.toNat < s.nodes.length →
    id.toNat ∉ vs.map Prod.fst → ls ≠ [] → ScopedNode (topNames vs) n →
    (fits → load s ≤ b ∧ b + nodeSize n ≤ 4294967295 ∧ nodeArity n ≤ 65535 ∧ headUses ls + nodeSize n ≤ 4294967295) →
    Runs fits (b + nodeSize n) (resolveNode n id s)
  | .mk o ins outs rs ms sig, s, id, vs, ls, fs, fits, b, hi, hd, hl, hv, hne, hs, hb => by
    simp only [resolveNode, nodeSize, ScopedNode, nodeDepth, nodeArity] at hs hb hd ⊢
    obtain ⟨hs1, hs2, hs3, hs4⟩ := hs
    refine (resolveLinks_runs (b := b) hi hne fun hf => ⟨(hb hf).1, by have := hb hf; omega⟩).bind fun inputs s1 hr1 h1 => ?_
    obtain ⟨ls1, k1, g1⟩ := resolveLinks_good hi hr1
    obtain ⟨hne1, hu1⟩ := k1.uses hne
    refine (resolveLinks_runs (b := b) g1.1 hne1 fun hf => ⟨h1 hf, by have := hb hf; omega⟩).bind fun outputs s2 hr2 h2 => ?_
    obtain ⟨ls2, k2, g2⟩ := resolveLinks_good g1.1 hr2
    obtain ⟨hne2, hu2⟩ := k2.uses hne1
    have g2' : Inv (if o.hasSymbol then { s2 with vars := s2.vars.enter id.toNat } else s2)
        (if o.hasSymbol then (id.toNat, []) :: vs else vs) ls2 fs ∧
        load (if o.hasSymbol then { s2 with vars := s2.vars.enter id.toNat } else s2) = load s2 ∧
        (if o.hasSymbol then { s2 with vars := s2.vars.enter id.toNat } else s2).nodes = s2.nodes := by
      cases o.hasSymbol with
      | false => exact ⟨g2.1, rfl, rfl⟩
      | true => exact ⟨enterVars_ok g2.1 (Nat.lt_of_lt_of_le hl (g1.2.1.trans_nil g2.2.1).nodes_le) hv, rfl, rfl⟩
    refine (operation_runs o (b := b) g2'.1 (by omega) hs1 fun hf =>
      ⟨by rw [g2'.2.1]; exact h2 hf, by have := hb hf; omega⟩).bind fun op s3 hr3 h3 => ?_
    have g3 := operation_good o g2'.1 (by omega) hr3
    have e3 := topNames_inside id o vs
    refine (terms_runs ms (b := b + operationSize o) g3.1 (by omega) (by rw [e3]; exact hs2) fun hf =>
      ⟨h3 hf, by have := hb hf; omega⟩).bind fun ms' s4 hr4 h4 => ?_
    have g4 := terms_good ms g3.1 (by omega) hr4
    refine (regions_runs rs o.closed (b := b + operationSize o + termsSize ms) g4.1 (by omega) (by rw [e3]; exact hs4)
      (fun _ => hne2) (fun hf => ⟨h4 hf, by have := hb hf; omega⟩)
      (fun _ hf => by have := hb hf; omega)).bind fun rs' s5 hr5 h5 => ?_
    obtain ⟨ls5, k5, g5⟩ := regions_good rs o.closed g4.1 (by omega) hr5
    refine (option_runs sig (b := b + operationSize o + termsSize ms + regionsSize rs) g5.1 (by omega)
      (by rw [e3]; exact hs3) fun hf => ⟨h5 hf, by have := hb hf; omega⟩).bind fun sig' s6 hr6 h6 => ?_
    have g6 := option_good sig g5.1 (by omega) hr6
    have h7 : Runs fits (b + operationSize o + termsSize ms + regionsSize rs + optionSize sig)
        (if o.hasSymbol then exitVars s6 else .ok () s6) := by
      cases hy : o.symbol with
      | none =>
        have : o.hasSymbol = false := by simp [Operation.hasSymbol, hy]
        rw [this]
        exact h6
      | some y =>
        have : o.hasSymbol = true := by simp [Operation.hasSymbol, hy]
        rw [this]
        have := g6.1
        simp only [insideVars, hy] at this
        exact exitVars_runs this h6
    refine h7.bind fun _ s7 hr7 h7 => ?_
    have e7 : s7.nodes = s6.nodes := by
      cases hy : o.hasSymbol with
      | false => rw [hy] at hr7; cases hr7; rfl
      | true =>
        rw [hy, if_pos rfl] at hr7
        unfold exitVars at hr7
        cases he : s6.vars.exit with
        | none => rw [he] at hr7; cases hr7
        | some t => rw [he] at hr7; cases hr7; rfl
    have hlt : id.toNat < s7.nodes.length := by
      have a1 := g1.2.1.nodes_le
      have a2 := g2.2.1.nodes_le
      have a3 := g3.2.1.nodes_le
      have a4 := g4.2.1.nodes_le
      have a5 := g5.2.1.nodes_le
      have a6 := g6.2.1.nodes_le
      rw [g2'.2.2] at a3
      rw [e7]
      omega
    rw [if_pos hlt]
    intro hf
    have := h7 hf
    simp only [load, List.length_set] at this ⊢
    omega
termination_by structural t => t
theorem nodes_runs : ∀ (ns : List Node) {s : State} {ids : List NodeId} {vs : VarStack} {ls : List OpenRegion}
    {fs : List Frame} {fits : Prop} {b : Nat}, Inv s vs ls fs → fs.length + nodesDepth ns ≤ 65535 →
    ids.length = ns.length → (∀ id ∈ ids, id.toNat < s.nodes.length) →
    (∀ id ∈ ids, id.toNat ∉ vs.map Prod.fst) → ls ≠ [] → ScopedNodes (topNames vs) ns →
    (fits → load s ≤ b ∧ b + nodesSize ns ≤ 4294967295 ∧ nodesArity ns ≤ 65535 ∧ headUses ls + nodesSize ns ≤ 4294967295) →
    Runs fits (b + nodesSize ns) (resolveNodeList ns ids s)
  | [], s, [], vs, ls, fs, fits, b, hi, hd, hlen, hl, hv, hne, hs, hb => by
    simp only [resolveNodeList, nodesSize]
    exact fun hf => (hb hf).1
  | n :: ns, s, id :: ids, vs, ls, fs, fits, b, hi, hd, hlen, hl, hv, hne, hs, hb => by
    simp only [resolveNodeList, nodesSize, ScopedNodes, nodesDepth, nodesArity] at hs hb hd ⊢
    refine (node_runs n (b := b) hi (by omega) (hl id (by simp)) (hv id (by simp)) hne hs.1 fun hf =>
      ⟨(hb hf).1, by have := hb hf; omega⟩).bind fun _ s1 hr h1 => ?_
    obtain ⟨ls1, k1, g1⟩ := node_good n hi (by omega) (hl id (by simp)) (hv id (by simp)) hr
    obtain ⟨hne1, hu1⟩ := k1.uses hne
    have hsz := nodeLinks_size n
    refine (nodes_runs ns (b := b + nodeSize n) g1.1 (by omega) (by simpa using hlen)
      (fun i hi => Nat.lt_of_lt_of_le (hl i (by simp [hi])) g1.2.1.nodes_le) (fun i hi => hv i (by simp [hi])) hne1 hs.2
      fun hf => ⟨h1 hf, by have := hb hf; omega⟩).mono (by omega)
  | [], _, _ :: _, _, _, _, _, _, _, _, h, _, _, _, _, _ => by simp at h
  | _ :: _, _, [], _, _, _, _, _, _, _, h, _, _, _, _, _ => by simp at h
termination_by structural t => t
theorem region_runs : ∀ (r : Region) (closed : Bool) {s : State} {vs : VarStack} {ls : List OpenRegion}
    {fs : List Frame} {fits : Prop} {b : Nat}, Inv s vs ls fs → fs.length + regionDepth r ≤ 65535 →
    ScopedRegion (topNames vs) r → (closed = false → ls ≠ []) →
    (fits → load s ≤ b ∧ b + regionSize r ≤ 4294967295 ∧ regionArity r ≤ 65535) →
    (closed = false → fits → headUses ls + regionSize r ≤ 4294967295) →
    Runs fits (b + regionSize r) (resolveRegion r closed s)
  | .mk k srcs tgts cs ms sig, closed, s, vs, ls, fs, fits, b, hi, hd, hs, hne, hb, hu => by
    simp only [resolveRegion, regionSize, ScopedRegion, regionDepth, regionArity] at hs hb hd hu ⊢
    obtain ⟨hs1, hs2, hs3, hs4⟩ := hs
    refine (terms_runs ms (b := b) hi (by omega) hs1 fun hf => ⟨(hb hf).1, by have := hb hf; omega⟩).bind
      fun ms' s1 hr1 h1 => ?_
    have g1 := terms_good ms hi (by omega) hr1
    refine (option_runs sig (b := b + termsSize ms) g1.1 (by omega) hs2 fun hf => ⟨h1 hf, by have := hb hf; omega⟩).bind
      fun sig' s2 hr2 h2 => ?_
    have g2 := option_good sig g1.1 (by omega) hr2
    refine (insertRegion_runs (b := b + termsSize ms + optionSize sig) fun hf => ⟨h2 hf, by have := hb hf; omega⟩).bind
      fun rid s3 hr3 h3 => ?_
    unfold insertRegion at hr3
    cases hid : newId s2.regions.length with
    | none => rw [hid] at hr3; cases hr3
    | some rid' =>
    rw [hid] at hr3
    simp only [R.ok.injEq] at hr3
    obtain ⟨rfl, rfl⟩ := hr3
    obtain ⟨e1, e2⟩ := newId_some hid
    have hi4 := enterRegion_ok (closed := closed) g2.1 hid (by omega)
    have hu4 : enterLinks rid' closed ls ≠ [] ∧ (fits → headUses (enterLinks rid' closed ls) + srcs.length + tgts.length +
        nodesSize cs ≤ 4294967295) := by
      cases closed with
      | true => exact ⟨by simp [enterLinks], fun hf => by have := hb hf; simp only [enterLinks, if_pos, headUses]; omega⟩
      | false =>
        exact ⟨hne rfl, fun hf => by
          have := hu rfl hf
          simp only [enterLinks, Bool.false_eq_true, if_false]; omega⟩
    have hl4 : load (enterRegion rid' closed { s2 with regions := s2.regions ++ [defaultRegion] }) =
        load { s2 with regions := s2.regions ++ [defaultRegion] } := rfl
    have ht4 : (enterRegion rid' closed { s2 with regions := s2.regions ++ [defaultRegion] }).regions =
        s2.regions ++ [defaultRegion] := rfl
    generalize enterRegion rid' closed { s2 with regions := s2.regions ++ [defaultRegion] } = s4 at hi4 hl4 ht4 ⊢
    refine (resolveLinks_runs (b := b + termsSize ms + optionSize sig + 1) hi4 hu4.1 fun hf =>
      ⟨by rw [hl4]; exact h3 hf, by have := hu4.2 hf; omega⟩).bind fun sources s5 hr5 h5 => ?_
    obtain ⟨ls5, k5, g5⟩ := resolveLinks_good hi4 hr5
    obtain ⟨hne5, hu5⟩ := k5.uses hu4.1
    refine (resolveLinks_runs (b := b + termsSize ms + optionSize sig + 1) g5.1 hne5 fun hf =>
      ⟨h5 hf, by have := hu4.2 hf; omega⟩).bind fun targets s6 hr6 h6 => ?_
    obtain ⟨ls6, k6, g6⟩ := resolveLinks_good g5.1 hr6
    obtain ⟨hne6, hu6⟩ := k6.uses hne5
    refine children_runs (b := b + termsSize ms + optionSize sig + 1) g6.1 hs3
      (fun hf => ⟨h6 hf, by have := hb hf; omega⟩) fun ids s7 s8 hr7 hr8 h8 => ?_
    obtain ⟨hi8, st8, im8, re8, hnod, hlo, hhi, hfresh, hlen⟩ := children_ok g6.1 hr7 hr8
    refine (nodes_runs cs (b := b + termsSize ms + optionSize sig + 1 + cs.length) hi8
      (by simp only [List.length_cons]; omega) hlen hhi hfresh hne6 hs4 fun hf =>
      ⟨h8 hf, by have := hb hf; have := hu4.2 hf; omega⟩).bind fun _ s9 hr9 h9 => ?_
    obtain ⟨ls9, k9, g9⟩ := nodes_good cs hi8 (by simp only [List.length_cons]; omega) hnod hhi hfresh hr9
    have h10 : Runs fits (b + termsSize ms + optionSize sig + 1 + cs.length + nodesSize cs) (exitRegion closed s9) := by
      cases closed with
      | true =>
        simp only [exitRegion, if_pos]
        have kk := (k5.trans k6).trans k9
        simp only [enterLinks, if_pos] at kk
        cases ls9 with
        | nil => exact kk.elim
        | cons f9 r9 =>
          refine (exitLinks_runs g9.1 h9).bind fun sc sa ha h10 => ?_
          exact (exitSymbols_runs (exitLinks_ok g9.1 ha).1 h10).bind fun _ sb _ h => h
      | false =>
        simp only [exitRegion, Bool.false_eq_true, if_false]
        exact (exitSymbols_runs g9.1 h9).bind fun _ sb _ h => h
    refine h10.bind fun scope s10 hr10 h10 => ?_
    have e10 : s10.regions = s9.regions := by
      cases closed with
      | true =>
        simp only [exitRegion, if_pos] at hr10
        obtain ⟨sc, sa, ha, hr10⟩ := bind_ok hr10
        obtain ⟨_, sb, hb', hr10⟩ := bind_ok hr10
        have kk := (k5.trans k6).trans k9
        simp only [enterLinks, if_pos] at kk
        cases ls9 with
        | nil => exact kk.elim
        | cons f9 r9 =>
          obtain ⟨hia, ⟨t, et⟩, _⟩ := exitLinks_ok g9.1 ha
          obtain ⟨_, t2, et2⟩ := exitSymbols_ok hia hb'
          cases hr10
          rw [et2, et]
      | false =>
        simp only [exitRegion, Bool.false_eq_true, if_false] at hr10
        obtain ⟨_, sb, hb', hr10⟩ := bind_ok hr10
        obtain ⟨_, t2, et2⟩ := exitSymbols_ok g9.1 hb'
        cases hr10
        rw [et2]
    have hlt : rid'.toNat < s10.regions.length := by
      have a5 := g5.2.1.regions_le
      have a6 := g6.2.1.regions_le
      have a9 := g9.2.1.regions_le
      rw [re8] at a9
      rw [ht4, List.length_append, List.length_singleton] at a5
      rw [e10]
      omega
    rw [if_pos hlt]
    intro hf
    have := h10 hf
    simp only [load, List.length_set] at this ⊢
    omega
termination_by structural t => t
theorem regions_runs : ∀ (rs : List Region) (closed : Bool) {s : State} {vs : VarStack} {ls : List OpenRegion}
    {fs : List Frame} {fits : Prop} {b : Nat}, Inv s vs ls fs → fs.length + regionsDepth rs ≤ 65535 →
    ScopedRegions (topNames vs) rs → (closed = false → ls ≠ []) →
    (fits → load s ≤ b ∧ b + regionsSize rs ≤ 4294967295 ∧ regionsArity rs ≤ 65535) →
    (closed = false → fits → headUses ls + regionsSize rs ≤ 4294967295) →
    Runs fits (b + regionsSize rs) (resolveRegions rs closed s)
  | [], closed, s, vs, ls, fs, fits, b, hi, hd, hs, hne, hb, hu => by
    simp only [resolveRegions, regionsSize]
    exact fun hf => (hb hf).1
  | r :: rs, closed, s, vs, ls, fs, fits, b, hi, hd, hs, hne, hb, hu => by
    simp only [resolveRegions, regionsSize, ScopedRegions, regionsDepth, regionsArity] at hs hb hd hu ⊢
    refine (region_runs r closed (b := b) hi (by omega) hs.1 hne (fun hf => ⟨(hb hf).1, by have := hb hf; omega⟩)
      (fun hc hf => by have := hu hc hf; omega)).bind fun id s1 hr h1 => ?_
    obtain ⟨ls1, k1, _, g1⟩ := region_good r closed hi (by omega) hr
    have hsz := regionLinks_size r
    refine (regions_runs rs closed (b := b + regionSize r) g1.1 (by omega) hs.2 (fun hc => ?_)
      (fun hf => ⟨h1 hf, by have := hb hf; omega⟩) (fun hc hf => ?_)).bind fun ids s2 hr h2 => ?_
    · exact (k1.uses (hne hc)).1
    · have := (k1.uses (hne hc)).2
      have := hu hc hf
      subst hc
      simp only [Bool.false_eq_true, if_false] at *
      omega
    · exact fun hf => by have := h2 hf; omega
termination_by structural t => t
end

end Verif.Resolve
