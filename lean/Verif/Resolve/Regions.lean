import Verif.Resolve.Steps
/-!
# Entering and leaving scopes
-/
namespace Verif.Resolve
open Verif
open Verif.Binary (NodeId LinkIndex RegionId TermId Literal)
open Verif.Scope

theorem allocNodes_ok : ∀ {n : Nat} {s s' : State} {ids : List NodeId}, allocNodes n s = .ok ids s' →
    s.nodes.length ≤ 4294967295 →
    s' = { s with nodes := s.nodes ++ List.replicate n defaultNode } ∧
      ids.map UInt32.toNat = List.range' s.nodes.length n ∧ s.nodes.length + n ≤ 4294967295
  | 0, s, s', ids, h, hs => by
    cases h
    exact ⟨by simp, rfl, hs⟩
  | n + 1, s, s', ids, h, hs => by
    obtain ⟨id, s1, h1, h⟩ := bind_ok h
    obtain ⟨ids', s2, h2, h⟩ := bind_ok h
    cases h
    unfold insertNode at h1
    cases hid : newId s.nodes.length with
    | none => rw [hid] at h1; cases h1
    | some id' =>
      rw [hid] at h1
      cases h1
      obtain ⟨e1, e2⟩ := newId_some hid
      obtain ⟨h3, h4, h5⟩ := allocNodes_ok h2 (by simp only [List.length_append, List.length_singleton]; omega)
      simp only [List.length_append, List.length_singleton] at h4 h5
      refine ⟨?_, ?_, by omega⟩
      · rw [h3]
        simp [List.replicate_succ, List.append_assoc]
      · rw [List.map_cons, h4, e1]
        rfl

theorem Inv.addNodes {s : State} {vs : VarStack} {ls : List OpenRegion} {fs : List Frame} (hi : Inv s vs ls fs)
    {ns : List Binary.Node} (hl : s.nodes.length + ns.length ≤ 4294967295) :
    Inv { s with nodes := s.nodes ++ ns } vs ls fs :=
  { hi with
    varNodes := fun v hv => by
      have := hi.varNodes v hv
      simp only [List.length_append]; omega
    bound := fun f hf b hb => by
      have := hi.bound f hf b hb
      simp only [List.length_append]; omega
    nodes := by simpa only [List.length_append] using hl
    importNodes := fun p hp => by
      have := hi.importNodes p hp
      simp only [List.length_append]; omega }

theorem step_addNodes (s : State) (ns : List Binary.Node) : Step [] s { s with nodes := s.nodes ++ ns } :=
  ⟨by simp, fun j hj _ => List.getElem?_append_left hj, Nat.le_refl _, fun _ _ => rfl, List.prefix_rfl,
    List.prefix_rfl, fun _ hp => Or.inl hp⟩

theorem declareNodes_ok {f0 : Frame} {fr : List Frame} {vs : VarStack} {ls : List OpenRegion} :
    ∀ {cs : List Node} {ids : List NodeId} {s s' : State} {binds : List (String × Nat)},
    Inv s vs ls (⟨f0.region, binds⟩ :: fr) → declareNodes ids cs s = .ok () s' →
    (ids.map UInt32.toNat).Nodup → (∀ i ∈ ids, i.toNat < s.nodes.length) →
    (∀ i ∈ ids, i.toNat ∉ (((⟨f0.region, binds⟩ : Frame) :: fr).flatMap (·.binds)).map Prod.snd) →
    (∃ t, s' = { s with symbols := t }) ∧
      Inv s' vs ls (⟨f0.region, binds ++ (introduced cs ids).map fun p => (p.1, p.2.toNat)⟩ :: fr)
  | [], [], s, s', binds, hi, h, _, _, _ => by
    cases h
    exact ⟨⟨s.symbols, rfl⟩, by simpa [introduced] using hi⟩
  | c :: cs, id :: ids, s, s', binds, hi, h, hn, hl, hb => by
    simp only [declareNodes] at h
    simp only [introduced]
    rw [List.map_cons, List.nodup_cons] at hn
    cases ho : c.operation.symbolName with
    | none =>
      rw [ho] at h
      exact declareNodes_ok hi h hn.2 (fun i hi => hl i (List.mem_cons_of_mem _ hi))
        (fun i hi => hb i (List.mem_cons_of_mem _ hi))
    | some x =>
      rw [ho] at h
      simp only at h
      have ha := symrep_insert s.symbols ⟨f0.region, binds⟩ fr x id.toNat hi.symbols (hb id (by simp))
      cases hr : s.symbols.insert x id.toNat with
      | none => rw [hr] at h; cases h
      | some o =>
        obtain ⟨t, out⟩ := o
        rw [hr] at h ha
        simp only [SymSpec.step] at ha
        cases hfind : Frame.find ⟨f0.region, binds⟩ x with
        | some prev =>
          rw [hfind] at ha
          simp only [StepAgrees] at ha
          rw [ha.1] at h
          cases h
        | none =>
          rw [hfind] at ha
          simp only [StepAgrees] at ha
          obtain ⟨rfl, hrep⟩ := ha
          simp only at h
          have hi' : Inv { s with symbols := t } vs ls (⟨f0.region, binds ++ [(x, id.toNat)]⟩ :: fr) :=
            { hi with
              symbols := hrep
              frameRegions := fun f hf => by
                rcases List.mem_cons.1 hf with rfl | hf
                · exact hi.frameRegions ⟨f0.region, binds⟩ (by simp)
                · exact hi.frameRegions f (by simp [hf])
              bound := fun f hf b hb' => by
                rcases List.mem_cons.1 hf with rfl | hf
                · rcases List.mem_append.1 hb' with hb' | hb'
                  · exact hi.bound ⟨f0.region, binds⟩ (by simp) b hb'
                  · simp at hb'; subst hb'; exact hl id (by simp)
                · exact hi.bound f (by simp [hf]) b hb' }
          obtain ⟨⟨t', e⟩, h2⟩ := declareNodes_ok hi' h hn.2 (fun i hi => hl i (List.mem_cons_of_mem _ hi))
            (fun i hi' => by
              have h1 := hb i (List.mem_cons_of_mem _ hi')
              have h2 : i.toNat ≠ id.toNat := fun e => hn.1 (e ▸ List.mem_map_of_mem hi')
              simp only [List.flatMap_cons, List.map_append, List.mem_append, not_or] at h1 ⊢
              exact ⟨⟨h1.1, by simpa using h2⟩, h1.2⟩)
          refine ⟨⟨t', e⟩, ?_⟩
          simpa [List.append_assoc] using h2
  | [], _ :: _, _, _, _, _, h, _, _, _ => by cases h
  | _ :: _, [], _, _, _, _, h, _, _, _ => by cases h

theorem declareVar_ok {x : String} {s s' : State} {n : Nat} {names : List String} {vr : VarStack}
    {ls : List OpenRegion} {fs : List Frame} (hi : Inv s ((n, names) :: vr) ls fs)
    (h : declareVar x s = .ok () s') :
    x ∉ names ∧ Inv s' ((n, names ++ [x]) :: vr) ls fs ∧ ∃ t, s' = { s with vars := t } := by
  have ha := var_step_agrees s.vars ((n, names) :: vr) (.insert x) hi.vars trivial
  unfold declareVar at h
  simp only [VarTable.step, VarSpec.step] at ha
  cases hr : s.vars.insert x with
  | none => rw [hr] at h; cases h
  | some o =>
    obtain ⟨t, out⟩ := o
    rw [hr] at h ha
    by_cases hx : x ∈ names
    · rw [if_pos hx] at ha
      simp only [StepAgrees] at ha
      rw [ha.1] at h
      cases h
    · rw [if_neg hx] at ha
      by_cases hl : names.length < 65535
      · rw [if_pos hl] at ha
        simp only [StepAgrees] at ha
        obtain ⟨rfl, hrep⟩ := ha
        cases h
        refine ⟨hx, { hi with vars := hrep, varNodes := ?_, varNames := ?_ }, t, rfl⟩
        · intro v hv
          rcases List.mem_cons.1 hv with rfl | hv
          · exact hi.varNodes (n, names) (by simp)
          · exact hi.varNodes v (by simp [hv])
        · intro v hv
          rcases List.mem_cons.1 hv with rfl | hv
          · rw [List.nodup_append]
            exact ⟨hi.varNames (n, names) (by simp), by simp,
              by rintro a ha b hb rfl; simp at hb; subst hb; exact hx ha⟩
          · exact hi.varNames v (by simp [hv])
      · rw [if_neg hl] at ha
        exact ha.elim

theorem exitVars_ok {s s' : State} {v : Nat × List String} {vr : VarStack} {ls : List OpenRegion}
    {fs : List Frame} (hi : Inv s (v :: vr) ls fs) (h : exitVars s = .ok () s') :
    Inv s' vr ls fs ∧ ∃ t, s' = { s with vars := t } := by
  have ha := var_step_agrees s.vars (v :: vr) .exit hi.vars trivial
  unfold exitVars at h
  simp only [VarTable.step, VarSpec.step] at ha
  cases hr : s.vars.exit with
  | none => rw [hr] at h; cases h
  | some t =>
    rw [hr] at h ha
    simp only [Option.map_some, StepAgrees] at ha
    cases h
    exact ⟨{ hi with
        vars := ha.2
        varNodes := fun v hv => hi.varNodes v (by simp [hv])
        varNames := fun v hv => hi.varNames v (by simp [hv]) }, t, rfl⟩

theorem enterVars_ok {s : State} {id : NodeId} {vs : VarStack} {ls : List OpenRegion}
    {fs : List Frame} (hi : Inv s vs ls fs) (hl : id.toNat < s.nodes.length) (hn : id.toNat ∉ vs.map Prod.fst) :
    Inv { s with vars := s.vars.enter id.toNat } ((id.toNat, []) :: vs) ls fs := by
  have ha := var_step_agrees s.vars vs (.enter id.toNat) hi.vars hn
  simp only [VarTable.step, VarSpec.step, StepAgrees] at ha
  refine { hi with vars := ha.2, varNodes := ?_, varNames := ?_ }
  · intro v hv
    rcases List.mem_cons.1 hv with rfl | hv
    · exact hl
    · exact hi.varNodes v hv
  · intro v hv
    rcases List.mem_cons.1 hv with rfl | hv
    · simp
    · exact hi.varNames v hv

theorem exitSymbols_ok {s s' : State} {f : Frame} {vs : VarStack} {ls : List OpenRegion}
    {fs : List Frame} (hi : Inv s vs ls (f :: fs)) (h : exitSymbols s = .ok () s') :
    Inv s' vs ls fs ∧ ∃ t, s' = { s with symbols := t } := by
  obtain ⟨t, ht, hrep⟩ := symrep_exit s.symbols f fs hi.symbols
  unfold exitSymbols at h
  rw [ht] at h
  cases h
  exact ⟨{ hi with
      symbols := hrep
      frameRegions := fun g hg => hi.frameRegions g (by simp [hg])
      bound := fun g hg => hi.bound g (by simp [hg]) }, t, rfl⟩

theorem exitLinks_ok {s s' : State} {f : OpenRegion} {sc : Binary.RegionScope} {vs : VarStack} {ls : List OpenRegion}
    {fs : List Frame} (hi : Inv s vs (f :: ls) fs) (h : exitLinks s = .ok sc s') :
    Inv s' vs ls fs ∧ (∃ t, s' = { s with links := t }) ∧ sc.links.toNat = f.names.length ∧
      sc.ports.toNat = f.uses := by
  have ha := link_step_agrees s.links (f :: ls) .exit hi.links trivial
  unfold exitLinks at h
  simp only [LinkTable.step, LinkSpec.step] at ha
  have hu := hi.linkUses f (by simp)
  have hle : f.names.length ≤ f.uses := by
    have := hi.links
    cases hsc : s.links.scopes with
    | nil => rw [hsc] at this; exact this.elim
    | cons sc scs => rw [hsc] at this; exact this.2.2.2.1
  cases hr : s.links.exit with
  | none => rw [hr] at h; cases h
  | some o =>
    obtain ⟨t, out⟩ := o
    rw [hr] at h ha
    simp only [StepAgrees] at ha
    obtain ⟨rfl, hrep⟩ := ha
    cases h
    refine ⟨{ hi with
        links := hrep
        linkRegions := fun g hg => hi.linkRegions g (by simp [hg])
        linkNames := fun g hg => hi.linkNames g (by simp [hg])
        linkUses := fun g hg => hi.linkUses g (by simp [hg]) }, ⟨t, rfl⟩, ?_, ?_⟩
    · exact UInt32.toNat_ofNat_of_lt' (by simp [UInt32.size]; omega)
    · exact UInt32.toNat_ofNat_of_lt' (by simp [UInt32.size]; omega)

/-- The stack of links after a region is entered. -/
def enterLinks (id : RegionId) (closed : Bool) (ls : List OpenRegion) : List OpenRegion :=
  if closed then ⟨id.toNat, [], 0⟩ :: ls else ls

theorem enterRegion_ok {s : State} {id : RegionId} {closed : Bool} {vs : VarStack} {ls : List OpenRegion}
    {fs : List Frame} (hi : Inv s vs ls fs) (hid : newId s.regions.length = some id) (hd : fs.length < 65535) :
    Inv (enterRegion id closed { s with regions := s.regions ++ [defaultRegion] }) vs (enterLinks id closed ls)
      (⟨id.toNat, []⟩ :: fs) := by
  obtain ⟨e1, e2⟩ := newId_some hid
  have hs := sym_step_agrees s.symbols fs (.enter id.toNat) hi.symbols
    ⟨⟨by
      intro hc
      obtain ⟨f, hf, he⟩ := List.mem_map.1 hc
      have := hi.frameRegions f hf
      omega, hd⟩, fun _ h => by cases h⟩
  simp only [SymbolTable.step, SymSpec.step, StepAgrees] at hs
  have hk := link_step_agrees s.links ls (.enter id.toNat) hi.links (by
      intro hc
      obtain ⟨f, hf, he⟩ := List.mem_map.1 hc
      have := hi.linkRegions f hf
      omega)
  simp only [LinkTable.step, LinkSpec.step, StepAgrees] at hk
  have hlr : ∀ f ∈ ls, f.region < (s.regions ++ [defaultRegion]).length := by
    intro f hf
    have := hi.linkRegions f hf
    simp only [List.length_append, List.length_singleton]; omega
  refine { hi with
    links := ?_, symbols := hs.2, linkRegions := ?_, linkNames := ?_, linkUses := ?_, frameRegions := ?_, bound := ?_,
    regions := ?_ }
  · cases closed
    · exact hi.links
    · exact hk.2
  · cases closed
    · exact hlr
    · intro f hf
      rcases List.mem_cons.1 hf with rfl | hf
      · show id.toNat < (s.regions ++ [defaultRegion]).length
        simp [e1]
      · exact hlr f hf
  · cases closed
    · exact hi.linkNames
    · intro f hf
      rcases List.mem_cons.1 hf with rfl | hf
      · simp
      · exact hi.linkNames f hf
  · cases closed
    · exact hi.linkUses
    · intro f hf
      rcases List.mem_cons.1 hf with rfl | hf
      · simp
      · exact hi.linkUses f hf
  · intro f hf
    show f.region < (s.regions ++ [defaultRegion]).length
    rcases List.mem_cons.1 hf with rfl | hf
    · simp [e1]
    · have := hi.frameRegions f hf
      simp only [List.length_append, List.length_singleton]; omega
  · intro f hf
    rcases List.mem_cons.1 hf with rfl | hf
    · intro b hb; cases hb
    · exact hi.bound f hf
  · show (s.regions ++ [defaultRegion]).length ≤ _
    simp only [List.length_append, List.length_singleton]; omega

theorem scopesFor_introduced (cs : List Node) (ids : List NodeId) (r : Nat) (fs : List Frame) :
    scopesFor (⟨r, (introduced cs ids).map fun p => (p.1, p.2.toNat)⟩ :: fs) = introduced cs ids :: scopesFor fs := by
  simp [scopesFor, List.map_map, Function.comp_def]

theorem introduced_names : ∀ {cs : List Node} {ids : List NodeId}, cs.length = ids.length →
    (introduced cs ids).map Prod.fst = introducedNames cs
  | [], [], _ => rfl
  | c :: cs, id :: ids, h => by
    have ih := introduced_names (cs := cs) (ids := ids) (by simpa using h)
    simp only [introduced, introducedNames, List.filterMap_cons] at ih ⊢
    cases c.operation.symbolName with
    | none => exact ih
    | some x => simp [ih]
  | [], _ :: _, h => by simp at h
  | _ :: _, [], h => by simp at h

theorem lookup_enter {cs : List Node} {ids : List NodeId} (hl : cs.length = ids.length) (r : Nat) (fs : List Frame)
    (x : String) : SymSpec.lookup (⟨r, (introduced cs ids).map fun p => (p.1, p.2.toNat)⟩ :: fs) x = none ↔
      x ∉ introducedNames cs ∧ SymSpec.lookup fs x = none := by
  have : Frame.find ⟨r, (introduced cs ids).map fun p => (p.1, p.2.toNat)⟩ x = none ↔ x ∉ introducedNames cs := by
    rw [← introduced_names hl]
    simp only [Frame.find, Option.map_eq_none_iff, List.find?_eq_none, decide_eq_true_eq, List.mem_map, not_exists,
      not_and]
    constructor
    · intro h p hp e
      exact h (p.1, p.2.toNat) ⟨p, hp, rfl⟩ e
    · rintro h q ⟨p, hp, rfl⟩ e
      exact h p hp e
  rw [← this]
  simp only [SymSpec.lookup]
  cases Frame.find ⟨r, (introduced cs ids).map fun p => (p.1, p.2.toNat)⟩ x with
  | none => simp
  | some n => simp

end Verif.Resolve
