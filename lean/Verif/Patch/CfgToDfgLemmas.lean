import Verif.Patch.SimpleReplaceBridge
import Verif.Patch.CfgToDfg
import Verif.Patch.PeelValid
import Verif.Patch.LinkLemmas
import Verif.Patch.InlineDfgSim
import Verif.Graph.LinkingLemmas

/-!
# What turning a control-flow graph into a dataflow graph gives
-/
namespace Verif.Patch

open Verif.Graph Verif.Ops Verif.Passes Verif.Validate Verif.Dataflow

variable {Meta W E : Type} {C : Validate.Context} {h g : Hugr Ops.Op Meta}

theorem linksOk_of (ht : IsTree h) (hv : Valid C h) : LinksOk h := by
  intro l hl
  obtain ⟨h1, h2⟩ := link_live ht hv hl
  obtain ⟨kind, k1, k2⟩ := link_kinds hv hl
  refine ⟨h1, ?_, h2, ?_⟩
  · rw [(hv.ports _ h1).2]; exact (List.getElem?_eq_some_iff.1 k1).1
  · rw [(hv.ports _ h2).1]; exact (List.getElem?_eq_some_iff.1 k2).1

/-! ## Removing subtrees -/

/-- `g` is `h` without what is below the nodes `cs`. -/
structure WithoutAll (h : Hugr Ops.Op Meta) (cs : List Nat) (g : Hugr Ops.Op Meta) : Prop where
  tree : IsTree g
  linksOk : LinksOk g
  live : ∀ m, g.live m = true ↔ h.live m = true ∧ ∀ c ∈ cs, ¬ Above h.hier.parent m c
  parent : ∀ m, g.live m = true → g.hier.parent m = h.hier.parent m
  children : ∀ m, g.live m = true → g.hier.children m = (h.hier.children m).filter (· ∉ cs)
  ops : ∀ m, g.ops m = if h.live m && !g.live m then .module else h.ops m
  links : g.links = h.links.filter fun l => g.live l.src && g.live l.dst
  rest : g.ins = h.ins ∧ g.outs = h.outs ∧ g.metadata = h.metadata ∧ g.moduleRoot = h.moduleRoot ∧
    g.entrypoint = h.entrypoint

theorem dropSubtrees {G : Nat} : ∀ (cs : List Nat) (h : Hugr Ops.Op Meta), IsTree h → LinksOk h → h.entrypoint = G →
    cs.Nodup → (∀ c ∈ cs, h.hier.parent c = some G) →
    ∃ g, each (fun g c => g.removeSubtree opsInfo.toOpInfo c) h cs = some g ∧ WithoutAll h cs g
  | [], h, ht, hl, _, _, _ => by
    refine ⟨h, rfl, ht, hl, by simp, fun _ _ => rfl, by simp, ?_, ?_, rfl, rfl, rfl, rfl, rfl⟩
    · intro m; cases h.live m <;> rfl
    · symm; rw [List.filter_eq_self]
      intro l hm
      rw [(hl l hm).1, (hl l hm).2.2.1]; rfl
  | c :: cs, h, ht, hl, hG, hn, hc => by
    have hac := ht.acyclic
    have hcG := hc c (by simp)
    have hroot : c ≠ h.moduleRoot := by
      rintro rfl; rw [ht.root_top] at hcG; cases hcG
    rcases removeSubtree_full opsInfo.toOpInfo ht hl c with ⟨g1, e1, inv, _, _⟩ | ⟨_, h2 | h2⟩
    · have w1 := rinv_without ht inv
      have t1 := rinv_tree ht hroot inv
      have l1 := without_linksOk hl w1
      have sib : ∀ x ∈ cs, ¬ Above h.hier.parent x c := by
        intro x hx ha
        have hxc : x ≠ c := by rintro rfl; exact (List.nodup_cons.1 hn).1 hx
        rcases above_cases ha with rfl | ⟨p, hp, hpc⟩
        · exact hxc rfl
        · rw [hc x (by simp [hx])] at hp; cases hp
          exact hac _ _ hcG hpc
      have p1 : ∀ x ∈ cs, g1.hier.parent x = some G := by
        intro x hx
        have hxp := hc x (by simp [hx])
        rw [w1.parent x ((w1.live x).2 ⟨(ht.parent_live _ _ hxp).1, sib x hx⟩)]
        exact hxp
      obtain ⟨g, e2, w2⟩ := dropSubtrees cs g1 t1 l1 (by rw [w1.roots.2]; exact hG) (List.nodup_cons.1 hn).2 p1
      have up : ∀ m x, g1.live m = true → (Above g1.hier.parent m x ↔ Above h.hier.parent m x) := by
        intro m x hm
        refine above_iff_of_eq (live := fun m => g1.live m = true) (fun m hm => w1.parent m hm) ?_ hm
        intro m q hm hq
        rw [← w1.parent m hm] at hq
        exact (t1.parent_live _ _ hq).2
      have lv : ∀ m, g.live m = true ↔ h.live m = true ∧ ∀ x ∈ c :: cs, ¬ Above h.hier.parent m x := by
        intro m
        rw [w2.live]
        constructor
        · rintro ⟨h1, h2⟩
          obtain ⟨h3, h4⟩ := (w1.live m).1 h1
          refine ⟨h3, fun x hx => ?_⟩
          rcases List.mem_cons.1 hx with rfl | hx
          · exact h4
          · rw [← up m x h1]; exact h2 x hx
        · rintro ⟨h1, h2⟩
          have h3 : g1.live m = true := (w1.live m).2 ⟨h1, h2 c (by simp)⟩
          exact ⟨h3, fun x hx => by rw [up m x h3]; exact h2 x (by simp [hx])⟩
      have old : ∀ m, g.live m = true → g1.live m = true := fun m hm => ((w2.live m).1 hm).1
      refine ⟨g, by simp only [each, e1]; exact e2, w2.tree, w2.linksOk, lv, ?_, ?_, ?_, ?_, ?_⟩
      · intro m hm; rw [w2.parent m hm, w1.parent m (old m hm)]
      · intro m hm
        rw [w2.children m hm, w1.children m (old m hm), List.filter_filter]
        apply List.filter_congr
        intro x _
        by_cases h1 : x ∈ cs <;> by_cases h2 : x = c <;> simp [h1, h2]
      · intro m
        rw [w2.ops, inv.ops]
        by_cases h1 : g.live m = true
        · have h2 := old m h1
          simp [h1, h2]
        · by_cases h2 : g1.live m = true
          · have h3 := ((w1.live m).1 h2).1
            simp [h1, h2, h3]
          · by_cases h3 : h.live m = true
            · simp [h1, h2, h3]; rfl
            · simp [h1, h2, h3]
      · rw [w2.links, w1.links, List.filter_filter]
        apply List.filter_congr
        intro l _
        by_cases h1 : g.live l.src = true <;> by_cases h2 : g.live l.dst = true
        · simp [h1, h2, old _ h1, old _ h2]
        all_goals simp [h1, h2]
      · obtain ⟨a1, a2, a3, a4, a5⟩ := w2.rest
        obtain ⟨b1, b2, b3, b4, b5⟩ := inv.rest
        exact ⟨a1.trans b2, a2.trans b3, a3.trans b5, a4.trans b4, a5.trans inv.entry⟩
    · rw [(ht.parent_live _ _ hcG).1] at h2; cases h2
    · rw [hG] at h2
      exact absurd h2 (hac _ _ hcG)

/-! ## The block's contents are lifted -/

/-- A control-flow graph with an entry block that goes to the exit. -/
structure StraightAt (C : Validate.Context) (h : Hugr Ops.Op Meta) (p G E X i o : Nat) (more inner : List Nat)
    (sig : Types.Signature) (row other : List Types.Ty) : Prop where
  tree : IsTree h
  valid : Valid C h
  entry : h.entrypoint = G
  op : h.ops G = .cfg sig
  parent : h.hier.parent G = some p
  children : h.children G = E :: X :: more
  opE : h.ops E = .dataflowBlock sig.input other [row]
  opX : h.ops X = .exitBlock sig.output
  inside : h.children E = i :: o :: inner
  opI : h.ops i = .input sig.input
  opO : h.ops o = .output (sumOf [row] :: other)
  plain : ∀ c ∈ inner, ¬ IsIO (h.ops c)
  outs : sig.output = row ++ other
  /-- The only successor of the entry block is the exit, and it has no predecessor. -/
  succ : ∀ l ∈ h.links, l.src = E → l.dst = X ∧ l.srcPort = 0
  link : ∃ l ∈ h.links, l.src = E
  pred : ∀ l ∈ h.links, l.dst ≠ E
  /-- No constant of the control-flow graph is used in the block. -/
  free : ∀ l ∈ h.links, h.hier.parent l.src = some G → ¬ Above h.hier.parent l.dst E

open Classical in
/-- `g` is `h` with what is in the block `E` moved to `G`, and the rest of `G` removed. -/
structure LiftedOut (h : Hugr Ops.Op Meta) (G E : Nat) (sig : Types.Signature) (g : Hugr Ops.Op Meta) : Prop where
  tree : IsTree g
  live : ∀ x, g.live x = true ↔ h.live x = true ∧ ¬ Goes h G E x
  ops : ∀ x, g.live x = true → g.ops x = if x = G then .dfg sig else h.ops x
  gone : ∀ x, g.live x = false → g.ops x = if h.live x = true then .module else h.ops x
  parent : ∀ x, g.live x = true → g.hier.parent x = if h.hier.parent x = some E then some G else h.hier.parent x
  children : ∀ x, g.live x = true → g.children x = if x = G then h.children E else h.children x
  ports : g.ins = h.ins ∧ g.outs = h.outs
  metadata : g.metadata = h.metadata
  roots : g.moduleRoot = h.moduleRoot ∧ g.entrypoint = h.entrypoint
  links : g.links = h.links.filter fun l => decide (¬ Goes h G E l.src ∧ ¬ Goes h G E l.dst)

namespace StraightAt

variable {p G E X i o : Nat} {more inner : List Nat} {sig : Types.Signature} {row other : List Types.Ty}
  (z : StraightAt C h p G E X i o more inner sig row other)
include z

theorem upE : h.hier.parent E = some G :=
  (z.tree.child_iff _ _).1 (by have := z.children; change h.hier.children G = _ at this; rw [this]; simp)

theorem child_iff {c : Nat} : h.hier.parent c = some G ↔ c = E ∨ c = X ∨ c ∈ more := by
  rw [← z.tree.child_iff]
  change c ∈ h.children G ↔ _
  rw [z.children]; simp

theorem nodup : (E :: X :: more).Nodup := by
  have := z.tree.child_once G
  have e := z.children
  change h.hier.children G = _ at e
  rwa [e] at this

theorem goes_iff {x : Nat} : Goes h G E x ↔ x = E ∨ ∃ c ∈ X :: more, Above h.hier.parent x c := by
  unfold Goes
  constructor
  · rintro (h1 | ⟨c, h1, h2, h3⟩)
    · exact .inl h1
    · refine .inr ⟨c, ?_, h3⟩
      rcases z.child_iff.1 h1 with h1 | h1 | h1
      · exact absurd h1 h2
      · simp [h1]
      · simp [h1]
  · rintro (h1 | ⟨c, h1, h2⟩)
    · exact .inl h1
    · refine .inr ⟨c, z.child_iff.2 (.inr (by simpa using h1)), ?_, h2⟩
      rintro rfl
      exact (List.nodup_cons.1 z.nodup).1 h1

/-- The entry block is not below the other blocks. -/
theorem apart {x c : Nat} (hx : Above h.hier.parent x E) (hc : c ∈ X :: more) : ¬ Above h.hier.parent x c := by
  intro ha
  have hcG : h.hier.parent c = some G := z.child_iff.2 (.inr (by simpa using hc))
  have hne : c ≠ E := by
    rintro rfl
    exact (List.nodup_cons.1 z.nodup).1 hc
  rcases hx.total ha with h1 | h1
  · rcases above_cases h1 with e | ⟨q, hq, hqc⟩
    · exact hne e.symm
    · rw [z.upE] at hq; cases hq
      exact z.tree.acyclic _ _ hcG hqc
  · rcases above_cases h1 with e | ⟨q, hq, hqc⟩
    · exact hne e
    · rw [hcG] at hq; cases hq
      exact z.tree.acyclic _ _ z.upE hqc

theorem G_stays : ¬ Goes h G E G := by
  rw [z.goes_iff]
  rintro (e | ⟨c, hc, ha⟩)
  · have := z.upE
    rw [← e] at this
    exact z.tree.acyclic _ _ this (.refl _)
  · exact z.tree.acyclic _ _ (z.child_iff.2 (.inr (by simpa using hc))) ha

theorem X_goes : Goes h G E X := z.goes_iff.2 (.inr ⟨X, by simp, .refl _⟩)

theorem child_goes {c : Nat} (hc : h.hier.parent c = some G) : Goes h G E c := by
  rcases z.child_iff.1 hc with rfl | rfl | hc
  · exact .inl rfl
  · exact z.X_goes
  · exact z.goes_iff.2 (.inr ⟨c, by simp [hc], .refl _⟩)

theorem below_goes {x c : Nat} (hc : h.hier.parent c = some G) (hne : c ≠ E) (ha : Above h.hier.parent x c) : Goes h G E x :=
  .inr ⟨c, hc, hne, ha⟩

/-- What is used by something that stays, stays. -/
theorem src_stays {l : Link} (hl : l ∈ h.links) (hd : ¬ Goes h G E l.dst) : ¬ Goes h G E l.src := by
  rintro (hs | ⟨c, hc, hne, ha⟩)
  · exact hd ((z.succ l hl hs).1 ▸ z.X_goes)
  obtain ⟨kind, k1, k2, P, hP, hor⟩ := z.valid.kinds l hl
  rcases above_cases ha with e | ⟨q', hq', hqc⟩
  · -- the source is a child of the control-flow graph
    rw [e, hc] at hP; cases hP
    rcases hor with h1 | ⟨q, a, hq, hqa, ⟨_, h2⟩ | ⟨⟨t, rfl, _⟩, _⟩⟩
    · exact hd (z.child_goes h1)
    · by_cases haE : a = E
      · exact z.free l hl (e ▸ hc) (haE ▸ .step hq hqa)
      · exact hd (z.below_goes h2 haE (.step hq hqa))
    · have := body_of_value z.valid (e ▸ hc) (dir := .outgoing) (List.mem_of_getElem? k1) (.inl rfl)
      rw [z.op] at this; cases this
  · rw [hP] at hq'; cases hq'
    rcases hor with h1 | ⟨q, a, hq, hqa, ⟨_, h2⟩ | ⟨_, ⟨h2, _⟩ | ⟨g', sig', entry, rest, n1, p1, p2, p3, p4, _, p5⟩⟩⟩
    · exact hd (z.below_goes hc hne (.step h1 hqc))
    · exact hd (z.below_goes hc hne ((Above.step hq hqa).trans (.step h2 hqc)))
    · exact hd (z.below_goes hc hne ((Above.step hq hqa).trans (.step h2 hqc)))
    · rcases above_cases hqc with e | ⟨q'', hq'', hqc'⟩
      · subst e
        rw [hc] at p1; cases p1
        by_cases haE : a = E
        · subst haE
          have e := z.children
          rw [p4] at e
          simp only [List.cons.injEq] at e
          have := p5 [a] (by simp [e.1]) rfl (List.isChain_singleton _)
          simp at this; exact hne this
        · exact hd (z.below_goes p2 haE (.step hq hqa))
      · rw [p1] at hq''; cases hq''
        exact hd (z.below_goes hc hne ((Above.step hq hqa).trans (.step p2 hqc')))

/-- Links from what stays to what goes do not carry values that have to be used. -/
theorem lost {l : Link} (hl : l ∈ h.links) (hs : ¬ Goes h G E l.src) (hd : Goes h G E l.dst) :
    ∃ kind, srcKind h l = some kind ∧ (kind.isStatic = true ∨ ∃ t, kind = .value t ∧ t.copyable = true) := by
  obtain ⟨kind, k1, k2, P, hP, hor⟩ := z.valid.kinds l hl
  rcases hor with h1 | ⟨q, a, hq, hqa, ⟨h2, _⟩ | ⟨h2, _⟩⟩
  · exfalso
    rcases hd with hd | ⟨c, hc, hne, ha⟩
    · exact z.pred l hl hd
    · rcases above_cases ha with e | ⟨q, hq, hqc⟩
      · rw [e, hc] at h1; cases h1
        exact hs (z.child_goes hP)
      · rw [h1] at hq; cases hq
        exact hs (z.below_goes hc hne (.step hP hqc))
  · exact ⟨kind, k1, .inl h2⟩
  · exact ⟨kind, k1, .inr h2⟩

theorem kid_stays {c : Nat} (hc : h.hier.parent c = some E) : ¬ Goes h G E c := by
  intro hg
  rcases z.goes_iff.1 hg with e | ⟨x, hx, ha⟩
  · rw [e] at hc
    exact z.tree.acyclic _ _ hc (.refl _)
  · exact z.apart (.of_parent hc) hx ha

theorem kid {c : Nat} : h.hier.parent c = some E ↔ c ∈ h.children E := (z.tree.child_iff _ _).symm

theorem lift : ∃ h1 h2 h3, each (fun g c => g.removeSubtree opsInfo.toOpInfo c) h ((h.children G).drop 1) = some h1 ∧
    each (fun g c => g.setParent c G) h1 (h1.children E) = some h2 ∧
    h2.removeNode opsInfo.toOpInfo E = some h3 ∧
    ∃ h4 old, h3.replaceOp G (.dfg sig) = some (h4, old) ∧ LiftedOut h G E sig h4 := by
  have hac := z.tree.acyclic
  have hlok := linksOk_of z.tree z.valid
  have hEl : h.live E = true := (z.tree.parent_live _ _ z.upE).1
  have hGl : h.live G = true := (z.tree.parent_live _ _ z.upE).2
  have hEG : E ≠ G := by
    intro e
    have := z.upE
    rw [e] at this
    exact hac _ _ this (.refl _)
  have hd : (h.children G).drop 1 = X :: more := by rw [z.children]; rfl
  obtain ⟨h1, e1, w1⟩ := dropSubtrees (X :: more) h z.tree hlok z.entry (List.nodup_cons.1 z.nodup).2
    (fun c hc => z.child_iff.2 (.inr (by simpa using hc)))
  have l1 : ∀ x, h1.live x = true ↔ h.live x = true ∧ (¬ Goes h G E x ∨ x = E) := by
    intro x
    rw [w1.live, z.goes_iff]
    by_cases hx : x = E
    · subst hx
      exact ⟨fun hh => ⟨hh.1, .inr rfl⟩, fun hh => ⟨hh.1, fun c hc => z.apart (.refl _) hc⟩⟩
    · constructor
      · rintro ⟨a, b⟩; refine ⟨a, .inl ?_⟩
        rintro (e | ⟨c, hc, ha⟩)
        · exact hx e
        · exact b c hc ha
      · rintro ⟨a, b | b⟩
        · exact ⟨a, fun c hc ha => b (.inr ⟨c, hc, ha⟩)⟩
        · exact absurd b hx
  have lE : h1.live E = true := (l1 E).2 ⟨hEl, .inr rfl⟩
  have lG : h1.live G = true := (l1 G).2 ⟨hGl, .inl z.G_stays⟩
  have kidGoes : ∀ c, h.hier.parent c = some E → h1.live c = true := by
    intro c hc
    rw [w1.live]
    exact ⟨(z.tree.parent_live _ _ hc).1, fun x hx => z.apart (.of_parent hc) hx⟩
  have cE : h1.hier.children E = h.hier.children E := by
    rw [w1.children E lE, List.filter_eq_self]
    intro c hc
    have hcE := (z.tree.child_iff _ _).1 hc
    simp only [decide_eq_true_eq]
    intro hm
    exact z.apart (.of_parent hcE) hm (.refl _)
  have cG : h1.hier.children G = [E] := by
    rw [w1.children G lG]
    have := z.children
    change h.hier.children G = _ at this
    rw [this, List.filter_cons_of_pos (by simpa using (List.nodup_cons.1 z.nodup).1), List.filter_eq_nil_iff.2]
    intro c hc; simp only [decide_eq_true_eq]; exact fun hno => hno hc
  have pE : h1.hier.parent E = some G := by rw [w1.parent E lE]; exact z.upE
  obtain ⟨h2, e2, t2, p2, c2, d2, s2⟩ := moveEach (Ne.symm hEG) (h1.hier.children E) h1 w1.tree pE (w1.tree.child_once E)
    (fun c hc => (w1.tree.child_iff _ _).1 hc)
  have s2live : h2.live = h1.live := by rw [s2]
  have cE2 : h2.children E = [] := by
    change h2.hier.children E = []
    rw [d2 E hEG, List.filter_eq_nil_iff]
    intro c hc; simp only [decide_eq_true_eq]; exact fun hno => hno hc
  have s2e : h2.entrypoint = h.entrypoint := by rw [s2]; exact w1.rest.2.2.2.2
  have s2r : h2.moduleRoot = h.moduleRoot := by rw [s2]; exact w1.rest.2.2.2.1
  have hEr : E ≠ h.moduleRoot := by
    intro e; have := z.upE; rw [e, z.tree.root_top] at this; cases this
  obtain ⟨h3, e3, r3⟩ := removeLeaf t2 (n := E) (by rw [s2live]; exact lE) (by rw [s2e, z.entry]; exact hEG)
    (by rw [s2r]; exact hEr) cE2
  have l3 : ∀ x, h3.live x = true ↔ h.live x = true ∧ ¬ Goes h G E x := by
    intro x
    rw [r3.live, s2live, l1]
    constructor
    · rintro ⟨⟨a, b | b⟩, c⟩
      · exact ⟨a, b⟩
      · exact absurd b c
    · rintro ⟨a, b⟩; exact ⟨⟨a, .inl b⟩, fun e => b (.inl e)⟩
  have l31 : ∀ x, h3.live x = true → h1.live x = true ∧ x ≠ E := fun x hx => by
    have := (r3.live x).1 hx
    rw [s2live] at this; exact this
  have lG3 : h3.live G = true := (l3 G).2 ⟨hGl, z.G_stays⟩
  refine ⟨h1, h2, h3, by rw [hd]; exact e1, e2, e3, { h3 with ops := upd h3.ops G (.dfg sig) }, h3.ops G, ?_, ?_⟩
  · unfold Hugr.replaceOp; rw [if_pos lG3]
  have o1 : ∀ x, h1.live x = true → h1.ops x = h.ops x := by
    intro x hx; rw [w1.ops, hx]; simp
  refine ⟨tree_of_eq r3.tree rfl rfl rfl rfl rfl, l3, ?_, ?_, ?_, ?_, ?_, ?_, ⟨?_, ?_⟩, ?_⟩
  · intro x hx
    by_cases e : x = G
    · simp [upd, e]
    · simp only [upd, if_neg e]
      rw [r3.ops x (l31 x hx).2, s2]
      exact o1 x (l31 x hx).1
  · intro x hx
    change h3.live x = false at hx
    have e : x ≠ G := by rintro rfl; rw [lG3] at hx; cases hx
    simp only [upd, if_neg e]
    by_cases hxE : x = E
    · subst hxE; rw [r3.gone, if_pos hEl]
    · rw [r3.ops x hxE, s2]
      change h1.ops x = _
      rw [w1.ops]
      have : h1.live x = false := by
        rw [Bool.eq_false_iff]; intro hh
        have : h3.live x = true := (r3.live x).2 ⟨by rw [s2live]; exact hh, hxE⟩
        rw [hx] at this; cases this
      rw [this]; simp
  · intro x hx
    change h3.hier.parent x = _
    change h3.live x = true at hx
    obtain ⟨a, b⟩ := l31 x hx
    rw [r3.parent x b, p2, cE]
    by_cases hk : h.hier.parent x = some E
    · rw [if_pos hk, if_pos ((z.tree.child_iff _ _).2 hk)]
    · rw [if_neg hk, if_neg (fun hm => hk ((z.tree.child_iff _ _).1 hm)), w1.parent x a]
  · intro x hx
    change h3.hier.children x = _
    change h3.live x = true at hx
    obtain ⟨a, b⟩ := l31 x hx
    rw [r3.children]
    by_cases e : x = G
    · subst e
      rw [if_pos rfl, c2, cG, cE]
      change List.filter _ (E :: h.hier.children E) = _
      rw [List.filter_cons_of_neg (by simp), List.filter_eq_self.2]
      · rfl
      · intro c hc
        simp only [ne_eq, decide_not, Bool.not_eq_eq_eq_not, Bool.not_true, decide_eq_false_iff_not]
        rintro rfl
        exact hac _ _ ((z.tree.child_iff _ _).1 hc) (.refl _)
    · rw [if_neg e, d2 x e, w1.children x a, List.filter_filter, List.filter_filter, List.filter_eq_self.2]
      · rfl
      intro c hc
      have hcx := (z.tree.child_iff _ _).1 hc
      have q1 : c ≠ E := by
        rintro rfl; rw [z.upE] at hcx; cases hcx; exact e rfl
      have q2 : c ∉ h1.hier.children E := by
        rw [cE, z.tree.child_iff, hcx]
        rintro ⟨⟩; exact b rfl
      have q3 : c ∉ X :: more := by
        intro hm
        have := z.child_iff.2 (.inr (by simpa using hm) : c = E ∨ _)
        rw [hcx] at this; cases this; exact e rfl
      simp [q2, q3]; exact q1
  · change h3.ins = _ ∧ h3.outs = _
    rw [r3.ins, r3.outs, s2]; exact ⟨w1.rest.1, w1.rest.2.1⟩
  · change h3.metadata = _
    rw [r3.metadata, s2]; exact w1.rest.2.2.1
  · change h3.moduleRoot = _
    rw [r3.moduleRoot, s2r]
  · change h3.entrypoint = _
    rw [r3.entrypoint, s2e]
  · change h3.links = _
    rw [r3.links]
    have : h2.links = h1.links := by rw [s2]
    rw [this, w1.links, List.filter_filter]
    apply List.filter_congr
    intro l hl
    obtain ⟨a, _, b, _⟩ := hlok l hl
    rw [Bool.eq_iff_iff]
    simp only [Bool.and_eq_true, bne_iff_ne, ne_eq, decide_eq_true_eq]
    rw [l1, l1]
    constructor
    · rintro ⟨⟨a1, a2⟩, ⟨_, a3⟩, _, a4⟩
      exact ⟨a3.resolve_right a1, a4.resolve_right a2⟩
    · rintro ⟨a1, a2⟩
      exact ⟨⟨fun e => a1 (.inl e), fun e => a2 (.inl e)⟩, ⟨a, .inl a1⟩, b, .inl a2⟩

end StraightAt

end Verif.Patch
