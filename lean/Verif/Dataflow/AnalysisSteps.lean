import Verif.Dataflow.AnalysisSound

/-!
# Lemmas for the soundness of the dataflow analysis: steps of executions
-/
namespace Verif.Dataflow

open Verif.Graph Verif.Ops Verif.Passes Verif.Validate PV

variable {Meta V E W : Type}

section Steps
variable {C : Validate.Context} {vle : V → V → Prop} [AbsVal V] {vd : V → W → Prop} {good : V → Prop}
  {Ann : Nat → Prop}
  {h : Hugr Ops.Op Meta} {K : DFContext V E} {proto : List (Nat × Nat × Abs V)} {s : AState V}

theorem toInput_described (d : Done C vle vd good h K proto s) {p i o : Nat} (hio : HasIO h p i o)
    (hp : (body (h.ops p)).isSome = true) {vs : List (Abs V)} {xs : List (Val W)}
    (hm : ∀ f ∈ toInput h p vs, f ∈ derive h K proto s)
    (hd : List.Forall₂ (Describes vd) vs xs) : DescBy vd s i xs := by
  refine descBy_of_facts d (vs := vs) (fun f hf => hm f ?_) hd
  rw [toInput, getIo_of hio hp]; exact hf

theorem fromOutput_described (d : Done C vle vd good h K proto s) {p i o n : Nat} (hio : HasIO h p i o)
    (hp : (body (h.ops p)).isSome = true) {xs : List (Val W)}
    (hm : ∀ f ∈ fromOutput h s p n, f ∈ derive h K proto s)
    (hd : List.Forall₂ (Describes vd) (inVals h s o) xs) : DescBy vd s n xs := by
  refine descBy_of_facts d (vs := inVals h s o) (fun f hf => hm f ?_) hd
  rw [fromOutput, getIo_of hio hp]; exact hf

theorem mem_children_of {p c : Nat} (ht : IsTree h) (hp : h.hier.parent c = some p) :
    c ∈ h.children p := (ht.child_iff p c).2 hp

theorem parent_of_child {p c : Nat} (ht : IsTree h) (hp : c ∈ h.children p) :
    h.hier.parent c = some p := (ht.child_iff p c).1 hp

theorem io_children {p i o : Nat} (hio : HasIO h p i o) : i ∈ h.children p ∧ o ∈ h.children p := by
  obtain ⟨rest, hr⟩ := hio
  rw [hr]; simp

theorem begins_described (d : Done C vle vd good h K proto s) {n p i o : Nat} (hn : h.live n = true)
    {ins vals : List (Val W)} (hd : List.Forall₂ (Describes vd) (inVals h s n) ins)
    (hb : Begins h n ins p vals) (hio : HasIO h p i o) :
    DescBy vd s i vals ∧ h.live p = true ∧
    (p = n ∨ (∃ sig, h.ops p = .case sig) ∨ ∃ x y z, h.ops p = .dataflowBlock x y z) ∧
    (∀ sig, h.ops p = .case sig → h.hier.parent p = some n ∧ (n, p) ∈ s.cases) ∧
    (∀ x y z, h.ops p = .dataflowBlock x y z → h.hier.parent p = some n ∧ (n, p) ∈ s.blocks) := by
  have hrow := row_of_inVals d hn hd
  cases hb with
  | @dfg sig _ hop =>
    refine ⟨toInput_described d hio (by rw [hop]; rfl) (fun f hf => mem_derive d.tree hn ?_) hd, hn,
      .inl rfl, by simp [hop], by simp [hop]⟩
    refine .inr (.inr (.inr (.inl ?_)))
    simp only [dfgFacts, hop]; exact List.mem_append.2 (.inl hf)
  | @loop ji jo rest _ hop =>
    refine ⟨toInput_described d hio (by rw [hop]; rfl) (fun f hf => mem_derive d.tree hn ?_) hd, hn,
      .inl rfl, by simp [hop], by simp [hop]⟩
    refine .inr (.inr (.inr (.inr (.inl ?_))))
    simp only [loopFacts, hop]; exact List.mem_append.2 (.inl hf)
  | @cond rows other outs row tag c elems rest hop hc hrw hlen =>
    have hmem : p ∈ h.children n := List.mem_of_getElem? hc
    have hpar := parent_of_child d.tree hmem
    have hch := d.valid.children n hn
    rw [ChildrenOk, hop] at hch
    obtain ⟨_, hch⟩ := hch
    have hpop : h.ops p = .case ⟨row ++ other, outs⟩ := by
      have h1 : ((h.children n).map h.ops)[tag]? = some (h.ops p) := by simp [hc]
      rw [hch] at h1
      simp [hrw] at h1
      exact h1.symm
    have hsub : ∀ f ∈ caseFacts h s n rows p tag, f ∈ derive h K proto s := by
      intro f hf
      refine mem_derive d.tree hn (.inr (.inr (.inr (.inr (.inr (.inl ?_))))))
      simp only [condFacts, hop, List.mem_flatMap]
      exact ⟨(p, tag), List.mem_zipIdx_iff_getElem?.2 hc, hf⟩
    have hcases : (n, p) ∈ s.cases := by
      refine d.closed.case _ _ (hsub _ ?_)
      simp only [caseFacts, hpop, isCase, if_true]
      refine List.mem_append.2 (.inr ?_)
      rw [if_pos (supports_described d.wf hd)]; simp
    refine ⟨variant_described d (d.wf.row n) hrow (fun f hf => hsub f ?_),
      (d.tree.parent_live _ _ hpar).1, .inr (.inl ⟨_, hpop⟩), fun sig _ => ⟨hpar, hcases⟩,
      fun x y z hx => by rw [hpop] at hx; simp at hx⟩
    simp only [caseFacts, hpop, isCase, if_true]
    refine List.mem_append.2 (.inl (List.mem_append.2 (.inl ?_)))
    rw [getIo_of hio (by rw [hpop]; rfl)]
    simp only [hrw]
    rw [← hlen]; exact hf
  | @cfg sig entry rest _ hop hch =>
    have hmem : p ∈ h.children n := by rw [hch]; simp
    have hpar := parent_of_child d.tree hmem
    have hcok := d.valid.children n hn
    rw [ChildrenOk, hop] at hcok
    obtain ⟨entry', exit, rest', o', r', hch', hent, _⟩ := hcok
    rw [hch] at hch'
    simp only [List.cons.injEq] at hch'
    obtain ⟨rfl, _⟩ := hch'
    have hsub : ∀ f ∈ cfgFacts h s n, f ∈ derive h K proto s := fun f hf =>
      mem_derive d.tree hn (.inr (.inr (.inr (.inr (.inr (.inr (.inl hf)))))))
    simp only [cfgFacts, hop, hch] at hsub
    refine ⟨toInput_described d hio (by rw [hent]; rfl)
        (fun f hf => hsub f (List.mem_cons_of_mem _ hf)) hd,
      (d.tree.parent_live _ _ hpar).1, .inr (.inr ⟨_, _, _, hent⟩),
      fun sig hx => by rw [hent] at hx; simp at hx,
      fun x y z _ => ⟨hpar, d.closed.block _ _ (hsub _ (by simp))⟩⟩

/-! ## Jumps between blocks -/

theorem flatMap_getElem {α : Type} (f : Nat → List α) (k : Nat) (hf : ∀ p < k, (f p).length = 1) :
    ∀ p < k, ∀ x ∈ f p, ((List.range k).flatMap f)[p]? = some x := by
  induction k with
  | zero => intro p hp; omega
  | succ k ih =>
    have hlen : ((List.range k).flatMap f).length = k := by
      have : ∀ p ∈ List.range k, (f p).length = 1 := fun p hp =>
        hf p (by have := List.mem_range.1 hp; omega)
      rw [List.length_flatMap]
      clear ih
      rw [List.map_congr_left this]
      simp
    intro p hp x hx
    rw [List.range_succ, List.flatMap_append]
    by_cases hpk : p < k
    · rw [List.getElem?_append_left (by rw [hlen]; exact hpk)]
      exact ih (fun q hq => hf q (by omega)) p hpk x hx
    · have : p = k := by omega
      subst this
      rw [List.getElem?_append_right (by rw [hlen])]
      obtain ⟨y, hy⟩ := List.length_eq_one_iff.1 (hf p (by omega))
      rw [hy, List.mem_singleton] at hx
      simp [hlen, hy, hx]

theorem neighbour_at (d : Done C vle vd good h K proto s) {p : Nat} (hp : h.live p = true)
    {ins other : List Types.Ty} {rows : List (List Types.Ty)}
    (hop : h.ops p = .dataflowBlock ins other rows) {l : Link} (hl : l ∈ h.links) (hsrc : l.src = p)
    (hport : l.srcPort < rows.length) :
    (l.dst, l.srcPort) ∈ (neighboursInOrder h p).zipIdx := by
  rw [List.mem_zipIdx_iff_getElem?]
  have houts : h.outs p = rows.length := by
    rw [(d.valid.ports p hp).2, hop]; simp [Op.ports]
  unfold neighboursInOrder
  refine flatMap_getElem _ _ (fun q hq => ?_) _ (by rw [houts]; exact hport) _ ?_
  · have hk : ((h.ops p).ports .outgoing)[q]? = some .controlFlow := by
      rw [hop]; rw [houts] at hq; simp [Op.ports, hq]
    have := d.valid.outDegree p q _ hp hk
    simp only [OutDegreeOk, linksFrom] at this
    simp [Hugr.linkedInputs, this]
  · simp only [Hugr.linkedInputs, List.map_map, List.mem_map, List.mem_filter]
    exact ⟨l, ⟨hl, by simp [hsrc]⟩, rfl⟩

theorem succ_sibling (d : Done C vle vd good h K proto s) {p g : Nat}
    {ins other : List Types.Ty} {rows : List (List Types.Ty)}
    (hop : h.ops p = .dataflowBlock ins other rows) {l : Link} (hl : l ∈ h.links) (hsrc : l.src = p)
    (hport : l.srcPort < rows.length) (hg : h.hier.parent p = some g) :
    h.hier.parent l.dst = some g := by
  obtain ⟨kind, hk1, _, q, hq, hor⟩ := d.valid.kinds l hl
  rw [hsrc, hg] at hq
  simp only [Option.some.injEq] at hq
  subst hq
  have hkind : kind = .controlFlow := by
    simp only [srcKind, hsrc, hop, Op.ports] at hk1
    simp [hport] at hk1
    exact hk1.symm
  subst hkind
  rcases hor with hor | ⟨_, _, _, _, hst | ⟨⟨t, ht, _⟩, _⟩⟩
  · exact hor
  · simp [Kind.isStatic] at hst
  · simp at ht

theorem block_parent (d : Done C vle vd good h K proto s) {p g : Nat}
    {ins other : List Types.Ty} {rows : List (List Types.Ty)}
    (hop : h.ops p = .dataflowBlock ins other rows) (hg : h.hier.parent p = some g) :
    ∃ sig, h.ops g = .cfg sig := by
  have := d.valid.contains p g hg
  rw [hop] at this
  unfold MayContain at this
  split at this <;> simp_all [DataflowChild]

theorem jump_facts (d : Done C vle vd good h K proto s) {p g i o tag : Nat}
    (hp : h.live p = true) {ins other row : List Types.Ty} {rows : List (List Types.Ty)}
    (hop : h.ops p = .dataflowBlock ins other rows) (hg : h.hier.parent p = some g)
    (hb : (g, p) ∈ s.blocks) (hio : HasIO h p i o) {elems others : List (Val W)}
    (hd : List.Forall₂ (Describes vd) (inVals h s o) (.sum tag elems :: others))
    (hrow : rows[tag]? = some row) (hlen : elems.length = row.length) {l : Link} (hl : l ∈ h.links)
    (hsrc : l.src = p) (hport : l.srcPort = tag) :
    (g, l.dst) ∈ s.blocks ∧ ∀ dest ∈ succDest h g l.dst, DescBy vd s dest (elems ++ others) := by
  have htag : l.srcPort < rows.length := by
    rw [hport]; exact (List.getElem?_eq_some_iff.1 hrow).1
  have hsub : ∀ f, (f ∈ (if (s.inOf o 0).supportsTag l.srcPort then [Fact.block g l.dst] else []) ∨
      f ∈ passFacts h s g o rows l.dst l.srcPort) → f ∈ derive h K proto s := by
    intro f hf
    refine mem_derive_block hb ?_
    rw [blockFacts, getIo_of hio (by rw [hop]; rfl)]
    simp only [List.mem_flatMap]
    refine ⟨_, neighbour_at d hp hop hl hsrc htag, ?_⟩
    simp only [hop]
    exact List.mem_append.2 hf
  have ho : h.live o = true :=
    (d.tree.parent_live _ _ (parent_of_child d.tree (io_children hio).2)).1
  refine ⟨d.closed.block _ _ (hsub _ (.inl ?_)), fun dest hdest => ?_⟩
  · rw [if_pos (by rw [hport]; exact supports_described d.wf hd)]; simp
  · refine variant_described d (d.wf.row o) (row_of_inVals d ho hd) (fun f hf => hsub f (.inr ?_))
    simp only [passFacts, List.mem_flatMap]
    refine ⟨dest, hdest, ?_⟩
    rw [hport, hrow]
    simp only []
    rw [← hlen]; exact hf

/-! ## Steps -/

theorem at_live (d : Done C vle vd good h K proto s) {a : Activation W} {n : Nat} (hat : a.at h n) :
    h.live n = true := by
  obtain ⟨p, hp, _⟩ := hat
  exact (d.tree.parent_live _ _ hp).1

theorem io_live (d : Done C vle vd good h K proto s) {p i o : Nat} (hio : HasIO h p i o) :
    h.live i = true ∧ h.live o = true :=
  ⟨(d.tree.parent_live _ _ (parent_of_child d.tree (io_children hio).1)).1,
   (d.tree.parent_live _ _ (parent_of_child d.tree (io_children hio).2)).1⟩

theorem step_inv (d : Done C vle vd good h K proto s) {S : Sem W E} (hS : FaithfulOn Seen vd good h K S)
    (hseen : RowsSeen Seen h s)
    {calls : List (PreCall V)} (hcov : Covered h calls s) {a b : Activation W} (ha : Inv vd Ann h s a)
    (hstep : Step h S a b) : Inv vd Ann h s b := by
  cases hstep with
  | @leaf n ins outs hat hr hleaf =>
    have hn := at_live d hat
    exact inv_put d ha (leaf_described d hS hseen hcov hn (ready_described d ha hn hr) hleaf)
  | @enter n p i o ins vals hat hr hb hio =>
    have hn := at_live d hat
    obtain ⟨h1, h2, _, h3, h4⟩ := begins_described d hn (ready_described d ha hn hr) hb hio
    exact inv_enter d ha h1 h2 (fun sig _ hop => ⟨n, h3 sig hop⟩)
      (fun x y z _ hop => ⟨n, h4 x y z hop⟩)
  | @leaveDfg p i o sig outs hent hop hio hr =>
    refine inv_put d ha (fromOutput_described d hio (by rw [hop]; rfl) (fun f hf => ?_)
      (ready_described d ha (io_live d hio).2 hr))
    refine mem_derive d.tree (ha.live p hent) (.inr (.inr (.inr (.inl ?_))))
    simp only [dfgFacts, hop]; exact List.mem_append.2 (.inr hf)
  | @leaveCase p c i o sig outs hent hroot hop hpar hio hr =>
    obtain ⟨c', hc', hmem⟩ := ha.cases p sig hent hroot hop
    rw [hpar] at hc'
    simp only [Option.some.injEq] at hc'
    subst hc'
    have hcond : ∃ rows other outs, h.ops c = .conditional rows other outs := by
      have := d.valid.contains p c hpar
      rw [hop] at this
      unfold MayContain at this
      split at this <;> simp_all [DataflowChild]
    obtain ⟨rows, other, outs', hcop⟩ := hcond
    refine inv_put d ha (fromOutput_described d hio (by rw [hop]; rfl) (fun f hf => ?_)
      (ready_described d ha (io_live d hio).2 hr))
    refine mem_derive d.tree (d.tree.parent_live _ _ hpar).2
      (.inr (.inr (.inr (.inr (.inr (.inl ?_))))))
    obtain ⟨k, hk⟩ := List.mem_iff_getElem?.1 (mem_children_of d.tree hpar)
    simp only [condFacts, hcop, List.mem_flatMap]
    refine ⟨(p, k), List.mem_zipIdx_iff_getElem?.2 hk, ?_⟩
    simp only [caseFacts, hop, isCase, if_true, if_pos hmem]
    exact List.mem_append.2 (.inl (List.mem_append.2 (.inr hf)))
  | @again p i o ji jo rest elems others hent hop hio hr hlen =>
    have hd := ready_described d ha (io_live d hio).2 hr
    refine inv_put d ha (variant_described d (d.wf.row o) (row_of_inVals d (io_live d hio).2 hd)
      (fun f hf => ?_))
    refine mem_derive d.tree (ha.live p hent) (.inr (.inr (.inr (.inr (.inl ?_)))))
    simp only [loopFacts, hop, getIo_of hio (show (body (h.ops p)).isSome = true by rw [hop]; rfl)]
    rw [hlen] at hf
    exact List.mem_append.2 (.inr (List.mem_append.2 (.inl hf)))
  | @leaveLoop p i o ji jo rest elems others hent hop hio hr hlen =>
    have hd := ready_described d ha (io_live d hio).2 hr
    refine inv_put d ha (variant_described d (d.wf.row o) (row_of_inVals d (io_live d hio).2 hd)
      (fun f hf => ?_))
    refine mem_derive d.tree (ha.live p hent) (.inr (.inr (.inr (.inr (.inl ?_)))))
    simp only [loopFacts, hop, getIo_of hio (show (body (h.ops p)).isSome = true by rw [hop]; rfl)]
    rw [hlen] at hf
    exact List.mem_append.2 (.inr (List.mem_append.2 (.inr hf)))
  | @jump p i o q i' o' tag ins other row rows elems others l hent hroot hop hio hr hrow hlen hl hsrc
      hport hdst hq hio' =>
    obtain ⟨g, hg, hb⟩ := ha.blocks p _ _ _ hent hroot hop
    have hd := ready_described d ha (io_live d hio).2 hr
    obtain ⟨h1, h2⟩ := jump_facts d (ha.live p hent) hop hg hb hio hd hrow hlen hl hsrc hport
    have htag : l.srcPort < rows.length := by
      rw [hport]; exact (List.getElem?_eq_some_iff.1 hrow).1
    have hpq := succ_sibling d hop hl hsrc htag hg
    rw [hdst] at h1 h2 hpq
    obtain ⟨x, y, z, hqop⟩ := hq
    refine inv_enter d ha (h2 i' ?_) (d.tree.parent_live _ _ hpq).1
      (fun sig _ hx => by rw [hqop] at hx; simp at hx) (fun _ _ _ _ _ => ⟨g, hpq, h1⟩)
    simp only [succDest]
    refine List.mem_append.2 (.inr ?_)
    rw [if_pos ⟨mem_children_of d.tree hpq, by rw [hqop]; rfl⟩,
      getIo_of hio' (by rw [hqop]; rfl)]
    simp
  | @leaveCfg p i o g tag ins other row outs rows elems others l hent hroot hop hio hr hrow hlen hl
      hsrc hport hdst hg =>
    obtain ⟨g', hg', hb⟩ := ha.blocks p _ _ _ hent hroot hop
    rw [hg] at hg'
    simp only [Option.some.injEq] at hg'
    subst hg'
    have hd := ready_described d ha (io_live d hio).2 hr
    obtain ⟨h1, h2⟩ := jump_facts d (ha.live p hent) hop hg hb hio hd hrow hlen hl hsrc hport
    have htag : l.srcPort < rows.length := by
      rw [hport]; exact (List.getElem?_eq_some_iff.1 hrow).1
    have hpq := succ_sibling d hop hl hsrc htag hg
    obtain ⟨sig, hgop⟩ := block_parent d hop hg
    have hcok := d.valid.children g (d.tree.parent_live _ _ hg).2
    rw [ChildrenOk, hgop] at hcok
    obtain ⟨entry, exit, rest, o', r', hch, hent', hex, hno⟩ := hcok
    have hmem := mem_children_of d.tree hpq
    rw [hch] at hmem
    have hex' : l.dst = exit := by
      rcases List.mem_cons.1 hmem with hx | hx
      · rw [hx, hent'] at hdst; simp at hdst
      · rcases List.mem_cons.1 hx with hx | hx
        · exact hx
        · exact absurd hdst (hno _ hx _)
    refine inv_put d ha (h2 g ?_)
    simp only [succDest]
    refine List.mem_append.2 (.inl ?_)
    rw [hch, hex']; simp

end Steps

end Verif.Dataflow
