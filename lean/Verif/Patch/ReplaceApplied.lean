import Verif.Patch.ReplaceApplySteps
import Verif.Patch.ReplaceApplyOrder
import Verif.Patch.ReplaceApplyProps

/-!
# C78: what applying a replacement gives
-/
namespace Verif.Patch

open Verif.Graph Verif.Ops Verif.Passes Verif.Validate Verif.Dataflow

variable {Meta : Type} {h : Hugr Ops.Op Meta} {r : Replacement Meta}

/-- **C78** A replacement that is accepted can be applied, and the result is the host with the nodes of the replacement in
place of those that are removed: nothing else changes but the links to the ports into which new edges go. Partial: this
needs five conditions that the check does not look at, each of which is needed as the findings show. -/
theorem C78_applied_partial (ht : IsTree h) (hl : LinksOk h) (hp : PortsFit h) (rt : IsTree r.replacement)
    (rl : LinksOk r.replacement) (rp : PortsFit r.replacement) {news : List Nat} (hall : Allocated h news)
    (hlen : news.length = (r.replacement.descendants r.replacement.entrypoint).length) (hv : r.verify h = .ok ())
    (hthere : PortsThere h r) (hdiff : TargetsDiffer r) (hin : NodesInside r) (hentry : EntryStays h r)
    (had : AdoptsSome h r) {order : List Nat → List Nat} (hord : ∀ l, (order l).Perm l) :
    ∃ g map p f, r.apply h news order = .ok (g, map) ∧ (∀ n ∈ r.removal, h.hier.parent n = some p) ∧
      (∀ x, Brought r x → map.lookup x = some (f x)) ∧ Applied h r p f g := by
  have wp : WellPosed h r := (C77_accepted_partial ht (fun n hn => (hp n hn).1) (fun n hn => (rp n hn).1)).1 hv
  obtain ⟨p, hne, hs, htag⟩ := wp.siblings
  have hcp : checkParent h r = .ok p := (checkParent_ok ht).2 ⟨hne, hs, htag⟩
  obtain ⟨R, hR⟩ := getRemoved_of ht hs wp.once wp.adopters wp.adoptedOnce wp.adoptees
  have hmem := (getRemoved_ok ht hs R hR).2.2.2.2
  have hpl : h.live p = true := by
    obtain ⟨s, hs'⟩ := List.exists_mem_of_ne_nil _ hne
    exact (ht.parent_live _ _ (hs s hs')).2
  obtain ⟨h1, map, f, hins, hmap, ins, t1, _, hmeta⟩ := C23_insert_hugr opsInfo.toOpInfo h r.replacement ht hl rt rl p
    r.replacement.entrypoint news hpl rt.entry_live hlen hall
  have desc := (descendants_enumerates rt rt.entry_live).mem
  have a : Brings h r p f R h1 :=
    { ht := ht, hl := hl, hp := hp, rt := rt, rp := rp, wp := wp, nonempty := hne, sib := hs, mem := hmem, there := hthere,
      differ := hdiff, inside := hin, entry := hentry, adopts := had, t1 := t1
      fresh := fun x hx => ins.fresh x ((desc x).2 hx)
      inj := fun x y hx hy => ins.injective x ((desc x).2 hx) y ((desc y).2 hy)
      live := fun n => by
        rw [ins.live]
        simp only [desc]
      host := ins.host_node
      node := fun x hx => by
        obtain ⟨i1, i2, i3⟩ := ins.node x ((desc x).2 hx)
        exact ⟨i1, i2, i3, (hmeta x hx).1⟩
      children := fun x hx => (hmeta x hx).2
      links := ins.links
      root_entry := ins.root_entry }
  obtain ⟨L1, L2, L3, x1, x2, x3, k1, k2, k3⟩ := a.transfer hmap
  obtain ⟨h5, h6, e5, hnil, e6, b⟩ := a.place L3
  obtain ⟨h7, g, e7, e8, t8, f1, f2, f3, f4, f5, f6, f7, f8, f9⟩ := a.finish b hmap (D := order R)
    ((hord R).nodup_iff.2 (getRemoved_once hR)) (fun x => (hord R).mem_iff)
  have top : Above r.replacement.hier.parent r.replacement.entrypoint r.replacement.entrypoint := .refl _
  have neTop : ∀ {x}, Brought r x → f x ≠ f r.replacement.entrypoint := fun hx e => hx.2 (a.inj _ _ hx.1 top e)
  have copyStays : ∀ {x}, Brought r x → ¬ Removes h r (f x) := fun hx hr => a.ne (a.live_removed hr) hx.1 rfl
  have opsHost : ∀ {n}, h.live n = true → ¬ Removes h r n → g.ops n = h1.ops n := fun {n} hn hr => by
    rw [f6 n hr, b.ops n (a.ne hn top)]
  have opsCopy : ∀ {x}, Brought r x → g.ops (f x) = h1.ops (f x) := fun {x} hx => by
    rw [f6 _ (copyStays hx), b.ops _ (neTop hx)]
  obtain ⟨pi, po, pm⟩ := f7
  obtain ⟨qi, qo, qm⟩ := b.ports
  -- the ends of new edges
  have ends : ∀ e ∈ r.edges f,
      ((h.live e.src = true ∧ ¬ Removes h r e.src) ∨ ∃ x, Brought r x ∧ e.src = f x) ∧
      ((h.live e.tgt = true ∧ ¬ Removes h r e.tgt) ∨ ∃ x, Brought r x ∧ e.tgt = f x) := by
    intro e he
    unfold Replacement.edges at he
    rcases List.mem_append.1 he with he | he
    · rcases List.mem_append.1 he with he | he
      · obtain ⟨e, he', rfl⟩ := List.mem_map.1 he
        obtain ⟨⟨e1, e2, _⟩, _, e5, _⟩ := wp.inp e he'
        exact ⟨.inl ⟨e1, e2⟩, .inr ⟨e.tgt, ⟨hin.1 e he', e5⟩, rfl⟩⟩
      · obtain ⟨e, he', rfl⟩ := List.mem_map.1 he
        obtain ⟨⟨_, e2, _⟩, e4, e5, _⟩ := wp.out e he'
        exact ⟨.inr ⟨e.src, ⟨hin.2.1 e he', e2⟩, rfl⟩, .inl ⟨e4, e5⟩⟩
    · obtain ⟨⟨e1, e2, _⟩, e4, e5, _⟩ := wp.new e he
      exact ⟨.inl ⟨e1, e2⟩, .inl ⟨e4, e5⟩⟩
  have stayOf : ∀ {n}, ((h.live n = true ∧ ¬ Removes h r n) ∨ ∃ x, Brought r x ∧ n = f x) →
      ¬ Removes h r n ∧ n ≠ f r.replacement.entrypoint ∧ g.ops n = h1.ops n := by
    rintro n (⟨n1, n2⟩ | ⟨x, hx, rfl⟩)
    · exact ⟨n2, a.ne n1 top, opsHost n1 n2⟩
    · exact ⟨copyStays hx, neTop hx, opsCopy hx⟩
  have makes : ∀ e ∈ r.edges f, ∀ l, e.Makes g l ↔ e.Makes h1 l := fun e he l =>
    makes_ops (stayOf (ends e he).1).2.2 (stayOf (ends e he).2).2.2
  have inLinks : ∀ l, l ∈ g.links ↔ (l ∈ L3 ∧ l.src ≠ f r.replacement.entrypoint ∧ l.dst ≠ f r.replacement.entrypoint) ∧
      ¬ Removes h r l.src ∧ ¬ Removes h r l.dst := by
    intro l
    rw [f9, b.links]
  have edgeIn : ∀ e ∈ r.edges f, ∀ l ∈ L3, e.Makes h1 l → l ∈ g.links := by
    intro e he l hl hm
    obtain ⟨s1, s2, _⟩ := stayOf (ends e he).1
    obtain ⟨s3, s4, _⟩ := stayOf (ends e he).2
    rw [inLinks, hm.1, hm.2.1]
    exact ⟨⟨hl, s2, s4⟩, s1, s3⟩
  obtain ⟨o1, o2, o3, o4⟩ := a.order (fun m hm => by
      rw [ins.host_children m hm]
      by_cases e : m = p
      · subst e
        simp
      · simp [e, Ne.symm e]) hmap e5 e6 b.tree e7 e8 (fun x => ((hord R).mem_iff).trans (hmem x))
  refine ⟨g, map, p, f, ?_, hs, fun x hx => hmap x hx.1, ?_⟩
  · unfold Replacement.apply
    rw [hcp]
    simp only [Vet.andThen]
    rw [hR]
    simp only [hins]
    rw [x1]
    simp only [x2, x3, hmap _ top, Vet.orPanic, e5]
    rw [if_pos hnil, e6]
    simp only [e7, e8]
  · refine ⟨t8, f8, fun x hx => a.fresh x hx.1, fun x y hx hy => a.inj x y hx.1 hy.1, f1, ?_, f2, f3, ?_, f4, f5, o1, o2, o3,
      o4, ?_, ?_, ?_, ?_⟩
    · intro n hn hr
      obtain ⟨i1, i2, i3, i4, _⟩ := a.host n hn
      rw [opsHost hn hr, pi, qi, po, qo, pm, qm]
      exact ⟨i1, i2, i3, i4⟩
    · intro x hx
      rw [opsCopy hx, pi, qi, po, qo, pm, qm]
      exact a.node x hx.1
    · intro l hlg
      obtain ⟨⟨l1, l2, l3⟩, l4, l5⟩ := (inLinks l).1 hlg
      rcases k1 l l1 with ⟨m1, m2⟩ | ⟨e, he, hm⟩
      · rcases (a.mem_links l).1 m1 with m1 | ⟨k, hk, c1, c2, rfl⟩
        · exact .inl ⟨m1, l4, l5, m2⟩
        · exact .inr (.inl ⟨k, hk, ⟨c1, fun e => l2 (by rw [← e])⟩, ⟨c2, fun e => l3 (by rw [← e])⟩, rfl⟩)
      · exact .inr (.inr ⟨e, he, (makes e he l).2 hm⟩)
    · rintro l ⟨m1, m2, m3, m4⟩
      obtain ⟨n1, _, n2, _⟩ := hl l m1
      exact (inLinks l).2 ⟨⟨k2 l ((a.mem_links l).2 (.inl m1)) m4, a.ne n1 top, a.ne n2 top⟩, m2, m3⟩
    · rintro l ⟨k, hk, c1, c2, rfl⟩
      refine (inLinks _).2 ⟨⟨k2 _ ((a.mem_links _).2 (.inr ⟨k, hk, c1.1, c2.1, rfl⟩)) ?_, neTop c1, neTop c2⟩,
        copyStays c1, copyStays c2⟩
      intro e he hi
      have hlive : h.live e.tgt = true := by
        rcases List.mem_append.1 he with he | he
        · exact (wp.out e he).2.1
        · exact (wp.new e he).2.1
      exact a.ne hlive c2.1 hi.1
    · intro e he
      obtain ⟨l, hl', hm⟩ := k3 e he
      exact ⟨l, edgeIn e he l hl' hm, (makes e he l).2 hm⟩

/-- The conditions are met: the content of a dataflow graph, 5 and 6, is put into a new one, 23. -/
example : ∃ g map p f, wrapBody.apply (built nestHistory) ((List.range 4).map (20 + ·)) id = .ok (g, map) ∧
    Applied (built nestHistory) wrapBody p f g := by
  have hv : wrapBody.verify (built nestHistory) = .ok () := by decide +kernel
  have hd := C78_applied_partial (h := built nestHistory) (r := wrapBody) (news := (List.range 4).map (20 + ·)) (order := id)
    nest_ok.1 nest_ok.2.2 (portsFit_of_valid nest_ok.2.1) functions_ok.1 functions_ok.2 functions_ports
    (allocated_range nest_ok.1 (by decide +kernel) 4) (by decide +kernel) hv (by simp [PortsThere, PortThere, wrapBody])
    (by simp [TargetsDiffer, wrapBody]) (by
      have e1 : Above (built functionsHistory).hier.parent 4 (built functionsHistory).entrypoint := up1 (by decide +kernel)
      have e3 : 4 ≠ (built functionsHistory).entrypoint := by decide +kernel
      simpa [NodesInside, wrapBody] using ⟨e1, e3⟩)
    (entryStays_of nest_ok.1 hv (R := [4]) (by decide +kernel) (by decide +kernel)) (by
      intro v hvm
      have : v = 4 := by simpa [Replacement.adopted, wrapBody] using hvm
      subst this
      decide +kernel) (fun l => .refl l)
  obtain ⟨g, map, p, f, h1, _, _, h2⟩ := hd
  exact ⟨g, map, p, f, h1, h2⟩

/-- The conditions are met: a block, 7, is put into another. -/
example : ∃ g map p f, wrapBlock.apply (built twoBlocksHistory) ((List.range 3).map (20 + ·)) id = .ok (g, map) ∧
    Applied (built twoBlocksHistory) wrapBlock p f g := by
  have hv : wrapBlock.verify (built twoBlocksHistory) = .ok () := by decide +kernel
  have hd := C78_applied_partial (h := built twoBlocksHistory) (r := wrapBlock) (news := (List.range 3).map (20 + ·))
    (order := id) twoBlocks_ok.1 (built_ok twoBlocksHistory (by decide +kernel) (by decide +kernel)).2
    (portsFit_of_valid twoBlocks_ok.2) beside_ok.1 beside_ok.2 beside_ports
    (allocated_range twoBlocks_ok.1 (by decide +kernel) 3) (by decide +kernel) hv (by
      have e1 : 0 < (built twoBlocksHistory).outs 5 := by decide +kernel
      have e2 : 0 < (built besideHistory).outs 5 := by decide +kernel
      simpa [PortsThere, PortThere, wrapBlock] using ⟨e1, e2⟩)
    (by simp [TargetsDiffer, wrapBlock]) (by
      have e1 : Above (built besideHistory).hier.parent 5 (built besideHistory).entrypoint := up1 (by decide +kernel)
      have e2 : Above (built besideHistory).hier.parent 6 (built besideHistory).entrypoint :=
        up2 (b := 5) (by decide +kernel) (by decide +kernel)
      have e3 : 6 ≠ (built besideHistory).entrypoint := by decide +kernel
      simpa [NodesInside, wrapBlock] using ⟨e1, e2, e3⟩)
    (entryStays_of twoBlocks_ok.1 hv (R := [7]) (by decide +kernel) (by decide +kernel)) (by
      intro v hvm
      have : v = 7 := by simpa [Replacement.adopted, wrapBlock] using hvm
      subst this
      decide +kernel) (fun l => .refl l)
  obtain ⟨g, map, p, f, h1, _, _, h2⟩ := hd
  exact ⟨g, map, p, f, h1, h2⟩

end Verif.Patch
