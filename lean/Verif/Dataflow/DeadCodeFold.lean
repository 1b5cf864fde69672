import Verif.Dataflow.DeadCodeSim
import Verif.Graph.LinkingLemmas

/-!
# Constant folding keeps what dead code elimination needs
-/
namespace Verif.Dataflow

open Verif.Graph Verif.Ops Verif.Passes Verif.Validate

variable {Meta W E : Type}

theorem folded_above {h h' : Hugr Ops.Op Meta} (ht : IsTree h) {B : List (Break E × Nat × Nat)}
    (f : Folded h B h') {a b : Nat} (ha : h.live a = true) :
    Above h'.hier.parent a b ↔ Above h.hier.parent a b :=
  above_iff_of_eq (live := fun n => h.live n = true) (fun m hm => f.parent m hm)
    (fun m q _ hq => (ht.parent_live m q hq).2) ha

theorem folded_formed {h h' : Hugr Ops.Op Meta} (ht : IsTree h) (hfm : Formed h)
    {B : List (Break E × Nat × Nat)} (f : Folded h B h') (hlive : ∀ x ∈ B, h.live x.1.node = true)
    (hport : ∀ x ∈ B, x.1.port < numIns (h.ops x.1.node))
    (hins : ∀ x ∈ B, x.1.port < h.ins x.1.node) : Formed h' := by
  have hnew : ∀ x ∈ B, x.2.1 ∈ newNodes B ∧ x.2.2 ∈ newNodes B := fun x hx =>
    ⟨List.mem_flatMap.2 ⟨x, hx, by simp⟩, List.mem_flatMap.2 ⟨x, hx, by simp⟩⟩
  have hop : ∀ n ∈ newNodes B, (∃ t, h'.ops n = .const t) ∨ ∃ t, h'.ops n = .loadConstant t := by
    intro n hn
    obtain ⟨x, hx, hm⟩ := List.mem_flatMap.1 hn
    simp only [List.mem_cons, List.not_mem_nil, or_false] at hm
    rcases hm with rfl | rfl
    · exact .inl ⟨_, (f.new x hx).1⟩
    · exact .inr ⟨_, (f.new x hx).2.1⟩
  have hold : ∀ n, h'.live n = true → h.live n = true ∨ n ∈ newNodes B := fun n hn => (f.live n).1 hn
  have hpl : ∀ n, h.live n = true → h'.live n = true := fun n hn => (f.live n).2 (.inl hn)
  refine ⟨?_, ?_, ⟨?_, ?_⟩, ?_, ?_, ?_, ?_, ?_⟩
  · intro l hl
    rcases f.links l hl with ⟨h1, _⟩ | ⟨x, hx, rfl | rfl⟩
    · obtain ⟨a1, a2, a3, a4⟩ := hfm.links l h1
      exact ⟨hpl _ a1, by rw [(f.numPorts _ a1).2]; exact a2, hpl _ a3, by
        rw [(f.numPorts _ a3).1]; exact a4⟩
    · obtain ⟨n1, n2⟩ := hnew x hx
      refine ⟨(f.live _).2 (.inr n1), ?_, (f.live _).2 (.inr n2), ?_⟩
      · simp only [(f.newPorts _ n1).2, (f.new x hx).1]; simp [Op.ports]
      · simp only [(f.newPorts _ n2).1, (f.new x hx).2.1]; simp [Op.ports]
    · obtain ⟨n1, n2⟩ := hnew x hx
      refine ⟨(f.live _).2 (.inr n2), ?_, hpl _ (hlive x hx), ?_⟩
      · simp only [(f.newPorts _ n2).2, (f.new x hx).2.1]; simp [Op.ports]
      · simp only [(f.numPorts _ (hlive x hx)).1]; exact hins x hx
  · intro n hn
    rcases hold n hn with h1 | h1
    · rw [f.old h1]; exact hfm.tags n h1
    · rcases hop n h1 with ⟨t, h2⟩ | ⟨t, h2⟩ <;> rw [h2] <;> simp [Op.dataflowSignature]
  · intro l hl q hq
    rcases f.links l hl with ⟨h1, _⟩ | ⟨x, hx, rfl | rfl⟩
    · obtain ⟨a1, _, a3, _⟩ := hfm.links l h1
      rw [f.parent _ a1] at hq
      have hql := (ht.parent_live _ _ hq).2
      rcases hfm.edges.source l h1 q hq with h2 | ⟨i, o, r, c, h2, h3, h4⟩
      · exact .inl ((folded_above ht f a3).2 h2)
      · exact .inr ⟨i, o, r, c, by rw [f.old hql]; exact h2, by rw [f.parent _ hql]; exact h3,
          (folded_above ht f a3).2 h4⟩
    · refine .inl (.of_parent ?_)
      obtain ⟨_, _, _, _, p1, p2⟩ := f.new x hx
      exact p1.trans (p2.symm.trans hq)
    · refine .inl (.of_parent ?_)
      obtain ⟨_, _, _, _, p1, p2⟩ := f.new x hx
      exact (f.parent _ (hlive x hx)).trans (p1.symm.trans hq)
  · intro l hl hlin
    rcases f.links l hl with ⟨h1, _⟩ | ⟨x, hx, rfl | rfl⟩
    · obtain ⟨a1, _, a3, _⟩ := hfm.links l h1
      rw [f.old a1] at hlin
      rw [f.parent _ a1, f.parent _ a3]
      exact hfm.edges.linear l h1 hlin
    · obtain ⟨_, _, _, _, p1, p2⟩ := f.new x hx
      exact p1.trans p2.symm
    · obtain ⟨_, _, _, _, p1, p2⟩ := f.new x hx
      exact (f.parent _ (hlive x hx)).trans p1.symm
  · intro p hp hb
    rcases hold p hp with h1 | h1
    · rw [f.old h1] at hb
      obtain ⟨i, o, hio, hi, ho⟩ := hfm.io p h1 hb
      obtain ⟨a1, a2⟩ := io_parent ht hio
      obtain ⟨rest, hc⟩ := hio
      obtain ⟨new, hn, _⟩ := f.children p h1
      refine ⟨i, o, ⟨rest ++ new, by rw [hn, hc]; simp⟩, ?_, ?_⟩
      · rw [f.old (ht.parent_live _ _ a1).1]; exact hi
      · rw [f.old (ht.parent_live _ _ a2).1]; exact ho
    · rcases hop p h1 with ⟨t, h2⟩ | ⟨t, h2⟩ <;> rw [h2] at hb <;> cases hb
  · intro n rows other outs c hn hc
    have hpar := child_parent f.tree hc
    rcases hold n (f.tree.parent_live _ _ hpar).2 with h1 | h1
    · rw [f.old h1] at hn
      obtain ⟨new, he, hm⟩ := f.children n h1
      rw [he] at hc
      rcases List.mem_append.1 hc with hc | hc
      · obtain ⟨sig, hs⟩ := hfm.cases n _ _ _ c hn hc
        exact ⟨sig, by rw [f.old (ht.parent_live _ _ (child_parent ht hc)).1]; exact hs⟩
      · obtain ⟨x, hx, hxc⟩ := List.mem_flatMap.1 (hm c hc)
        obtain ⟨_, _, _, _, p1, p2⟩ := f.new x hx
        have hxp : h.hier.parent x.1.node = some n := by
          simp only [List.mem_cons, List.not_mem_nil, or_false] at hxc
          rcases hxc with rfl | rfl
          · rw [← p2]; exact hpar
          · rw [← p1]; exact hpar
        obtain ⟨sig, hs⟩ := hfm.cases n _ _ _ x.1.node hn ((ht.child_iff _ _).2 hxp)
        have := hport x hx
        rw [hs] at this
        simp [numIns, Op.ports] at this
    · rcases hop n h1 with ⟨t, h2⟩ | ⟨t, h2⟩ <;> rw [h2] at hn <;> cases hn
  · intro n sig hn hs
    rcases hold n hn with h1 | h1
    · rw [f.old h1] at hs
      obtain ⟨e, rest, x, y, z, hc, he⟩ := hfm.entry n sig h1 hs
      obtain ⟨new, hn', _⟩ := f.children n h1
      refine ⟨e, rest ++ new, x, y, z, by rw [hn', hc]; simp, ?_⟩
      rw [f.old (ht.parent_live _ _ (child_parent ht (n := n) (c := e) (by rw [hc]; simp))).1]; exact he
    · rcases hop n h1 with ⟨t, h2⟩ | ⟨t, h2⟩ <;> rw [h2] at hs <;> cases hs
  · intro l hl x y z hs
    rcases f.links l hl with ⟨h1, _⟩ | ⟨b, hb, rfl | rfl⟩
    · obtain ⟨a1, _, a3, _⟩ := hfm.links l h1
      rw [f.old a1] at hs
      obtain ⟨b1, p, b2, b3⟩ := hfm.succ l h1 x y z hs
      exact ⟨by rw [f.old a3]; exact b1, p, by rw [f.parent _ a1]; exact b2, by
        rw [f.parent _ a3]; exact b3⟩
    · simp only [(f.new b hb).1] at hs; cases hs
    · simp only [(f.new b hb).2.1] at hs; cases hs
  · intro l hl hab hne
    rw [f.roots.2] at hab hne ⊢
    rcases f.links l hl with ⟨h1, _⟩ | ⟨b, hb, rfl | rfl⟩
    · obtain ⟨a1, _, a3, _⟩ := hfm.links l h1
      rw [folded_above ht f a1] at hab
      exact (folded_above ht f a3).2 (hfm.inside l h1 hab hne)
    · obtain ⟨_, _, _, _, p1, p2⟩ := f.new b hb
      obtain ⟨q, hq, hab⟩ := (above_cases hab).resolve_left hne
      exact .step (p1.trans (p2.symm.trans hq)) hab
    · obtain ⟨_, _, _, _, p1, p2⟩ := f.new b hb
      obtain ⟨q, hq, hab⟩ := (above_cases hab).resolve_left hne
      exact .step ((f.parent _ (hlive b hb)).trans (p1.symm.trans hq)) hab

end Verif.Dataflow
