import Verif.Patch.MoveInEntry

/-!
# C76: the order edges to the control-flow graph

What the entry block computes and a later block uses comes before the control-flow graph: each such node is linked to it
by an order edge.
-/
namespace Verif.Patch

open Verif.Graph Verif.Ops Verif.Passes Verif.Validate Verif.Dataflow

variable {Meta : Type} {h : Hugr Ops.Op Meta} {C : Validate.Context}

/-- What is used outside of its block has a value as output. -/
theorem usedOutside_value {E n : Nat} (hv : Valid C h) (hn : h.hier.parent n = some E) (hu : UsedOutside h E n) :
    ∃ t, Kind.value t ∈ (h.ops n).ports .outgoing := by
  obtain ⟨l, hl, rfl, hno⟩ := hu
  obtain ⟨kind, hk, _, p, hp, hor⟩ := hv.kinds l hl
  rw [hn] at hp
  cases hp
  rcases hor with h1 | ⟨q, a, h1, h2, hor⟩
  · exact absurd (.of_parent h1) hno
  · have up : Above h.hier.parent l.dst a := .step h1 h2
    rcases hor with ⟨_, h3⟩ | ⟨⟨t, rfl, _⟩, _⟩
    · exact absurd (up.trans (.of_parent h3)) hno
    · exact ⟨t, List.mem_of_getElem? hk⟩

namespace FirstAt

variable {p G E S i o : Nat} {more inner : List Nat} {sig : Types.Signature} {row other : List Types.Ty}
  (z : FirstAt C h p G E S i o more inner sig row other)

include z

theorem ordered {d w : Nat} (hd : h.live d = false) (hw : h.live w = false) {g : Hugr Ops.Op Meta}
    (m : EntryMoved h p G E S o d w more sig row other g) (srcs : List Nat)
    (hs : ∀ n ∈ srcs, h.hier.parent n = some E ∧ UsedOutside h E n) :
    each (fun g n => addOtherEdge g n G) g srcs =
        some (SetLinks g (g.links ++ srcs.map fun n => (⟨n, h.outs n - 1, G, (row ++ other).length⟩ : Link))) ∧
      ∀ n ∈ srcs, g.live n = true ∧ n ≠ o ∧ ((h.ops n).ports .outgoing)[h.outs n - 1]? = some .stateOrder := by
  have nd : ∀ {x}, h.live x = true → x ≠ d := fun a e => by rw [e, hd] at a; cases a
  have nw : ∀ {x}, h.live x = true → x ≠ w := fun a e => by rw [e, hw] at a; cases a
  have gG : g.live G = true := (m.live G).2 (.inl ⟨z.liveG, Ne.symm z.EG⟩)
  have opG : g.ops G = .cfg ⟨row ++ other, sig.output⟩ := by
    rw [m.ops G gG, if_neg (nw z.liveG), if_neg (nd z.liveG), if_pos rfl]
  have hoG : HasOrder g G .incoming := by
    have hm : Kind.stateOrder ∈ (g.ops G).ports .incoming := by rw [opG]; simp [Op.ports]
    obtain ⟨h1, h2, _⟩ := otherPort_last (op := g.ops G) (by rw [opG]; rfl) hm (.inr rfl)
    refine ⟨gG, h1, ?_⟩
    show _ < g.ins G
    rw [(m.ports G gG).1, if_neg (nw z.liveG), if_neg (nd z.liveG), if_pos (.inl rfl)]
    rw [opG] at h2 ⊢
    simp only [Op.ports, List.length_append, List.length_map, List.length_singleton] at h2 ⊢
    exact h2
  have lastG : lastPort (g.ops G) .incoming = (row ++ other).length := by
    rw [opG]; simp [lastPort, Op.ports]
  have src : ∀ n ∈ srcs, HasOrder g n .outgoing ∧ lastPort (g.ops n) .outgoing = h.outs n - 1 ∧
      g.live n = true ∧ n ≠ o ∧ ((h.ops n).ports .outgoing)[h.outs n - 1]? = some .stateOrder := by
    intro n hn
    obtain ⟨hp, hu⟩ := hs n hn
    have ln : h.live n = true := (z.tree.parent_live _ _ hp).1
    obtain ⟨n1, n2, _, _⟩ := z.inE hp
    obtain ⟨t, ht⟩ := usedOutside_value z.valid hp hu
    have no : n ≠ o := by
      rintro rfl
      rw [z.opO] at ht
      simp [Op.ports] at ht
    have gn : g.live n = true := (m.live n).2 (.inl ⟨ln, n1⟩)
    have on : g.ops n = h.ops n := by
      rw [m.ops n gn, if_neg (nw ln), if_neg (nd ln), if_neg n2, if_neg no]
    have outs : g.outs n = h.outs n := by
      rw [(m.ports n gn).2, if_neg (nw ln), if_neg (nd ln)]
    obtain ⟨h1, h2, h3⟩ := otherPort_last (z.valid.tags n ln) ht (.inl rfl)
    have e : lastPort (h.ops n) .outgoing = h.outs n - 1 := by
      unfold lastPort; rw [(z.valid.ports n ln).2]
    refine ⟨⟨gn, by rw [on]; exact h1, ?_⟩, by rw [on]; exact e, gn, no, (h3 _).2 e.symm⟩
    show _ < g.outs n
    rw [on, outs, (z.valid.ports n ln).2]
    exact h2
  refine ⟨?_, fun n hn => (src n hn).2.2⟩
  have := orderFrom_eq hoG srcs (fun n hn => (src n hn).1)
  unfold orderFrom at this
  rw [this]
  congr 3
  apply List.map_congr_left
  intro n hn
  unfold ordLink
  rw [(src n hn).2.1, lastG]

end FirstAt

/-- **C76** When the entry block goes only to one other block and nothing goes to it, then putting its contents into a
dataflow graph `d` before the control-flow graph `G` and adding the order edges does not panic. There is one order edge to
`G` for each node of the block that is used outside of it, from the order port of the node to the order port of `G`. All of
moving the entry block out is this and then inlining `d`. Partial: the result of inlining `d` is not described. -/
theorem C76_entry_ordered_partial (ht : IsTree h) (hv : Valid C h) (hm : h.ops h.moduleRoot = .module) {E S d w : Nat}
    {sig : Types.Signature} (hs : StartsWith h h.entrypoint E S sig) (hd : h.live d = false) (hw : h.live w = false)
    (hdw : d ≠ w) :
    ∃ g p i o more row other, ∃ srcs : List Nat, h.hier.parent h.entrypoint = some p ∧ h.children h.entrypoint = E :: more ∧ HasIO h E i o ∧
      h.ops E = .dataflowBlock sig.input other [row] ∧
      EntryMoved h p h.entrypoint E S o d w more sig row other g ∧ srcs.Nodup ∧
      (∀ n, n ∈ srcs ↔ h.hier.parent n = some E ∧ UsedOutside h E n) ∧
      (∀ n ∈ srcs, ((h.ops n).ports .outgoing)[h.outs n - 1]? = some .stateOrder) ∧
      ∀ k, entryOut h h.entrypoint E S d w = some k ↔
        inlineDfg { g with links := g.links ++ srcs.map fun n => ⟨n, h.outs n - 1, h.entrypoint, (row ++ other).length⟩ } d = .ok k := by
  obtain ⟨p, i, o, more, inner, row, other, z⟩ := hs.at' ht hv hm rfl
  obtain ⟨g, h1, h2, h3⟩ := z.entryBefore_eq hd hw hdw
  obtain ⟨srcs, h4⟩ := C76_entry_uses_found_partial ht hv z.upE
  have h5 : ∀ n, n ∈ srcs ↔ h.hier.parent n = some E ∧ UsedOutside h E n := by
    intro n
    rw [C76_entry_order_sources_partial ht z.upE h4 n]
    exact and_congr_left fun _ => ht.child_iff _ _
  obtain ⟨h6, h7⟩ := z.ordered hd hw h3 srcs (fun n hn => (h5 n).1 hn)
  have sub : ∀ (ns srcs : List Nat), usedOutside h h.entrypoint E ns = some srcs → srcs.Sublist ns := by
    intro ns
    induction ns with
    | nil => intro srcs e; cases e; exact .slnil
    | cons n ns ih =>
      intro srcs e
      unfold usedOutside at e
      cases hb : anyOutside h h.entrypoint E (outputNeighbours h n) with
      | none => rw [hb] at e; cases e
      | some b =>
        cases hr : usedOutside h h.entrypoint E ns with
        | none => rw [hb, hr] at e; cases e
        | some rest =>
          rw [hb, hr] at e
          simp only [Option.some.injEq] at e
          subst e
          split
          · exact (ih _ hr).cons_cons _
          · exact (ih _ hr).cons _
  refine ⟨g, p, i, o, more, row, other, srcs, z.parent, z.children, ⟨_, z.inside⟩, z.opE, h3,
    (sub _ _ h4).nodup (ht.child_once E), h5, fun n hn => (h7 n hn).2.2, ?_⟩
  unfold entryOut
  have si : (h.ops E).successorInput 0 = some (row ++ other) := by rw [z.opE]; rfl
  have gp : h.getParent h.entrypoint = some p := by rw [getParent_eq ht]; exact z.parent
  rw [si, gp, z.op, z.opE]
  simp only [h4, h1, h6]
  intro k
  show _ ↔ inlineDfg (SetLinks g _) d = .ok k
  cases inlineDfg (SetLinks g (g.links ++ srcs.map fun n => ⟨n, h.outs n - 1, h.entrypoint, (row ++ other).length⟩)) d <;> simp

/-- 14 is the only node of the block 5 of `entryHistory` that is used outside, so there is one order edge. -/
example : ∃ g p i o more row other, ∃ srcs : List Nat, HasIO (built entryHistory) 5 i o ∧
    EntryMoved (built entryHistory) p 4 5 7 o 20 21 more ⟨[bool], [bool]⟩ row other g ∧ 14 ∈ srcs ∧
    ((built entryHistory).ops 14).ports .outgoing = [.value (sumOf [[], []]), .stateOrder] ∧
    (entryOut (built entryHistory) 4 5 7 20 21).isSome = true ∧
    ∀ k, entryOut (built entryHistory) 4 5 7 20 21 = some k ↔
      inlineDfg { g with links := g.links ++ srcs.map fun n => ⟨n, (built entryHistory).outs n - 1, 4, (row ++ other).length⟩ } 20 = .ok k := by
  obtain ⟨g, p, i, o, more, row, other, srcs, _, _, h3, _, h5, _, h7, _, h9⟩ :=
    C76_entry_ordered_partial (d := 20) (w := 21) entry_ok.1 entry_ok.2 rfl
      (by exact entry_starts) (by decide +kernel) (by decide +kernel) (by decide)
  have e4 : (built entryHistory).entrypoint = 4 := by decide +kernel
  rw [e4] at h9
  refine ⟨g, p, i, o, more, row, other, srcs, h3, h5, (h7 14).2 ⟨by decide +kernel, ⟨14, 0, 13, 0⟩, by decide +kernel, rfl, ?_⟩,
    by decide +kernel, by decide +kernel, h9⟩
  intro hc
  have h13 : (built entryHistory).hier.parent 13 = some 7 := by decide +kernel
  have h7' : (built entryHistory).hier.parent 7 = some 4 := by decide +kernel
  have h5' : (built entryHistory).hier.parent 5 = some 4 := by decide +kernel
  exact absurd (same_child entry_ok.1 (.of_parent h13) hc h7' h5') (by decide)

end Verif.Patch
