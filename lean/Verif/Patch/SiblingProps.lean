import Verif.Patch.SiblingLemmas

/-!
# Property C61: which subgraphs are accepted
-/
namespace Verif.Patch

open Verif.Graph Verif.Ops Verif.Passes Verif.Validate Verif.Dataflow

variable {Meta : Type} {C : Validate.Context} {h : Hugr Ops.Op Meta} {s : Subgraph} {p : Nat}

/-- The nodes are in dataflow regions. -/
def InFlow (h : Hugr Ops.Op Meta) (nodes : List Nat) : Prop :=
  ∀ n ∈ nodes, ∃ p, h.hier.parent n = some p ∧ (body (h.ops p)).isSome = true

section

variable (ht : IsTree h) (hv : Valid C h) (hflow : InFlow h s.nodes)

theorem InFlow.child (hv : Valid C h) (hflow : InFlow h s.nodes) {n : Nat} (hn : n ∈ s.nodes) : DataflowChild (h.ops n) := by
  obtain ⟨p, h1, h2⟩ := hflow n hn
  exact flow_child hv h2 h1

include ht in
theorem InFlow.live (hflow : InFlow h s.nodes) {n : Nat} (hn : n ∈ s.nodes) : h.live n = true := by
  obtain ⟨p, h1, h2⟩ := hflow n hn
  exact (ht.parent_live _ _ h1).1

include ht hv hflow in
/-- What the first three checks of the boundary leave. -/
theorem input_checks {np : Nat × Nat} (hn : np.1 ∈ s.nodes) :
    (isNonValueEdge h ⟨np.1, .incoming, np.2⟩ = false ∧ linkedOutside h s.nodes ⟨np.1, .incoming, np.2⟩ = true) ↔
    ∃ l ∈ h.links, l.dst = np.1 ∧ l.dstPort = np.2 ∧ l.src ∉ s.nodes ∧ ∃ t, srcKind h l = some (.value t) := by
  rw [outside_in, Bool.eq_false_iff, ne_eq, isNonValueEdge_iff]
  constructor
  · rintro ⟨h1, l, hl, h2, h3, h4⟩
    refine ⟨l, hl, h2, h3, h4, ?_⟩
    obtain ⟨kind, k1, k2, _⟩ := hv.kinds l hl
    have hne : linkedNodes h ⟨np.1, .incoming, np.2⟩ ≠ [] := by
      intro e
      have : l.src ∈ linkedNodes h ⟨np.1, .incoming, np.2⟩ := mem_linkedIn'.2 ⟨l, hl, h2, h3, rfl⟩
      rw [e] at this; cases this
    have := fun e => h1 ⟨hne, (nonValue_iff (hflow.child hv hn) (hv.tags _ (hflow.live ht hn)) (by rw [← h2, ← h3]; exact k2)).2 e⟩
    cases kind with
    | value t => exact ⟨t, k1⟩
    | _ => exact absurd rfl this
  · rintro ⟨l, hl, h2, h3, h4, t, k1⟩
    refine ⟨?_, l, hl, h2, h3, h4⟩
    rintro ⟨_, hor⟩
    obtain ⟨kind, k1', k2, _⟩ := hv.kinds l hl
    rw [k1] at k1'; cases k1'
    have := (nonValue_iff (hflow.child hv hn) (hv.tags _ (hflow.live ht hn)) (by rw [← h2, ← h3]; exact k2)).1 hor
    cases this

include ht hv hflow in
theorem output_checks {np : Nat × Nat} (hn : np.1 ∈ s.nodes) :
    (isNonValueEdge h ⟨np.1, .outgoing, np.2⟩ = false ∧ linkedOutside h s.nodes ⟨np.1, .outgoing, np.2⟩ = true) ↔
    ∃ l ∈ h.links, l.src = np.1 ∧ l.srcPort = np.2 ∧ l.dst ∉ s.nodes ∧ ∃ t, srcKind h l = some (.value t) := by
  rw [outside_out, Bool.eq_false_iff, ne_eq, isNonValueEdge_iff]
  constructor
  · rintro ⟨h1, l, hl, h2, h3, h4⟩
    refine ⟨l, hl, h2, h3, h4, ?_⟩
    obtain ⟨kind, k1, k2, _⟩ := hv.kinds l hl
    have hne : linkedNodes h ⟨np.1, .outgoing, np.2⟩ ≠ [] := by
      intro e
      have : l.dst ∈ linkedNodes h ⟨np.1, .outgoing, np.2⟩ := mem_linkedOut'.2 ⟨l, hl, h2, h3, rfl⟩
      rw [e] at this; cases this
    have := fun e => h1 ⟨hne, (nonValue_iff (hflow.child hv hn) (hv.tags _ (hflow.live ht hn)) (by rw [← h2, ← h3]; exact k1)).2 e⟩
    cases kind with
    | value t => exact ⟨t, k1⟩
    | _ => exact absurd rfl this
  · rintro ⟨l, hl, h2, h3, h4, t, k1⟩
    refine ⟨?_, l, hl, h2, h3, h4⟩
    rintro ⟨_, hor⟩
    have := (nonValue_iff (hflow.child hv hn) (hv.tags _ (hflow.live ht hn)) (by rw [← h2, ← h3]; exact k1)).1 hor
    cases this

/-- The three checks of the boundary, together. -/
theorem boundary_checks {A B D : AnyPort → Bool} {L : List AnyPort} :
    (L.any A = false ∧ L.any B = false ∧ L.any (fun q => !D q) = false) ↔
      ∀ q ∈ L, A q = false ∧ B q = false ∧ D q = true := by
  simp only [List.any_eq_false, Bool.not_eq_true, Bool.not_eq_false']
  constructor
  · rintro ⟨h1, h2, h3⟩ q hq
    exact ⟨h1 q hq, h2 q hq, h3 q hq⟩
  · intro hh
    exact ⟨fun q hq => (hh q hq).1, fun q hq => (hh q hq).2.1, fun q hq => (hh q hq).2.2⟩

include ht hv hflow in
theorem io_checks : (∀ q ∈ iterIo s.inputs s.outputs, isNonValueEdge h q = false ∧ decide (q.node ∉ s.nodes) = false ∧
      linkedOutside h s.nodes q = true) ↔
    (∀ np ∈ s.inputs.flatten, np.1 ∈ s.nodes ∧ ∃ l ∈ h.links, l.dst = np.1 ∧ l.dstPort = np.2 ∧ l.src ∉ s.nodes ∧
      ∃ t, srcKind h l = some (.value t)) ∧
    (∀ np ∈ s.outputs, np.1 ∈ s.nodes ∧ ∃ l ∈ h.links, l.src = np.1 ∧ l.srcPort = np.2 ∧ l.dst ∉ s.nodes ∧
      ∃ t, srcKind h l = some (.value t)) := by
  unfold iterIo incomingPorts outgoingPorts
  simp only [List.forall_mem_append, List.forall_mem_map, decide_eq_false_iff_not, Decidable.not_not]
  constructor
  · rintro ⟨h1, h2⟩
    exact ⟨fun np hnp => ⟨(h1 np hnp).2.1, (input_checks ht hv hflow (h1 np hnp).2.1).1 ⟨(h1 np hnp).1, (h1 np hnp).2.2⟩⟩,
      fun np hnp => ⟨(h2 np hnp).2.1, (output_checks ht hv hflow (h2 np hnp).2.1).1 ⟨(h2 np hnp).1, (h2 np hnp).2.2⟩⟩⟩
  · rintro ⟨h1, h2⟩
    refine ⟨fun np hnp => ?_, fun np hnp => ?_⟩
    · obtain ⟨e1, e2⟩ := (input_checks ht hv hflow (h1 np hnp).1).2 (h1 np hnp).2
      exact ⟨e1, (h1 np hnp).1, e2⟩
    · obtain ⟨e1, e2⟩ := (output_checks ht hv hflow (h2 np hnp).1).2 (h2 np hnp).2
      exact ⟨e1, (h2 np hnp).1, e2⟩

include ht hv in
theorem enters_check : (((nodeInputs h s.nodes).filter fun np => linkedOutside h s.nodes ⟨np.1, .incoming, np.2⟩).any fun np =>
      !(s.inputs ++ s.functionCalls).any fun nps => np ∈ nps) = false ↔
    ∀ l ∈ h.links, l.src ∉ s.nodes → l.dst ∈ s.nodes →
      (l.dst, l.dstPort) ∈ s.inputs.flatten ∨ (l.dst, l.dstPort) ∈ s.functionCalls.flatten := by
  have hmem : ∀ np : Nat × Nat, ((s.inputs ++ s.functionCalls).any fun nps => decide (np ∈ nps)) = true ↔
      np ∈ s.inputs.flatten ∨ np ∈ s.functionCalls.flatten := by
    intro np
    rw [List.any_append, Bool.or_eq_true]
    simp
  rw [List.any_eq_false]
  have hb : ∀ b : Bool, (¬ (!b) = true) ↔ b = true := by decide
  simp only [hb, hmem, List.mem_filter, mem_nodeInputs, outside_in]
  constructor
  · intro hh l hl h1 h2
    exact hh (l.dst, l.dstPort) ⟨⟨h2, (valid_linksOk ht hv l hl).2.2.2⟩, l, hl, rfl, rfl, h1⟩
  · rintro hh np ⟨⟨h1, _⟩, l, hl, h2, h3, h4⟩
    have := hh l hl h4 (by rw [h2]; exact h1)
    rw [h2, h3] at this
    exact this

include ht hv in
theorem leaves_check : ((nodeOutputs h s.nodes).any fun np =>
      linkedOutside h s.nodes ⟨np.1, .outgoing, np.2⟩ && decide (np ∉ s.outputs)) = false ↔
    ∀ l ∈ h.links, l.src ∈ s.nodes → l.dst ∉ s.nodes → (l.src, l.srcPort) ∈ s.outputs := by
  simp only [List.any_eq_false, mem_nodeOutputs, Bool.and_eq_true, decide_eq_true_eq, not_and, Decidable.not_not, outside_out]
  constructor
  · intro hh l hl h1 h2
    exact hh (l.src, l.srcPort) ⟨h1, (valid_linksOk ht hv l hl).2.1⟩ ⟨l, hl, rfl, rfl, h2⟩
  · rintro hh np ⟨h1, _⟩ ⟨l, hl, h2, h3, h4⟩
    have := hh l hl (by rw [h2]; exact h1) h4
    rw [h2, h3] at this
    exact this

/-- What a port is linked to, if it has one link. -/
theorem single_iff {n port : Nat} (h1 : (linksTo h n port).length = 1) : ∃ a ap, singleLinkedOutput h n port = some (a, ap) ∧
    ∀ a' ap', ⟨a', ap', n, port⟩ ∈ h.links ↔ a' = a ∧ ap' = ap :=
  singleLinked_of_count ((count_linksTo n port).trans h1)

theorem same_source {part : List (Nat × Nat)} (h1 : ∀ np ∈ part, (linksTo h np.1 np.2).length = 1) :
    (∀ a ∈ part, ∀ b ∈ part, singleLinkedOutput h a.1 a.2 = singleLinkedOutput h b.1 b.2) ↔
    ∀ l ∈ h.links, ∀ l' ∈ h.links, (l.dst, l.dstPort) ∈ part → (l'.dst, l'.dstPort) ∈ part →
      l.src = l'.src ∧ l.srcPort = l'.srcPort := by
  constructor
  · intro hh l hl l' hl' hm hm'
    have he := hh _ hm _ hm'
    obtain ⟨a, ap, e1, e2⟩ := single_iff (h1 _ hm)
    obtain ⟨b, bp, e3, e4⟩ := single_iff (h1 _ hm')
    simp only [] at he e1 e3
    rw [e1, e3] at he
    cases he
    obtain ⟨r1, r2⟩ := (e2 l.src l.srcPort).1 hl
    obtain ⟨r3, r4⟩ := (e4 l'.src l'.srcPort).1 hl'
    exact ⟨r1.trans r3.symm, r2.trans r4.symm⟩
  · intro hh x hx y hy
    obtain ⟨a, ap, e1, e2⟩ := single_iff (h1 _ hx)
    obtain ⟨b, bp, e3, e4⟩ := single_iff (h1 _ hy)
    obtain ⟨r1, r2⟩ := hh _ ((e2 a ap).2 ⟨rfl, rfl⟩) _ ((e4 b bp).2 ⟨rfl, rfl⟩) hx hy
    simp only [] at r1 r2
    rw [e1, e3, r1, r2]

include ht hv hflow in
/-- The types of inputs are right in a valid Hugr. -/
theorem types_check (hin : ∀ np ∈ s.inputs.flatten, np.1 ∈ s.nodes ∧ ∃ l ∈ h.links, l.dst = np.1 ∧ l.dstPort = np.2 ∧
      l.src ∉ s.nodes ∧ ∃ t, srcKind h l = some (.value t)) (hnd : s.inputs.flatten.Nodup) (hfill : [] ∉ s.inputs)
    (hsh : ∀ part ∈ s.inputs, ∀ l ∈ h.links, ∀ l' ∈ h.links, (l.dst, l.dstPort) ∈ part →
      (l'.dst, l'.dstPort) ∈ part → l.src = l'.src ∧ l.srcPort = l'.srcPort) : s.inputs.all (partTypeOk h) = true := by
  rw [List.all_eq_true]
  intro part hpart
  cases part with
  | nil => exact absurd hpart hfill
  | cons np rest =>
    have hmem : ∀ x ∈ np :: rest, x ∈ s.inputs.flatten := fun x hx => List.mem_flatten.2 ⟨_, hpart, hx⟩
    obtain ⟨hn, l, hl, h1, h2, h3, t, h4⟩ := hin np (hmem np (by simp))
    have htype : ∀ x ∈ np :: rest, portType h x.1 .incoming x.2 = some t := by
      intro x hx
      obtain ⟨hn', l', hl', h1', h2', h3', t', h4'⟩ := hin x (hmem x hx)
      obtain ⟨e1, e2⟩ := hsh _ hpart l hl l' hl' (by rw [h1, h2]; simp) (by rw [h1', h2']; exact hx)
      have : t' = t := by
        simp only [srcKind] at h4 h4'
        rw [← e1, ← e2, h4] at h4'
        cases h4'; rfl
      subst this
      obtain ⟨kind, k1, k2, _⟩ := hv.kinds l' hl'
      rw [h4'] at k1; cases k1
      refine ports_portType (hv.tags _ (hflow.live ht hn')) ?_
      rw [← h1', ← h2']; exact k2
    unfold partTypeOk edgeType
    obtain ⟨n, port⟩ := np
    simp only []
    rw [show portType h n .incoming port = some t from htype (n, port) (by simp)]
    simp only []
    rw [if_pos (by rw [List.all_eq_true]; intro x hx; simpa using htype x (by simp [hx]))]
    simp only [Bool.or_eq_true, decide_eq_true_eq]
    by_cases hc : t.copyable = true
    · exact .inr hc
    · left
      cases rest with
      | nil => simp
      | cons x rest =>
        exfalso
        obtain ⟨hn', l', hl', h1', h2', h3', t', h4'⟩ := hin x (hmem x (by simp))
        obtain ⟨e1, e2⟩ := hsh _ hpart l hl l' hl' (by rw [h1, h2]; simp) (by rw [h1', h2']; simp)
        have hd := hv.outDegree l.src l.srcPort (.value t) (valid_linksOk ht hv l hl).1 h4
        simp only [OutDegreeOk, hc, false_or, Bool.false_eq_true] at hd
        obtain ⟨y, hy⟩ := List.length_eq_one_iff.1 hd
        have m1 : l ∈ linksFrom h l.src l.srcPort := by simp [linksFrom, hl]
        have m2 : l' ∈ linksFrom h l.src l.srcPort := by simp [linksFrom, hl', e1, e2]
        rw [hy, List.mem_singleton] at m1 m2
        have hx : (n, port) = x := by
          rw [← m2] at m1
          rw [m1] at h1 h2
          exact Prod.ext (h1.symm.trans h1') (h2.symm.trans h2')
        have hnd' : ((n, port) :: x :: rest).Nodup := (List.nodup_flatten.1 hnd).1 _ hpart
        rw [hx] at hnd'
        simp at hnd'

end

/-- **C61** `validate_subgraph` accepts a subgraph of dataflow regions of a valid Hugr exactly if its boundary is
right, and does not panic. The ports named as calls have one link. -/
theorem C61_validate_subgraph (ht : IsTree h) (hv : Valid C h) (hflow : InFlow h s.nodes)
    (hcall : ∀ np ∈ s.functionCalls.flatten, h.live np.1 = true ∧ (linksTo h np.1 np.2).length = 1) :
    (validateSubgraph h s.nodes s.inputs s.outputs s.functionCalls = .ok () ↔ Bounded h s) ∧
    validateSubgraph h s.nodes s.inputs s.outputs s.functionCalls ≠ .panic := by
  cases hs : s.nodes with
  | nil =>
    have : ∀ a b c, validateSubgraph h [] a b c = .err .emptySubgraph := fun _ _ _ => rfl
    rw [this]
    refine ⟨⟨nofun, fun hb => absurd hs hb.nonempty⟩, nofun⟩
  | cons first rest =>
    unfold validateSubgraph
    simp only []
    rw [← hs]
    by_cases hsib : (rest.all fun n => decide (h.getParent n = h.getParent first)) = true
    · rw [if_pos hsib]
      have hsib' : ∀ a ∈ s.nodes, ∀ b ∈ s.nodes, h.hier.parent a = h.hier.parent b := by
        have : ∀ a ∈ s.nodes, h.hier.parent a = h.hier.parent first := by
          intro a ha
          rw [hs] at ha
          rcases List.mem_cons.1 ha with rfl | ha
          · rfl
          · have := List.all_eq_true.1 hsib a ha
            simpa [getParent_eq ht] using this
        intro a ha b hb
        rw [this a ha, this b hb]
      by_cases hio : ∀ q ∈ iterIo s.inputs s.outputs, isNonValueEdge h q = false ∧ decide (q.node ∉ s.nodes) = false ∧
          linkedOutside h s.nodes q = true
      · obtain ⟨b1, b2, b3⟩ := boundary_checks.2 hio
        rw [b1, b2, b3]
        simp only [Bool.false_eq_true, if_false]
        obtain ⟨i1, i2⟩ := (io_checks ht hv hflow).1 hio
        by_cases he : ∀ l ∈ h.links, l.src ∉ s.nodes → l.dst ∈ s.nodes →
            (l.dst, l.dstPort) ∈ s.inputs.flatten ∨ (l.dst, l.dstPort) ∈ s.functionCalls.flatten
        · rw [(enters_check ht hv).2 he]
          simp only [Bool.false_eq_true, if_false]
          by_cases hl : ∀ l ∈ h.links, l.src ∈ s.nodes → l.dst ∉ s.nodes → (l.src, l.srcPort) ∈ s.outputs
          · rw [(leaves_check ht hv).2 hl]
            simp only [Bool.false_eq_true, if_false]
            by_cases hnd : s.inputs.flatten.Nodup
            · rw [if_pos hnd]
              have hcnt : ∀ np ∈ s.inputs.flatten, (linksTo h np.1 np.2).length = 1 := by
                intro np hnp
                obtain ⟨hn, l, hl', h1, h2, _, t, h4⟩ := i1 np hnp
                obtain ⟨kind, k1, k2, _⟩ := hv.kinds l hl'
                rw [h4] at k1; cases k1
                rw [h1, h2] at k2
                exact hv.inDegree np.1 np.2 _ (hflow.live ht hn) k2
              obtain ⟨c1, c2⟩ := checkParts_ok (h := h) (inputs := s.inputs) fun np hnp => by
                obtain ⟨a, ap, e, _⟩ := single_iff (hcnt np hnp)
                exact ⟨_, e⟩
              have hshared : (∀ part ∈ s.inputs, ∀ a ∈ part, ∀ b ∈ part,
                  singleLinkedOutput h a.1 a.2 = singleLinkedOutput h b.1 b.2) ↔
                  ∀ part ∈ s.inputs, ∀ l ∈ h.links, ∀ l' ∈ h.links, (l.dst, l.dstPort) ∈ part →
                    (l'.dst, l'.dstPort) ∈ part → l.src = l'.src ∧ l.srcPort = l'.srcPort := by
                refine forall_congr' fun part => forall_congr' fun hp => same_source fun np hnp => ?_
                exact hcnt np (List.mem_flatten.2 ⟨_, hp, hnp⟩)
              rw [hshared] at c1
              cases hcp : checkParts h s.inputs with
              | ok u =>
                obtain ⟨f1, f2⟩ := c1.1 hcp
                simp only []
                rw [if_pos (types_check ht hv hflow i1 hnd f1 f2)]
                have hcalls : s.functionCalls.all (callsOk h) = true ↔
                    (∀ np ∈ s.functionCalls.flatten, ∃ kind, ((h.ops np.1).ports .incoming)[np.2]? = some kind ∧
                      kind.isStatic = true) ∧
                    ∀ part ∈ s.functionCalls, ∀ l ∈ h.links, ∀ l' ∈ h.links, (l.dst, l.dstPort) ∈ part →
                      (l'.dst, l'.dstPort) ∈ part → l.src = l'.src ∧ l.srcPort = l'.srcPort := by
                  have hpart : ∀ part ∈ s.functionCalls, callsOk h part = true ↔
                      (∀ np ∈ part, ∃ kind, ((h.ops np.1).ports .incoming)[np.2]? = some kind ∧ kind.isStatic = true) ∧
                      ∀ l ∈ h.links, ∀ l' ∈ h.links, (l.dst, l.dstPort) ∈ part →
                        (l'.dst, l'.dstPort) ∈ part → l.src = l'.src ∧ l.srcPort = l'.srcPort := by
                    intro part hp
                    rw [← same_source fun np hnp => (hcall np (List.mem_flatten.2 ⟨_, hp, hnp⟩)).2]
                    have hst : ∀ np ∈ part, (portIs ((h.ops np.1).staticPort .incoming) np.2 = true ↔
                        ∃ kind, ((h.ops np.1).ports .incoming)[np.2]? = some kind ∧ kind.isStatic = true) :=
                      fun np hnp => isStatic_at (hv.tags _ (hcall np (List.mem_flatten.2 ⟨_, hp, hnp⟩)).1)
                    cases part with
                    | nil => simp [callsOk]
                    | cons np rest' =>
                      unfold callsOk
                      rw [Bool.and_eq_true, List.all_eq_true, List.all_eq_true]
                      constructor
                      · rintro ⟨a1, a2⟩
                        refine ⟨fun x hx => (hst x hx).1 (a2 x hx), ?_⟩
                        have : ∀ x ∈ np :: rest', singleLinkedOutput h x.1 x.2 = singleLinkedOutput h np.1 np.2 := by
                          intro x hx
                          rcases List.mem_cons.1 hx with rfl | hx
                          · rfl
                          · simpa using a1 x hx
                        intro x hx y hy
                        rw [this x hx, this y hy]
                      · rintro ⟨a1, a2⟩
                        exact ⟨fun x hx => by simpa using a2 x (by simp [hx]) np (by simp),
                          fun x hx => (hst x hx).2 (a1 x hx)⟩
                  rw [List.all_eq_true]
                  constructor
                  · intro hh
                    refine ⟨fun np hnp => ?_, fun part hp => ((hpart part hp).1 (hh part hp)).2⟩
                    obtain ⟨part, hp, hm⟩ := List.mem_flatten.1 hnp
                    exact ((hpart part hp).1 (hh part hp)).1 np hm
                  · rintro ⟨a1, a2⟩ part hp
                    exact (hpart part hp).2 ⟨fun np hnp => a1 np (List.mem_flatten.2 ⟨_, hp, hnp⟩), a2 part hp⟩
                by_cases hcc : s.functionCalls.all (callsOk h) = true
                · rw [if_pos hcc]
                  obtain ⟨g1, g2⟩ := hcalls.1 hcc
                  exact ⟨⟨fun _ => ⟨by rw [hs]; simp, hsib', i1, i2, he, hl, hnd, f1, f2, g1, g2⟩, fun _ => rfl⟩,
                    nofun⟩
                · rw [if_neg hcc]
                  exact ⟨⟨nofun, fun hb => absurd (hcalls.2 ⟨hb.static, hb.called⟩) hcc⟩, nofun⟩
              | err e =>
                refine ⟨⟨nofun, fun hb => ?_⟩, nofun⟩
                have := c1.2 ⟨hb.filled, hb.shared⟩
                rw [hcp] at this; cases this
              | panic => exact absurd hcp c2
            · rw [if_neg hnd]
              exact ⟨⟨nofun, fun hb => absurd hb.distinct hnd⟩, nofun⟩
          · have : ¬ ((nodeOutputs h s.nodes).any fun np =>
                linkedOutside h s.nodes ⟨np.1, .outgoing, np.2⟩ && decide (np ∉ s.outputs)) = false :=
              fun e => hl ((leaves_check ht hv).1 e)
            rw [Bool.not_eq_false] at this
            rw [this]
            simp only [if_true]
            exact ⟨⟨nofun, fun hb => absurd hb.leaves hl⟩, nofun⟩
        · have : ¬ (((nodeInputs h s.nodes).filter fun np => linkedOutside h s.nodes ⟨np.1, .incoming, np.2⟩).any fun np =>
                !(s.inputs ++ s.functionCalls).any fun nps => np ∈ nps) = false :=
            fun e => he ((enters_check ht hv).1 e)
          rw [Bool.not_eq_false] at this
          rw [this]
          simp only [if_true]
          exact ⟨⟨nofun, fun hb => absurd hb.enters he⟩, nofun⟩
      · have hno : ¬ Bounded h s := fun hb => hio ((io_checks ht hv hflow).2 ⟨hb.input, hb.output⟩)
        have hnot := fun e => hio (boundary_checks.1 e)
        by_cases c1 : (iterIo s.inputs s.outputs).any (isNonValueEdge h) = true
        · rw [if_pos c1]
          exact ⟨⟨nofun, fun hb => absurd hb hno⟩, nofun⟩
        · rw [if_neg c1]
          by_cases c2 : ((iterIo s.inputs s.outputs).any fun q => decide (q.node ∉ s.nodes)) = true
          · rw [if_pos c2]
            exact ⟨⟨nofun, fun hb => absurd hb hno⟩, nofun⟩
          · rw [if_neg c2]
            by_cases c3 : ((iterIo s.inputs s.outputs).any fun q => !linkedOutside h s.nodes q) = true
            · rw [if_pos c3]
              exact ⟨⟨nofun, fun hb => absurd hb hno⟩, nofun⟩
            · exact absurd ⟨by simpa using c1, by simpa using c2, by simpa using c3⟩ hnot
    · rw [if_neg hsib]
      have hno : ¬ Bounded h s := by
        intro hb
        refine hsib (List.all_eq_true.2 fun a ha => ?_)
        simp only [decide_eq_true_eq, getParent_eq ht]
        exact hb.siblings a (by rw [hs]; simp [ha]) first (by rw [hs]; simp)
      obtain ⟨q, hq, _⟩ := hflow first (by rw [hs]; simp)
      have hq' : h.getParent first = some q := (getParent_eq ht first).trans hq
      rw [hq']
      simp only []
      cases hf : s.nodes.find? fun n => decide (h.getParent n ≠ some q) with
      | none =>
        exfalso
        refine hsib (List.all_eq_true.2 fun a ha => ?_)
        have := List.find?_eq_none.1 hf a (by rw [hs]; simp [ha])
        rw [hq']
        simpa using this
      | some other =>
        simp only []
        split
        · exact ⟨⟨nofun, fun hb => absurd hb hno⟩, nofun⟩
        · exact ⟨⟨nofun, fun hb => absurd hb hno⟩, nofun⟩

end Verif.Patch
