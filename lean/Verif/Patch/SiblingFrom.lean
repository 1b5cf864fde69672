import Verif.Patch.SiblingInner

/-!
# Subgraphs from sets of nodes
-/
namespace Verif.Patch

open Verif.Graph Verif.Ops Verif.Passes Verif.Validate Verif.Dataflow Relation

variable {Meta : Type} {C : Validate.Context} {h : Hugr Ops.Op Meta} {p : Nat}

/-- Only values and calls cross the boundary of the nodes, and calls only into them. -/
def Crossable (h : Hugr Ops.Op Meta) (nodes : List Nat) : Prop :=
  ∀ l ∈ h.links, Crosses nodes l → (∃ t, srcKind h l = some (.value t)) ∨
    (l.dst ∈ nodes ∧ ∃ s, srcKind h l = some (.function s))

/-- The ports with links into the nodes. -/
def crossIn (h : Hugr Ops.Op Meta) (N : List Nat) : List (Nat × Nat) :=
  (linkedIn h N).filter fun np => linkedOutside h N ⟨np.1, .incoming, np.2⟩

theorem flatten_singles {α : Type} (l : List α) : (l.map fun x => [x]).flatten = l := by
  induction l with
  | nil => rfl
  | cons a l ih => simp only [List.map_cons, List.flatten_cons, ih, List.singleton_append]

theorem filter_singles {α : Type} (l : List α) (f : List α → Bool) :
    (l.map fun x => [x]).filter f = (l.filter fun x => f [x]).map fun x => [x] := by
  rw [List.filter_map]; rfl

theorem nodeInputs_nodup {N : List Nat} (hnd : N.Nodup) : (nodeInputs h N).Nodup := by
  unfold nodeInputs
  rw [List.nodup_flatMap]
  refine ⟨fun n _ => List.nodup_range.map fun a b e => (Prod.mk.inj e).2, ?_⟩
  refine hnd.imp fun {a b} hab => ?_
  intro x hx hy
  obtain ⟨_, _, rfl⟩ := List.mem_map.1 hx
  obtain ⟨_, _, e⟩ := List.mem_map.1 hy
  exact hab (congrArg Prod.fst e).symm

section

variable {N : List Nat} (ht : IsTree h) (hv : Valid C h) (hp : (body (h.ops p)).isSome = true)
  (hN : ∀ n ∈ N, h.hier.parent n = some p) (hone : ∀ n ∈ N, ∀ port, (linksTo h n port).length ≤ 1)

include hone in
theorem link_unique {l l' : Link} (hl : l ∈ h.links) (hl' : l' ∈ h.links) (hd : l.dst ∈ N) (h1 : l'.dst = l.dst)
    (h2 : l'.dstPort = l.dstPort) : l = l' := by
  have m1 : l ∈ linksTo h l.dst l.dstPort := by simp [linksTo, hl]
  have m2 : l' ∈ linksTo h l.dst l.dstPort := by simp [linksTo, hl', h1, h2]
  have := hone _ hd l.dstPort
  match hls : linksTo h l.dst l.dstPort, this with
  | [], _ => rw [hls] at m1; cases m1
  | [x], _ =>
    rw [hls, List.mem_singleton] at m1 m2
    rw [m1, m2]

include ht hv in
theorem mem_crossIn {np : Nat × Nat} : np ∈ crossIn h N ↔ np.1 ∈ N ∧ ∃ l ∈ h.links, l.dst = np.1 ∧ l.dstPort = np.2 ∧
    l.src ∉ N := by
  unfold crossIn linkedIn
  simp only [List.mem_filter, mem_nodeInputs, outside_in]
  constructor
  · rintro ⟨⟨⟨h1, _⟩, _⟩, h2⟩
    exact ⟨h1, h2⟩
  · rintro ⟨h1, l, hl, h2, h3, h4⟩
    refine ⟨⟨⟨h1, ?_⟩, ?_⟩, l, hl, h2, h3, h4⟩
    · rw [← h2, ← h3]; exact (valid_linksOk ht hv l hl).2.2.2
    · have : l.src ∈ linkedNodes h ⟨np.1, .incoming, np.2⟩ := mem_linkedIn'.2 ⟨l, hl, h2, h3, rfl⟩
      cases hc : linkedNodes h ⟨np.1, .incoming, np.2⟩ with
      | nil => rw [hc] at this; cases this
      | cons => rfl

include ht hv in
theorem mem_crossOut {np : Nat × Nat} : np ∈ boundaryOutputs h N ↔ np.1 ∈ N ∧ ∃ l ∈ h.links, l.src = np.1 ∧
    l.srcPort = np.2 ∧ l.dst ∉ N := by
  unfold boundaryOutputs
  simp only [List.mem_filter, mem_nodeOutputs, outside_out]
  constructor
  · rintro ⟨⟨h1, _⟩, h2⟩
    exact ⟨h1, h2⟩
  · rintro ⟨h1, l, hl, h2, h3, h4⟩
    refine ⟨⟨h1, ?_⟩, l, hl, h2, h3, h4⟩
    rw [← h2, ← h3]; exact (valid_linksOk ht hv l hl).2.1

include ht in
theorem linked_single {np : Nat × Nat} {l : Link} (hone : ∀ n ∈ N, ∀ port, (linksTo h n port).length ≤ 1) (hn : np.1 ∈ N) (hl : l ∈ h.links) (h1 : l.dst = np.1) (h2 : l.dstPort = np.2) :
    (linksTo h np.1 np.2).length = 1 := by
  have := hone _ hn np.2
  have m : l ∈ linksTo h np.1 np.2 := by simp [linksTo, hl, h1, h2]
  have := List.length_pos_of_mem m
  omega

/-- No port is linked twice exactly if each linked port has one link. -/
theorem boundaryInputs_eq (ht : IsTree h) (hv : Valid C h) :
    (boundaryInputs h N = none ↔ ∃ n ∈ N, ∃ port, 2 ≤ (linksTo h n port).length) ∧
    ∀ inputs, boundaryInputs h N = some inputs → inputs = (crossIn h N).map fun np => [np] := by
  unfold boundaryInputs
  have hc : ((linkedIn h N).all fun np => (singleLinkedOutput h np.1 np.2).isSome) = true ↔
      ¬ ∃ n ∈ N, ∃ port, 2 ≤ (linksTo h n port).length := by
    have hsome : ∀ n port, (singleLinkedOutput h n port).isSome = true ↔ (linksTo h n port).length = 1 := by
      intro n port
      have hlen : (h.linkedOutputs n port).length = (linksTo h n port).length := by
        simp [Hugr.linkedOutputs, linksTo]
      rw [← hlen]
      unfold singleLinkedOutput
      match h.linkedOutputs n port with
      | [] => simp
      | [x] => simp
      | x :: y :: z => simp
    rw [List.all_eq_true]
    simp only [hsome]
    constructor
    · rintro hh ⟨n, hn, port, h2⟩
      cases hls : linksTo h n port with
      | nil => rw [hls] at h2; simp at h2
      | cons l ls =>
        have hm : l ∈ linksTo h n port := by rw [hls]; simp
        simp only [linksTo, List.mem_filter, Bool.and_eq_true, decide_eq_true_eq] at hm
        obtain ⟨hl, h3, h4⟩ := hm
        have : (n, port) ∈ linkedIn h N := by
          unfold linkedIn
          rw [List.mem_filter, mem_nodeInputs]
          refine ⟨⟨hn, ?_⟩, ?_⟩
          · have := (valid_linksOk ht hv l hl).2.2.2
            rw [h3, h4] at this
            exact this
          · have : l.src ∈ linkedNodes h ⟨n, .incoming, port⟩ := mem_linkedIn'.2 ⟨l, hl, h3, h4, rfl⟩
            cases hc : linkedNodes h ⟨n, .incoming, port⟩ with
            | nil => rw [hc] at this; cases this
            | cons => rfl
        have := hh _ this
        simp only [] at this
        omega
    · intro hh np hnp
      unfold linkedIn at hnp
      rw [List.mem_filter, mem_nodeInputs] at hnp
      obtain ⟨⟨h1, _⟩, h2⟩ := hnp
      have hle : (linksTo h np.1 np.2).length ≤ 1 := by
        by_contra hgt
        exact hh ⟨np.1, h1, np.2, by omega⟩
      cases hc : linkedNodes h ⟨np.1, .incoming, np.2⟩ with
      | nil => rw [hc] at h2; cases h2
      | cons m ms =>
        obtain ⟨l, hl, h3, h4, _⟩ := mem_linkedIn'.1 (show m ∈ linkedNodes h ⟨np.1, .incoming, np.2⟩ by rw [hc]; simp)
        have m : l ∈ linksTo h np.1 np.2 := by simp [linksTo, hl, h3, h4]
        have := List.length_pos_of_mem m
        omega
  by_cases hall : ((linkedIn h N).all fun np => (singleLinkedOutput h np.1 np.2).isSome) = true
  · rw [if_pos hall]
    exact ⟨⟨nofun, fun hh => absurd hh (hc.1 hall)⟩, fun inputs e => by cases e; rfl⟩
  · rw [if_neg hall]
    refine ⟨⟨fun _ => ?_, fun _ => rfl⟩, fun inputs e => by cases e⟩
    by_contra hh
    exact hall (hc.2 hh)

/-- The calls are grouped: all ports, each group with one source. -/
theorem groupCalls_mem {ports : List (Nat × Nat)} (hs : ∀ np ∈ ports, (linksTo h np.1 np.2).length = 1) {np : Nat × Nat} :
    np ∈ (groupCalls h ports).flatten ↔ np ∈ ports := by
  unfold groupCalls
  rw [List.mem_flatten]
  simp only [List.mem_map]
  constructor
  · rintro ⟨_, ⟨source, _, rfl⟩, hm⟩
    exact (List.mem_filter.1 hm).1
  · intro hm
    obtain ⟨a, ap, e, _⟩ := single_iff (hs np hm)
    refine ⟨_, ⟨(a, ap), ?_, rfl⟩, List.mem_filter.2 ⟨hm, by simpa using e⟩⟩
    rw [List.mem_mergeSort, List.mem_dedup, List.mem_filterMap]
    exact ⟨np, hm, e⟩

theorem groupCalls_shared {ports : List (Nat × Nat)} (hs : ∀ np ∈ ports, (linksTo h np.1 np.2).length = 1) :
    ∀ part ∈ groupCalls h ports, ∀ l ∈ h.links, ∀ l' ∈ h.links, (l.dst, l.dstPort) ∈ part →
      (l'.dst, l'.dstPort) ∈ part → l.src = l'.src ∧ l.srcPort = l'.srcPort := by
  intro part hpart
  unfold groupCalls at hpart
  obtain ⟨source, _, rfl⟩ := List.mem_map.1 hpart
  refine (same_source fun np hnp => hs np (List.mem_filter.1 hnp).1).1 ?_
  intro a ha b hb
  have h1 := (List.mem_filter.1 ha).2
  have h2 := (List.mem_filter.1 hb).2
  simp only [decide_eq_true_eq] at h1 h2
  rw [h1, h2]

/-- The subgraph with these nodes, and the boundary of `N`. -/
def boundedBy (h : Hugr Ops.Op Meta) (N M : List Nat) : Subgraph :=
  ⟨M, ((crossIn h N).filter fun np => !isFunctionPort h np).map fun np => [np], boundaryOutputs h N,
    groupCalls h ((crossIn h N).filter fun np => isFunctionPort h np)⟩

include ht hv hone in
theorem crossIn_single : ∀ np ∈ crossIn h N, (linksTo h np.1 np.2).length = 1 := by
  intro np hnp
  obtain ⟨h1, l, hl, h2, h3, _⟩ := (mem_crossIn ht hv).1 hnp
  exact linked_single ht hone h1 hl h2 h3

include ht hv hone in
theorem drain_eq : drainFunctionCalls h ((crossIn h N).map fun np => [np]) =
    some ((boundedBy h N []).inputs, (boundedBy h N []).functionCalls) := by
  unfold drainFunctionCalls
  rw [filter_singles, filter_singles, flatten_singles]
  have : (((crossIn h N).filter fun x => isCallPart h [x]).all fun np =>
      isFunctionPort h np && (singleLinkedOutput h np.1 np.2).isSome) = true := by
    rw [List.all_eq_true]
    intro np hnp
    obtain ⟨h1, h2⟩ := List.mem_filter.1 hnp
    obtain ⟨a, ap, e, _⟩ := single_iff (crossIn_single ht hv hone np h1)
    rw [e]
    simpa [isCallPart] using h2
  rw [if_pos this]
  rfl

include ht hv hN hone in
/-- What is accepted has a right boundary. -/
theorem bounded_of (hnd : N.Nodup) (hc : Crossable h N) {M : List Nat} (hne : M ≠ []) (hMN : ∀ n ∈ M, n ∈ N)
    (hin : ∀ np ∈ crossIn h N, np.1 ∈ M) (hout : ∀ np ∈ boundaryOutputs h N, np.1 ∈ M)
    (hM : ∀ l ∈ h.links, l.src ∈ N → l.dst ∈ M → l.src ∈ M)
    (hM' : ∀ l ∈ h.links, l.src ∈ M → l.dst ∈ N → l.dst ∉ M → (l.src, l.srcPort) ∈ boundaryOutputs h N) :
    Bounded h (boundedBy h N M) := by
  have hfn : ∀ np ∈ crossIn h N, (isFunctionPort h np = true ↔
      ∃ s, ((h.ops np.1).ports .incoming)[np.2]? = some (.function s)) := by
    intro np hnp
    exact isFunctionPort_iff (hv.tags _ (ht.parent_live _ _ (hN _ ((mem_crossIn ht hv).1 hnp).1)).1)
  have hsplit : ∀ np ∈ crossIn h N, np ∈ (boundedBy h N M).inputs.flatten ∨ np ∈ (boundedBy h N M).functionCalls.flatten := by
    intro np hnp
    by_cases hf : isFunctionPort h np = true
    · right
      refine (groupCalls_mem fun x hx => crossIn_single ht hv hone x (List.mem_filter.1 hx).1).2 ?_
      exact List.mem_filter.2 ⟨hnp, hf⟩
    · left
      show np ∈ (List.map _ _).flatten
      rw [flatten_singles]
      exact List.mem_filter.2 ⟨hnp, by simpa using hf⟩
  have hmem : ∀ np, np ∈ (boundedBy h N M).inputs.flatten ↔ np ∈ crossIn h N ∧ isFunctionPort h np = false := by
    intro np
    show np ∈ (List.map _ _).flatten ↔ _
    rw [flatten_singles, List.mem_filter, Bool.not_eq_true']
  have hsing : ∀ part ∈ (boundedBy h N M).inputs, ∃ np, part = [np] ∧ np ∈ crossIn h N := by
    intro part hpart
    obtain ⟨np, hnp, rfl⟩ := List.mem_map.1 hpart
    exact ⟨np, rfl, (List.mem_filter.1 hnp).1⟩
  constructor
  · exact hne
  · intro a ha b hb
    rw [hN a (hMN a ha), hN b (hMN b hb)]
  · intro np hnp
    obtain ⟨h1, h2⟩ := (hmem np).1 hnp
    refine ⟨hin np h1, ?_⟩
    obtain ⟨h3, l, hl, h4, h5, h6⟩ := (mem_crossIn ht hv).1 h1
    refine ⟨l, hl, h4, h5, fun hm => h6 (hMN _ hm), ?_⟩
    rcases hc l hl (by unfold Crosses; rw [h4]; simp [h3, h6]) with hval | ⟨_, s, hs⟩
    · exact hval
    · obtain ⟨kind, k1, k2, _⟩ := hv.kinds l hl
      rw [hs] at k1; cases k1
      rw [h4, h5] at k2
      rw [(hfn np h1).2 ⟨s, k2⟩] at h2
      cases h2
  · intro np hnp
    refine ⟨hout np hnp, ?_⟩
    obtain ⟨h3, l, hl, h4, h5, h6⟩ := (mem_crossOut ht hv).1 hnp
    refine ⟨l, hl, h4, h5, fun hm => h6 (hMN _ hm), ?_⟩
    rcases hc l hl (by unfold Crosses; rw [h4]; simp [h3, h6]) with hval | ⟨hd, _⟩
    · exact hval
    · exact absurd hd h6
  · intro l hl h1 h2
    refine hsplit _ ((mem_crossIn ht hv).2 ⟨hMN _ h2, l, hl, rfl, rfl, fun hs => h1 (hM l hl hs h2)⟩)
  · intro l hl h1 h2
    by_cases hd : l.dst ∈ N
    · exact hM' l hl h1 hd h2
    · exact (mem_crossOut ht hv).2 ⟨hMN _ h1, l, hl, rfl, rfl, hd⟩
  · show (List.map _ _).flatten.Nodup
    rw [flatten_singles]
    exact (((nodeInputs_nodup hnd).filter _).filter _).filter _
  · intro hm
    obtain ⟨np, e, _⟩ := hsing _ hm
    cases e
  · intro part hpart l hl l' hl' h1 h2
    obtain ⟨np, rfl, hnp⟩ := hsing _ hpart
    rw [List.mem_singleton] at h1 h2
    have := link_unique hone hl hl' (by have := ((mem_crossIn ht hv).1 hnp).1; rw [← h1] at this; exact this)
      (congrArg Prod.fst (h2.trans h1.symm)) (congrArg Prod.snd (h2.trans h1.symm))
    rw [this]
    exact ⟨rfl, rfl⟩
  · intro np hnp
    have := (groupCalls_mem fun x hx => crossIn_single ht hv hone x (List.mem_filter.1 hx).1).1 hnp
    obtain ⟨h1, h2⟩ := List.mem_filter.1 this
    obtain ⟨s, hs⟩ := (hfn np h1).1 h2
    exact ⟨_, hs, rfl⟩
  · exact groupCalls_shared fun x hx => crossIn_single ht hv hone x (List.mem_filter.1 hx).1

include ht hv hN hone in
/-- If the boundary is right, only values and calls cross it. -/
theorem crossable_of {M : List Nat} (hb : Bounded h (boundedBy h N M)) : Crossable h N := by
  intro l hl hx
  unfold Crosses at hx
  by_cases hs : l.src ∈ N
  · have hd : l.dst ∉ N := fun hd => hx ⟨fun _ => hd, fun _ => hs⟩
    obtain ⟨_, l', hl', h1, h2, _, t, h3⟩ := hb.output _ ((mem_crossOut (np := (l.src, l.srcPort)) ht hv).2 ⟨hs, l, hl, rfl, rfl, hd⟩)
    left
    refine ⟨t, ?_⟩
    unfold srcKind at h3 ⊢
    rw [h1, h2] at h3
    exact h3
  · have hd : l.dst ∈ N := by
      by_contra hd
      exact hx ⟨fun e => absurd e hs, fun e => absurd e hd⟩
    have hm : (l.dst, l.dstPort) ∈ crossIn h N := (mem_crossIn ht hv).2 ⟨hd, l, hl, rfl, rfl, hs⟩
    by_cases hf : isFunctionPort h (l.dst, l.dstPort) = true
    · right
      obtain ⟨s, h1⟩ := (isFunctionPort_iff (hv.tags _ (ht.parent_live _ _ (hN _ hd)).1)).1 hf
      obtain ⟨kind, k1, k2, _⟩ := hv.kinds l hl
      simp only [] at h1
      rw [h1] at k2; cases k2
      exact ⟨hd, s, k1⟩
    · left
      have : (l.dst, l.dstPort) ∈ (boundedBy h N M).inputs.flatten := by
        show _ ∈ (List.map _ _).flatten
        rw [flatten_singles]
        exact List.mem_filter.2 ⟨hm, by simpa using hf⟩
      obtain ⟨_, l', hl', h1, h2, _, t, h3⟩ := hb.input _ this
      rw [link_unique hone hl hl' hd h1 h2]
      exact ⟨t, h3⟩

variable (hbd : ¬ (crossIn h N = [] ∧ boundaryOutputs h N = []))

/-- The nodes inside of the boundary of `N`. -/
def insideOf (h : Hugr Ops.Op Meta) (N : List Nat) : List Nat :=
  innerNodes h ((crossIn h N).map fun np => [np]) (boundaryOutputs h N)

include hbd in
theorem boundary_ne : boundaryNodes ((crossIn h N).map fun np => [np]) (boundaryOutputs h N) ≠ [] := by
  intro e
  refine hbd ⟨?_, ?_⟩
  · cases hc : crossIn h N with
    | nil => rfl
    | cons a as =>
      have := (mem_boundaryNodes (inputs := (crossIn h N).map fun np => [np]) (outputs := boundaryOutputs h N)).2
        (.inl ⟨a, by rw [flatten_singles, hc]; simp, rfl⟩)
      rw [e] at this; cases this
  · cases hc : boundaryOutputs h N with
    | nil => rfl
    | cons a as =>
      have := (mem_boundaryNodes (inputs := (crossIn h N).map fun np => [np]) (outputs := boundaryOutputs h N)).2
        (.inr ⟨a, by rw [hc]; simp, rfl⟩)
      rw [e] at this; cases this

include ht hv hN hbd in
theorem boundary_region : boundaryRegion h ((crossIn h N).map fun np => [np]) (boundaryOutputs h N) = p := by
  have hne := boundary_ne hbd
  unfold boundaryRegion
  cases hb : boundaryNodes ((crossIn h N).map fun np => [np]) (boundaryOutputs h N) with
  | nil => exact absurd hb hne
  | cons n ns =>
    have hm : n ∈ boundaryNodes ((crossIn h N).map fun np => [np]) (boundaryOutputs h N) := by rw [hb]; simp
    have hn : n ∈ N := by
      rcases mem_boundaryNodes.1 hm with ⟨np, h1, rfl⟩ | ⟨np, h1, rfl⟩
      · rw [flatten_singles] at h1
        exact ((mem_crossIn ht hv).1 h1).1
      · exact ((mem_crossOut ht hv).1 h1).1
    simp only []
    rw [getParent_eq ht, hN n hn]
    rfl

include ht hv hN hbd in
theorem mem_insideOf {n : Nat} : n ∈ insideOf h N ↔
    Between h p ((crossIn h N).map fun np => [np]) (boundaryOutputs h N) n := by
  unfold insideOf
  rw [mem_innerNodes ht (boundary_ne hbd), boundary_region ht hv hN hbd]

include ht hv hN hbd in
theorem inside_sub {n : Nat} (hn : n ∈ insideOf h N) : n ∈ N := by
  rw [mem_insideOf ht hv hN hbd] at hn
  induction hn with
  | input h1 =>
    rw [flatten_singles] at h1
    exact ((mem_crossIn ht hv).1 h1).1
  | output h1 => exact ((mem_crossOut ht hv).1 h1).1
  | along _ hl h1 h2 h3 h4 ih =>
    by_contra hd
    exact h3 ((mem_crossOut ht hv).2 ⟨ih, _, hl, rfl, rfl, hd⟩)
  | back _ hl h1 h2 h3 h4 ih =>
    by_contra hd
    rw [flatten_singles] at h4
    exact h4 ((mem_crossIn ht hv).2 ⟨ih, _, hl, rfl, rfl, hd⟩)

include ht hv hN hbd in
theorem inside_in {np : Nat × Nat} (hnp : np ∈ crossIn h N) : np.1 ∈ insideOf h N :=
  (mem_insideOf ht hv hN hbd).2 (.input (by rw [flatten_singles]; exact hnp))

include ht hv hN hbd in
theorem inside_out {np : Nat × Nat} (hnp : np ∈ boundaryOutputs h N) : np.1 ∈ insideOf h N :=
  (mem_insideOf ht hv hN hbd).2 (.output hnp)

include ht hv hN hone hbd in
theorem inside_back {l : Link} (hl : l ∈ h.links) (hs : l.src ∈ N) (hd : l.dst ∈ insideOf h N) : l.src ∈ insideOf h N := by
  have hd' := inside_sub ht hv hN hbd hd
  by_cases ho : (l.src, l.srcPort) ∈ boundaryOutputs h N
  · exact inside_out ht hv hN hbd ho
  · refine (mem_insideOf ht hv hN hbd).2 (.back ((mem_insideOf ht hv hN hbd).1 hd) hl ((ht.child_iff _ _).2 (hN _ hs)) ((ht.child_iff _ _).2 (hN _ hd')) ho ?_)
    rw [flatten_singles]
    intro hm
    obtain ⟨_, l', hl', h1, h2, h3⟩ := (mem_crossIn ht hv).1 hm
    rw [← link_unique hone hl hl' hd' h1 h2] at h3
    exact h3 hs

include ht hv hN hone hbd in
theorem inside_along {l : Link} (hl : l ∈ h.links) (hs : l.src ∈ insideOf h N) (hd : l.dst ∈ N)
    (hn : l.dst ∉ insideOf h N) : (l.src, l.srcPort) ∈ boundaryOutputs h N := by
  by_contra ho
  have hs' := inside_sub ht hv hN hbd hs
  refine hn ((mem_insideOf ht hv hN hbd).2 (.along ((mem_insideOf ht hv hN hbd).1 hs) hl ((ht.child_iff _ _).2 (hN _ hs')) ((ht.child_iff _ _).2 (hN _ hd)) ho ?_))
  rw [flatten_singles]
  intro hm
  obtain ⟨_, l', hl', h1, h2, h3⟩ := (mem_crossIn ht hv).1 hm
  rw [← link_unique hone hl hl' hd h1 h2] at h3
  exact h3 hs'

include ht hv hN hone hbd in
/-- The nodes that are not connected with the boundary do not matter. -/
theorem inside_convex : Convex h p (insideOf h N) ↔ Convex h p N := by
  constructor
  · intro hc a b c ha hb hcN hab hbc
    have h1 : ∃ a' ∈ insideOf h N, TransGen (RegionEdge h p) a' b := by
      clear hbc hcN
      induction hab with
      | single e =>
        obtain ⟨_, _, l, hl, rfl, rfl⟩ := e
        exact ⟨_, inside_out (np := (l.src, l.srcPort)) ht hv hN hbd ((mem_crossOut ht hv).2 ⟨ha, l, hl, rfl, rfl, hb⟩), .single ⟨‹_›, ‹_›, l, hl, rfl, rfl⟩⟩
      | @tail m b' hm e ih =>
        by_cases hmN : m ∈ N
        · obtain ⟨_, _, l, hl, rfl, rfl⟩ := e
          exact ⟨_, inside_out (np := (l.src, l.srcPort)) ht hv hN hbd ((mem_crossOut ht hv).2 ⟨hmN, l, hl, rfl, rfl, hb⟩), .single ⟨‹_›, ‹_›, l, hl, rfl, rfl⟩⟩
        · obtain ⟨a', ha', hr⟩ := ih hmN
          exact ⟨a', ha', hr.tail e⟩
    have h2 : ∃ c' ∈ insideOf h N, TransGen (RegionEdge h p) b c' := by
      clear hab h1
      induction hbc with
      | single e =>
        obtain ⟨_, _, l, hl, rfl, rfl⟩ := e
        exact ⟨_, inside_in (np := (l.dst, l.dstPort)) ht hv hN hbd ((mem_crossIn ht hv).2 ⟨hcN, l, hl, rfl, rfl, hb⟩), .single ⟨‹_›, ‹_›, l, hl, rfl, rfl⟩⟩
      | @tail m c' hm e ih =>
        by_cases hmN : m ∈ N
        · exact ih hmN
        · refine ⟨c', ?_, hm.tail e⟩
          obtain ⟨_, _, l, hl, rfl, rfl⟩ := e
          exact inside_in (np := (l.dst, l.dstPort)) ht hv hN hbd ((mem_crossIn ht hv).2 ⟨hcN, l, hl, rfl, rfl, hmN⟩)
    obtain ⟨a', ha', hr⟩ := h1
    obtain ⟨c', hc', hr'⟩ := h2
    exact hc a' b c' ha' (fun hbI => hb (inside_sub ht hv hN hbd hbI)) hc' hr hr'
  · intro hc a b c ha hb hcI hab hbc
    by_cases hbN : b ∈ N
    · have : c ∈ N ∧ c ∉ insideOf h N := by
        clear hcI
        have step : ∀ m c, m ∈ N → m ∉ insideOf h N → RegionEdge h p m c → c ∈ N ∧ c ∉ insideOf h N := by
          rintro m c hmN hmI ⟨_, _, l, hl, rfl, rfl⟩
          have hcN : l.dst ∈ N := by
            by_contra hcN
            exact hmI (inside_out (np := (l.src, l.srcPort)) ht hv hN hbd ((mem_crossOut ht hv).2 ⟨hmN, l, hl, rfl, rfl, hcN⟩))
          exact ⟨hcN, fun hcI => hmI (inside_back ht hv hN hone hbd hl hmN hcI)⟩
        induction hbc with
        | single e => exact step _ _ hbN hb e
        | tail _ e ih => exact step _ _ ih.1 ih.2 e
      exact this.2 hcI
    · exact hc a b c (inside_sub ht hv hN hbd ha) hbN (inside_sub ht hv hN hbd hcI) hab hbc

include ht hv hp in
/-- A single node of a dataflow region is convex. -/
theorem convex_small {M : List Nat} (hM : M.length ≤ 1) : Convex h p M := by
  intro a b c ha hb hc hab hbc
  match M, hM with
  | [], _ => cases ha
  | [x], _ =>
    rw [List.mem_singleton] at ha hc
    subst ha
    subst hc
    obtain ⟨m, e, _⟩ := TransGen.head'_iff.1 hab
    have hpl := (ht.parent_live _ _ ((ht.child_iff _ _).1 e.1)).2
    exact hv.acyclic p hpl hp _ (hab.trans hbc)

include ht hv hp hN hone hbd in
/-- The constructor with the boundary of `N`. -/
theorem from_boundary (hnd : N.Nodup) :
    tryNewWithChecker h p ((crossIn h N).map fun np => [np]) (boundaryOutputs h N) ≠ .panic ∧
    ((∃ s, tryNewWithChecker h p ((crossIn h N).map fun np => [np]) (boundaryOutputs h N) = .ok s) ↔
      Crossable h N ∧ Convex h p N) ∧
    ∀ s, tryNewWithChecker h p ((crossIn h N).map fun np => [np]) (boundaryOutputs h N) = .ok s →
      s = boundedBy h N (insideOf h N) := by
  unfold tryNewWithChecker
  rw [drain_eq ht hv hone]
  simp only []
  have hi : innerNodes h ((crossIn h N).map fun np => [np]) (boundaryOutputs h N) = insideOf h N := rfl
  rw [hi]
  have hflow : InFlow h (boundedBy h N (insideOf h N)).nodes := fun n hn => ⟨p, hN n (inside_sub ht hv hN hbd hn), hp⟩
  have hcall : ∀ np ∈ (boundedBy h N (insideOf h N)).functionCalls.flatten, h.live np.1 = true ∧ (linksTo h np.1 np.2).length = 1 := by
    intro np hnp
    have hc := (List.mem_filter.1 ((groupCalls_mem fun x hx => crossIn_single ht hv hone x (List.mem_filter.1 hx).1).1 hnp)).1
    exact ⟨(ht.parent_live _ _ (hN _ ((mem_crossIn ht hv).1 hc).1)).1, crossIn_single ht hv hone np hc⟩
  obtain ⟨v1, v2⟩ := C61_validate_subgraph ht hv hflow hcall
  have hne : insideOf h N ≠ [] := by
    intro e
    have hb := boundary_ne hbd
    cases hbn : boundaryNodes ((crossIn h N).map fun np => [np]) (boundaryOutputs h N) with
    | nil => exact hb hbn
    | cons n ns =>
      have hm : n ∈ boundaryNodes ((crossIn h N).map fun np => [np]) (boundaryOutputs h N) := by rw [hbn]; simp
      have : n ∈ insideOf h N := by
        rcases mem_boundaryNodes.1 hm with ⟨np, h1, rfl⟩ | ⟨np, h1, rfl⟩
        · rw [flatten_singles] at h1
          exact inside_in ht hv hN hbd h1
        · exact inside_out ht hv hN hbd h1
      rw [e] at this; cases this
  have hB : Bounded h (boundedBy h N (insideOf h N)) ↔ Crossable h N :=
    ⟨crossable_of ht hv hN hone, fun hc => bounded_of ht hv hN hone hnd hc hne (fun n hn => inside_sub ht hv hN hbd hn)
      (fun np hnp => inside_in ht hv hN hbd hnp) (fun np hnp => inside_out ht hv hN hbd hnp)
      (fun l hl => inside_back ht hv hN hone hbd hl) (fun l hl => inside_along ht hv hN hone hbd hl)⟩
  have hconv : isConvex h p (insideOf h N) = true ↔ Convex h p N :=
    (isConvex_iff ht fun n hn => (ht.child_iff _ _).2 (hN n (inside_sub ht hv hN hbd hn))).trans
      (inside_convex ht hv hN hone hbd)
  have hcond : (decide (1 < (insideOf h N).length) && !isConvex h p (insideOf h N)) = true ↔ ¬ Convex h p N := by
    rw [Bool.and_eq_true, decide_eq_true_eq, Bool.not_eq_true', Bool.eq_false_iff, ne_eq, hconv]
    constructor
    · exact fun e => e.2
    · intro e
      refine ⟨?_, e⟩
      by_contra hlen
      exact e ((inside_convex ht hv hN hone hbd).1 (convex_small ht hv hp (by omega)))
  change (validateSubgraph h (insideOf h N) (boundedBy h N []).inputs (boundaryOutputs h N) (boundedBy h N []).functionCalls = .ok () ↔ _) at v1
  change validateSubgraph h (insideOf h N) (boundedBy h N []).inputs (boundaryOutputs h N) (boundedBy h N []).functionCalls ≠ .panic at v2
  rw [hB] at v1
  cases hval : validateSubgraph h (insideOf h N) (boundedBy h N []).inputs (boundaryOutputs h N) (boundedBy h N []).functionCalls with
  | ok u =>
    have hcr := v1.1 hval
    simp only []
    by_cases hcv : Convex h p N
    · rw [if_neg fun e => hcond.1 e hcv]
      exact ⟨nofun, ⟨fun _ => ⟨hcr, hcv⟩, fun _ => ⟨_, rfl⟩⟩, fun s e => by cases e; rfl⟩
    · rw [if_pos (hcond.2 hcv)]
      exact ⟨nofun, ⟨fun ⟨_, e⟩ => (by cases e), fun e => absurd e.2 hcv⟩, fun s e => by cases e⟩
  | err e =>
    simp only []
    refine ⟨nofun, ⟨fun ⟨_, e⟩ => (by cases e), fun e => ?_⟩, fun s e => by cases e⟩
    have := v1.2 e.1
    rw [hval] at this; cases this
  | panic => exact absurd hval v2

end

theorem mem_firstOccurrences {nodes : List Nat} {n : Nat} : n ∈ firstOccurrences nodes ↔ n ∈ nodes := by
  unfold firstOccurrences
  rw [List.mem_reverse, List.mem_dedup, List.mem_reverse]

theorem firstOccurrences_nodup {nodes : List Nat} : (firstOccurrences nodes).Nodup := by
  unfold firstOccurrences
  rw [List.nodup_reverse]
  exact List.nodup_dedup _

theorem firstOccurrences_length {nodes : List Nat} : (firstOccurrences nodes).length ≤ nodes.length := by
  unfold firstOccurrences
  rw [List.length_reverse, ← List.length_reverse (as := nodes)]
  exact (List.dedup_sublist _).length_le

/-- **C61** `try_from_nodes` with nodes of a dataflow region of a valid Hugr. It panics exactly if an incoming port
of one of the nodes has several links. Otherwise, it accepts the nodes exactly if only values and calls cross
their boundary and they are convex. What it then makes has these nodes and the right boundary. -/
theorem C61_from_nodes (ht : IsTree h) (hv : Valid C h) (hp : (body (h.ops p)).isSome = true) {nodes : List Nat}
    (hne : nodes ≠ []) (hnodes : ∀ n ∈ nodes, h.hier.parent n = some p) :
    (tryFromNodes h nodes = .panic ↔ ∃ n ∈ nodes, ∃ port, 2 ≤ (linksTo h n port).length) ∧
    ((∀ n ∈ nodes, ∀ port, (linksTo h n port).length ≤ 1) →
      ((∃ s, tryFromNodes h nodes = .ok s) ↔ Crossable h nodes ∧ Convex h p nodes)) ∧
    ∀ s, tryFromNodes h nodes = .ok s → (∀ n, n ∈ s.nodes ↔ n ∈ nodes) ∧ s.nodes.Nodup ∧ Bounded h s ∧
      s.outputs.Nodup ∧ ∀ part ∈ s.inputs, part.length = 1 := by
  have hcross : ∀ N, (∀ n, n ∈ N ↔ n ∈ nodes) → (Crossable h N ↔ Crossable h nodes) ∧ (Convex h p N ↔ Convex h p nodes) := by
    intro N hN
    constructor
    · unfold Crossable Crosses
      simp only [hN]
    · unfold Convex
      simp only [hN]
  cases nodes with
  | nil => exact absurd rfl hne
  | cons n ns =>
    unfold tryFromNodes
    simp only []
    rw [getParent_eq ht, hnodes n (by simp)]
    simp only []
    set N := firstOccurrences (n :: ns) with hNdef
    have hmem : ∀ m, m ∈ N ↔ m ∈ n :: ns := fun m => mem_firstOccurrences
    have hnd : N.Nodup := firstOccurrences_nodup
    have hN : ∀ m ∈ N, h.hier.parent m = some p := fun m hm => hnodes m ((hmem m).1 hm)
    obtain ⟨b1, b2⟩ := boundaryInputs_eq (N := N) ht hv
    simp only [hmem] at b1
    cases hb : boundaryInputs h N with
    | none =>
      simp only []
      obtain ⟨m, hm, port, hlen⟩ := b1.1 hb
      refine ⟨⟨fun _ => ⟨m, hm, port, hlen⟩, fun _ => trivial⟩, fun hone => ?_, fun s e => by cases e⟩
      have := hone m hm port
      omega
    | some inputs =>
      have hone : ∀ m ∈ N, ∀ port, (linksTo h m port).length ≤ 1 := by
        intro m hm port
        by_contra hlen
        have := b1.2 ⟨m, (hmem m).1 hm, port, by omega⟩
        rw [hb] at this; cases this
      have hnot : ¬ ∃ m ∈ n :: ns, ∃ port, 2 ≤ (linksTo h m port).length := by
        rintro ⟨m, hm, port, hlen⟩
        have := hone m ((hmem m).2 hm) port
        omega
      have := b2 inputs hb
      subst this
      simp only []
      obtain ⟨x1, x2⟩ := hcross N hmem
      have houtnd : (boundaryOutputs h N).Nodup := by
        unfold boundaryOutputs nodeOutputs
        refine List.Nodup.filter _ ?_
        rw [List.nodup_flatMap]
        refine ⟨fun n _ => List.nodup_range.map fun a b e => (Prod.mk.inj e).2, ?_⟩
        refine hnd.imp fun {a b} hab => ?_
        intro x hx hy
        obtain ⟨_, _, rfl⟩ := List.mem_map.1 hx
        obtain ⟨_, _, e⟩ := List.mem_map.1 hy
        exact hab (congrArg Prod.fst e).symm
      have hparts : ∀ M, ∀ part ∈ (boundedBy h N M).inputs, part.length = 1 := by
        intro M part hpart
        obtain ⟨np, _, rfl⟩ := List.mem_map.1 hpart
        rfl
      have hNne : N ≠ [] := by
        intro e
        have := (hmem n).2 (by simp)
        rw [e] at this; cases this
      have hfull : Crossable h N → Bounded h (boundedBy h N N) := fun hc =>
        bounded_of ht hv hN hone hnd hc hNne (fun _ hm => hm) (fun np hnp => ((mem_crossIn ht hv).1 hnp).1)
          (fun np hnp => ((mem_crossOut ht hv).1 hnp).1) (fun _ _ hs _ => hs) (fun _ _ _ hd hnd => absurd hd hnd)
      by_cases hbd : crossIn h N = [] ∧ boundaryOutputs h N = []
      · rw [if_pos (by rw [hbd.1, hbd.2]; rfl)]
        have hno : ∀ l ∈ h.links, ¬ Crosses N l := by
          intro l hl hx
          unfold Crosses at hx
          by_cases hs : l.src ∈ N
          · have : (l.src, l.srcPort) ∈ boundaryOutputs h N := (mem_crossOut ht hv).2 ⟨hs, l, hl, rfl, rfl, fun hd => hx ⟨fun _ => hd, fun _ => hs⟩⟩
            rw [hbd.2] at this; cases this
          · have hd : l.dst ∈ N := by
              by_contra hd
              exact hx ⟨fun e => absurd e hs, fun e => absurd e hd⟩
            have : (l.dst, l.dstPort) ∈ crossIn h N := (mem_crossIn ht hv).2 ⟨hd, l, hl, rfl, rfl, hs⟩
            rw [hbd.1] at this; cases this
        have hcr : Crossable h N := fun l hl hx => absurd hx (hno l hl)
        have hcv : Convex h p N := by
          intro a b c ha hb' _ hab hbc
          have : b ∈ N := by
            clear hb' hbc
            induction hab with
            | single e =>
              obtain ⟨_, _, l, hl, rfl, rfl⟩ := e
              by_contra hd
              exact hno l hl fun e => hd (e.1 ha)
            | tail _ e ih =>
              obtain ⟨_, _, l, hl, rfl, rfl⟩ := e
              by_contra hd
              exact hno l hl fun e => hd (e.1 ih)
          exact hb' this
        have heq : (⟨N, [], [], []⟩ : Subgraph) = boundedBy h N N := by
          unfold boundedBy
          rw [hbd.1, hbd.2]
          simp [groupCalls]
        refine ⟨⟨nofun, fun e => absurd e hnot⟩, fun _ => ⟨fun _ => ⟨x1.1 hcr, x2.1 hcv⟩, fun _ => ⟨_, rfl⟩⟩, ?_⟩
        intro s e
        injection e with e
        rw [← e, heq]
        exact ⟨hmem, hnd, hfull hcr, houtnd, hparts N⟩
      · rw [if_neg (by
          intro e
          rw [Bool.and_eq_true, decide_eq_true_eq, decide_eq_true_eq, List.map_eq_nil_iff] at e
          exact hbd e)]
        obtain ⟨f1, f2, f3⟩ := from_boundary ht hv hp hN hone hbd hnd
        cases hres : tryNewWithChecker h p ((crossIn h N).map fun np => [np]) (boundaryOutputs h N) with
        | ok s =>
          simp only []
          have hs := f3 s hres
          obtain ⟨hcr, hcv⟩ := f2.1 ⟨s, hres⟩
          have hNb := hfull hcr
          by_cases hlen : s.nodes.length < (n :: ns).length
          · rw [if_pos hlen]
            refine ⟨⟨nofun, fun e => absurd e hnot⟩, fun _ => ⟨fun _ => ⟨x1.1 hcr, x2.1 hcv⟩, fun _ => ⟨_, rfl⟩⟩, ?_⟩
            intro s' e
            injection e with e
            have : s' = boundedBy h N N := by rw [← e, hs]; rfl
            rw [this]
            exact ⟨hmem, hnd, hNb, houtnd, hparts N⟩
          · rw [if_neg hlen]
            refine ⟨⟨nofun, fun e => absurd e hnot⟩, fun _ => ⟨fun _ => ⟨x1.1 hcr, x2.1 hcv⟩, fun _ => ⟨_, rfl⟩⟩, ?_⟩
            intro s' e
            injection e with e
            subst e
            subst hs
            have hperm : ∀ m, m ∈ insideOf h N ↔ m ∈ N := by
              have hsub : insideOf h N ⊆ N := fun m hm => inside_sub ht hv hN hbd hm
              have hle : N.length ≤ (insideOf h N).length := by
                have h1 : N.length ≤ (n :: ns).length := firstOccurrences_length
                have h2 : ¬ (insideOf h N).length < (n :: ns).length := hlen
                omega
              have hp' : (insideOf h N).Perm N := (List.subperm_of_subset (innerNodes_nodup ht) hsub).perm_of_length_le hle
              exact fun m => hp'.mem_iff
            refine ⟨fun m => (hperm m).trans (hmem m), innerNodes_nodup ht, ?_, houtnd, hparts _⟩
            exact bounded_of ht hv hN hone hnd hcr
              (fun e => hNne (List.eq_nil_iff_forall_not_mem.2 fun m hm => by
                have := (hperm m).2 hm
                rw [e] at this; cases this))
              (fun m hm => (hperm m).1 hm) (fun np hnp => inside_in ht hv hN hbd hnp)
              (fun np hnp => inside_out ht hv hN hbd hnp)
              (fun l hl => inside_back ht hv hN hone hbd hl) (fun l hl => inside_along ht hv hN hone hbd hl)
        | err e =>
          simp only []
          refine ⟨⟨nofun, fun e => absurd e hnot⟩, fun _ => ⟨fun ⟨_, e⟩ => (by cases e), fun e => ?_⟩, fun s e => by cases e⟩
          obtain ⟨s, hs⟩ := f2.2 ⟨x1.2 e.1, x2.2 e.2⟩
          rw [hres] at hs; cases hs
        | panic => exact absurd hres f1

end Verif.Patch
