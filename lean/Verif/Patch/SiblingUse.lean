import Verif.Patch.SiblingFrom
import Verif.Patch.SimpleReplaceValidProps

/-!
# Property C61: subgraphs from a boundary, their validation and their use
-/
namespace Verif.Patch

open Verif.Graph Verif.Ops Verif.Passes Verif.Validate Verif.Dataflow Relation

variable {Meta : Type} {C C' : Validate.Context} {h r : Hugr Ops.Op Meta} {s : Subgraph} {p i o : Nat}

/-- A subgraph with a right boundary can be removed and replaced, if its nodes are leaves of the region and its
values are used in the region. -/
theorem separable_of (ht : IsTree h) (hv : Valid C h) (hp : (body (h.ops p)).isSome = true)
    (hn : ∀ n ∈ s.nodes, h.hier.parent n = some p) (hnd : s.nodes.Nodup) (hb : Bounded h s) (hc : Convex h p s.nodes)
    (hout : s.outputs.Nodup) (hleaf : ∀ n ∈ s.nodes, h.children n = [] ∧ ¬ IsIO (h.ops n))
    (huse : ∀ l ∈ h.links, l.src ∈ s.nodes → l.dst ∉ s.nodes → h.hier.parent l.dst = some p) :
    Removable h p s ∧ Separable h p s := by
  have hlive : ∀ n ∈ s.nodes, h.live n = true := fun n hm => (ht.parent_live _ _ (hn n hm)).1
  refine ⟨⟨hp, hb.nonempty, hnd, hn, fun n hm => (hleaf n hm).1,
    fun part hpart np hnp => (hb.input np (List.mem_flatten.2 ⟨part, hpart, hnp⟩)).1, fun np hnp => (hb.output np hnp).1⟩,
    fun n hm => (hleaf n hm).2, hc, hb.distinct, hout, ?_, ?_, hb.shared, ?_, ?_⟩
  · intro l hl h1 h2 t ht'
    rcases hb.enters l hl h1 h2 with h3 | h3
    · obtain ⟨part, h4, h5⟩ := List.mem_flatten.1 h3
      exact ⟨part, h4, h5⟩
    · obtain ⟨kind, k1, k2⟩ := hb.static _ h3
      obtain ⟨kind', k3, k4, _⟩ := hv.kinds l hl
      rw [ht'] at k3; cases k3
      simp only [] at k1
      rw [k4] at k1; cases k1
      cases k2
  · intro part hpart l hl hm
    obtain ⟨h0, l', hl', h1, h2, h3, t, h4⟩ := hb.input _ (List.mem_flatten.2 ⟨part, hpart, hm⟩)
    obtain ⟨kind, k1, k2, _⟩ := hv.kinds l' hl'
    rw [h4] at k1; cases k1
    simp only [] at h1 h2 h0
    rw [h1, h2] at k2
    obtain ⟨a, ap, _, he⟩ := one_link hv (hlive _ h0) k2
    have e1 := (he l.src l.srcPort).1 hl
    have e2 := (he l'.src l'.srcPort).1 (by rw [← h1, ← h2]; exact hl')
    rw [e1.1, ← e2.1]
    exact h3
  · intro l hl h1 h2 _
    exact ⟨hb.leaves l hl h1 h2, huse l hl h1 h2⟩
  · intro l hl hm t h1 h2
    obtain ⟨h0, l', hl', h3, h4, h5, _⟩ := hb.output _ hm
    simp only [] at h3 h4 h0
    have hd := hv.outDegree l.src l.srcPort (.value t) (hlive _ h0) h1
    simp only [OutDegreeOk, h2, false_or, Bool.false_eq_true] at hd
    obtain ⟨y, hy⟩ := List.length_eq_one_iff.1 hd
    have m1 : l ∈ linksFrom h l.src l.srcPort := by simp [linksFrom, hl]
    have m2 : l' ∈ linksFrom h l.src l.srcPort := by simp [linksFrom, hl', h3, h4]
    rw [hy, List.mem_singleton] at m1 m2
    rw [m1, ← m2]
    exact h5

/-- **C61** What `try_from_nodes` makes of leaves of a dataflow region of a valid Hugr, neither its input nor its
output, whose values are used only in the region, can be replaced by a valid Hugr that `SimpleReplacement::try_new`
accepts, and the result is valid. -/
theorem C61_from_nodes_replace (ht : IsTree h) (hv : Valid C h) (hp : (body (h.ops p)).isSome = true) {nodes : List Nat}
    (hne : nodes ≠ []) (hnodes : ∀ n ∈ nodes, h.hier.parent n = some p)
    (hleaf : ∀ n ∈ nodes, h.children n = [] ∧ ¬ IsIO (h.ops n))
    (huse : ∀ l ∈ h.links, l.src ∈ nodes → l.dst ∉ nodes → h.hier.parent l.dst = some p)
    (hs : tryFromNodes h nodes = .ok s)
    (htr : IsTree r) (hvr : Valid C' r) (hC : C'.types = C.types) (hD : C'.defs = C.defs) (hb : HasBody r i o)
    (hn : tryNew s h r = .ok) (hu : Unordered r i o)
    (hd : ∀ n d, n ∈ nodes → DeclsAt h n d → DeclsAt r i d ∨ DeclsAt r i []) {news : List Nat}
    (hlen : news.length = (r.descendants r.entrypoint).length) (hall : Allocated h news) :
    ∃ g map, ∃ f : Nat → Nat, simpleReplace s h r news = .ok g map ∧ (∀ x, Fresh r i o x → map.lookup x = some (f x)) ∧
      IsTree g ∧ ((∀ x t, Fresh r i o x → r.ops x = .const t → C.constOk (f x) = true) → Valid C g) := by
  obtain ⟨e1, e2, e3⟩ := C61_from_nodes ht hv hp hne hnodes
  obtain ⟨m1, m2, m3, m4, _⟩ := e3 s hs
  have hone : ∀ n ∈ nodes, ∀ port, (linksTo h n port).length ≤ 1 := by
    intro n hm port
    by_contra hlt
    have := e1.2 ⟨n, hm, port, by omega⟩
    rw [hs] at this; cases this
  have hcv : Convex h p s.nodes := by
    have := ((e2 hone).1 ⟨s, hs⟩).2
    unfold Convex at this ⊢
    simp only [m1]
    exact this
  obtain ⟨q1, q2⟩ := separable_of ht hv hp (fun n hm => hnodes n ((m1 n).1 hm)) m2 m3 hcv m4
    (fun n hm => hleaf n ((m1 n).1 hm)) (fun l hl h1 h2 => huse l hl ((m1 _).1 h1) fun e => h2 ((m1 _).2 e))
  exact C60_replace_valid ht hv htr hvr hC hD q1 q2 hb hn hu (fun n d hm => hd n d ((m1 n).1 hm)) hlen hall

/-! ## From a boundary -/

theorem Bounded.congr {s s' : Subgraph} (hm : ∀ n, n ∈ s.nodes ↔ n ∈ s'.nodes) (h1 : s.inputs = s'.inputs)
    (h2 : s.outputs = s'.outputs) (h3 : s.functionCalls = s'.functionCalls) (hb : Bounded h s) : Bounded h s' := by
  obtain ⟨a1, a2, a3, a4, a5, a6, a7, a8, a9, a10, a11⟩ := hb
  simp only [hm, h1, h2, h3] at a2 a3 a4 a5 a6 a7 a8 a9 a10 a11
  refine ⟨?_, a2, a3, a4, a5, a6, a7, a8, a9, a10, a11⟩
  intro e
  cases hs : s.nodes with
  | nil => exact a1 hs
  | cons n ns =>
    have := (hm n).1 (by rw [hs]; simp)
    rw [e] at this; cases this

theorem Convex.congr {a b : List Nat} (hm : ∀ n, n ∈ a ↔ n ∈ b) : Convex h p a ↔ Convex h p b := by
  unfold Convex
  simp only [hm]

section

variable {inputs : List (List (Nat × Nat))} {outputs : List (Nat × Nat)}

theorem between_child (ht : IsTree h) (hin : ∀ np ∈ inputs.flatten, h.hier.parent np.1 = some p)
    (hout : ∀ np ∈ outputs, h.hier.parent np.1 = some p) {n : Nat} (hn : Between h p inputs outputs n) :
    h.hier.parent n = some p := by
  cases hn with
  | input h1 => exact hin _ h1
  | output h1 => exact hout _ h1
  | along _ _ _ h2 => exact (ht.child_iff _ _).1 h2
  | back _ _ h1 => exact (ht.child_iff _ _).1 h1

theorem region_of_boundary (ht : IsTree h) (hne : boundaryNodes inputs outputs ≠ [])
    (hin : ∀ np ∈ inputs.flatten, h.hier.parent np.1 = some p) (hout : ∀ np ∈ outputs, h.hier.parent np.1 = some p) :
    boundaryRegion h inputs outputs = p ∧ ∃ n ns, boundaryNodes inputs outputs = n :: ns ∧ h.hier.parent n = some p := by
  unfold boundaryRegion
  cases hb : boundaryNodes inputs outputs with
  | nil => exact absurd hb hne
  | cons n ns =>
    have hm : n ∈ boundaryNodes inputs outputs := by rw [hb]; simp
    have hn : h.hier.parent n = some p := by
      rcases mem_boundaryNodes.1 hm with ⟨np, h1, rfl⟩ | ⟨np, h1, rfl⟩
      · exact hin np h1
      · exact hout np h1
    refine ⟨?_, n, ns, rfl, hn⟩
    simp only []
    rw [getParent_eq ht, hn]
    rfl

/-- **C61** `try_new` with the ports of a boundary in a dataflow region of a valid Hugr, each with one link if it
is the port of a call, does not panic. What it gives has the nodes that are connected with the boundary without
crossing it; its boundary is the given one, and right; and it is convex. -/
theorem C61_try_new (ht : IsTree h) (hv : Valid C h) (hp : (body (h.ops p)).isSome = true)
    (hne : inputs.flatten ≠ [] ∨ outputs ≠ [])
    (hin : ∀ np ∈ inputs.flatten, h.hier.parent np.1 = some p) (hout : ∀ np ∈ outputs, h.hier.parent np.1 = some p)
    (hone : ∀ np ∈ inputs.flatten, (linksTo h np.1 np.2).length = 1)
    (hcalls : ∀ part ∈ inputs, ∀ a ∈ part, ∀ b ∈ part,
      (∃ sg, ((h.ops a.1).ports .incoming)[a.2]? = some (.function sg)) →
        ∃ sg, ((h.ops b.1).ports .incoming)[b.2]? = some (.function sg)) :
    trySubgraph h inputs outputs ≠ .panic ∧
    (∀ s, trySubgraph h inputs outputs = .ok s →
      (∀ n, n ∈ s.nodes ↔ Between h p inputs outputs n) ∧ s.nodes.Nodup ∧ s.outputs = outputs ∧
      (∀ np, np ∈ inputs.flatten ↔ np ∈ s.inputs.flatten ∨ np ∈ s.functionCalls.flatten) ∧
      Bounded h s ∧ Convex h p s.nodes) ∧
    ((∀ np ∈ inputs.flatten, ∀ sg, ((h.ops np.1).ports .incoming)[np.2]? ≠ some (.function sg)) →
      ((∃ s, trySubgraph h inputs outputs = .ok s) ↔
        ∃ nodes, (∀ n, n ∈ nodes ↔ Between h p inputs outputs n) ∧ Bounded h ⟨nodes, inputs, outputs, []⟩ ∧
          Convex h p nodes)) := by
  have hbn : boundaryNodes inputs outputs ≠ [] := by
    intro e
    have : ∀ n, ¬ ((∃ np ∈ inputs.flatten, np.1 = n) ∨ ∃ np ∈ outputs, np.1 = n) := by
      intro n hn
      have := mem_boundaryNodes.2 hn
      rw [e] at this; cases this
    rcases hne with hne | hne
    · obtain ⟨np, hnp⟩ := List.exists_mem_of_ne_nil _ hne
      exact this np.1 (.inl ⟨np, hnp, rfl⟩)
    · obtain ⟨np, hnp⟩ := List.exists_mem_of_ne_nil _ hne
      exact this np.1 (.inr ⟨np, hnp, rfl⟩)
  obtain ⟨hreg, n, ns, hb, hn⟩ := region_of_boundary ht hbn hin hout
  have hmem : ∀ n, n ∈ innerNodes h inputs outputs ↔ Between h p inputs outputs n := by
    intro n
    rw [mem_innerNodes ht hbn, hreg]
  have hflowI : ∀ n ∈ innerNodes h inputs outputs, h.hier.parent n = some p :=
    fun n hm => between_child ht hin hout ((hmem n).1 hm)
  have hdrain : ∃ rest calls, drainFunctionCalls h inputs = some (rest, calls) ∧
      rest = inputs.filter (fun part => !isCallPart h part) ∧
      calls = groupCalls h (inputs.filter (isCallPart h)).flatten := by
    refine ⟨_, _, ?_, rfl, rfl⟩
    unfold drainFunctionCalls
    rw [if_pos]
    rw [List.all_eq_true]
    intro np hnp
    obtain ⟨part, hpart, hm⟩ := List.mem_flatten.1 hnp
    obtain ⟨h1, h2⟩ := List.mem_filter.1 hpart
    obtain ⟨a, ap, e, _⟩ := single_iff (hone np (List.mem_flatten.2 ⟨part, h1, hm⟩))
    rw [e, Bool.and_eq_true]
    refine ⟨?_, rfl⟩
    cases part with
    | nil => cases hm
    | cons x xs =>
      have hfn : ∀ y ∈ x :: xs, (isFunctionPort h y = true ↔ ∃ sg, ((h.ops y.1).ports .incoming)[y.2]? = some (.function sg)) :=
        fun y hy => isFunctionPort_iff (hv.tags _ (ht.parent_live _ _ (hin y (List.mem_flatten.2 ⟨_, h1, hy⟩))).1)
      exact (hfn np hm).2 (hcalls _ h1 x (by simp) np hm ((hfn x (by simp)).1 h2))
  obtain ⟨rest, calls, hdr, hrest, hcal⟩ := hdrain
  have hcm : ∀ np, np ∈ calls.flatten ↔ np ∈ (inputs.filter (isCallPart h)).flatten := by
    intro np
    rw [hcal]
    refine groupCalls_mem fun x hx => ?_
    obtain ⟨part, hpart, hm⟩ := List.mem_flatten.1 hx
    exact hone x (List.mem_flatten.2 ⟨part, (List.mem_filter.1 hpart).1, hm⟩)
  have hsplit : ∀ np, np ∈ inputs.flatten ↔ np ∈ rest.flatten ∨ np ∈ calls.flatten := by
    intro np
    rw [hcm, hrest]
    simp only [List.mem_flatten, List.mem_filter]
    constructor
    · rintro ⟨part, h1, h2⟩
      by_cases hc : isCallPart h part = true
      · exact .inr ⟨part, ⟨h1, hc⟩, h2⟩
      · exact .inl ⟨part, ⟨h1, by simpa using hc⟩, h2⟩
    · rintro (⟨part, ⟨h1, _⟩, h2⟩ | ⟨part, ⟨h1, _⟩, h2⟩) <;> exact ⟨part, h1, h2⟩
  set s0 : Subgraph := ⟨innerNodes h inputs outputs, rest, outputs, calls⟩ with hs0
  have hflow : InFlow h s0.nodes := fun m hm => ⟨p, hflowI m hm, hp⟩
  have hcall : ∀ np ∈ s0.functionCalls.flatten, h.live np.1 = true ∧ (linksTo h np.1 np.2).length = 1 := by
    intro np hnp
    have hm := (hsplit np).2 (.inr hnp)
    exact ⟨(ht.parent_live _ _ (hin np hm)).1, hone np hm⟩
  obtain ⟨v1, v2⟩ := C61_validate_subgraph ht hv hflow hcall
  have hconv : isConvex h p s0.nodes = true ↔ Convex h p s0.nodes :=
    isConvex_iff ht fun m hm => (ht.child_iff _ _).2 (hflowI m hm)
  have hcond : (decide (1 < s0.nodes.length) && !isConvex h p s0.nodes) = true ↔ ¬ Convex h p s0.nodes := by
    rw [Bool.and_eq_true, decide_eq_true_eq, Bool.not_eq_true', Bool.eq_false_iff, ne_eq, hconv]
    constructor
    · exact fun e => e.2
    · intro e
      refine ⟨?_, e⟩
      by_contra hlen
      exact e (convex_small ht hv hp (by omega))
  have hres : trySubgraph h inputs outputs = match validateSubgraph h s0.nodes s0.inputs s0.outputs s0.functionCalls with
      | .ok () => if (decide (1 < s0.nodes.length) && !isConvex h p s0.nodes) = true then .err .notConvex else .ok s0
      | .err e => .err e
      | .panic => .panic := by
    unfold trySubgraph
    rw [hb]
    simp only []
    rw [getParent_eq ht, hn]
    simp only []
    unfold tryNewWithChecker
    rw [hdr]
    rfl
  have hok : ∀ s, trySubgraph h inputs outputs = .ok s ↔ s = s0 ∧ Bounded h s0 ∧ Convex h p s0.nodes := by
    intro s
    rw [hres]
    cases hval : validateSubgraph h s0.nodes s0.inputs s0.outputs s0.functionCalls with
    | ok u =>
      have hB := v1.1 hval
      simp only []
      by_cases hcv : Convex h p s0.nodes
      · rw [if_neg fun e => hcond.1 e hcv]
        exact ⟨fun e => by injection e with e; exact ⟨e.symm, hB, hcv⟩, fun e => by rw [e.1]⟩
      · rw [if_pos (hcond.2 hcv)]
        exact ⟨nofun, fun e => absurd e.2.2 hcv⟩
    | err e =>
      refine ⟨nofun, fun e => ?_⟩
      have := v1.2 e.2.1
      rw [hval] at this; cases this
    | panic => exact absurd hval v2
  refine ⟨?_, ?_, ?_⟩
  · rw [hres]
    cases hval : validateSubgraph h s0.nodes s0.inputs s0.outputs s0.functionCalls with
    | ok u =>
      simp only []
      split <;> nofun
    | err e => nofun
    | panic => exact absurd hval v2
  · intro s hs
    obtain ⟨rfl, hB, hcv⟩ := (hok s).1 hs
    exact ⟨hmem, innerNodes_nodup ht, rfl, hsplit, hB, hcv⟩
  · intro hnf
    have hno : ∀ part ∈ inputs, isCallPart h part = false := by
      intro part hpart
      cases part with
      | nil => rfl
      | cons x xs =>
        have hx : x ∈ inputs.flatten := List.mem_flatten.2 ⟨_, hpart, by simp⟩
        show isFunctionPort h x = false
        rw [Bool.eq_false_iff]
        intro hf
        obtain ⟨sg, hsg⟩ := (isFunctionPort_iff (hv.tags _ (ht.parent_live _ _ (hin x hx)).1)).1 hf
        exact hnf x hx sg hsg
    have h1 : rest = inputs := by
      rw [hrest]
      exact List.filter_eq_self.2 fun part hpart => by rw [hno part hpart]; rfl
    have h2 : calls = [] := by
      rw [hcal, List.filter_eq_nil_iff.2 fun part hpart => by rw [hno part hpart]; simp]
      simp [groupCalls]
    constructor
    · rintro ⟨s, hs⟩
      obtain ⟨rfl, hB, hcv⟩ := (hok s).1 hs
      exact ⟨_, hmem, Bounded.congr (s := s0) (s' := ⟨innerNodes h inputs outputs, inputs, outputs, []⟩) (fun _ => Iff.rfl) h1 rfl h2 hB, hcv⟩
    · rintro ⟨nodes, hm, hB, hcv⟩
      refine ⟨s0, (hok s0).2 ⟨rfl, ?_, ?_⟩⟩
      · exact Bounded.congr (s := ⟨nodes, inputs, outputs, []⟩) (s' := s0) (fun n => (hm n).trans (hmem n).symm) h1.symm rfl h2.symm hB
      · exact (Convex.congr fun n => (hm n).trans (hmem n).symm).1 hcv

end

/-- **C61** `validate` accepts a subgraph of a dataflow region with at least one port in its boundary exactly if its
nodes are those that are connected with the boundary without crossing it, its boundary is right, and it is convex. It
does not panic. -/
theorem C61_validate (ht : IsTree h) (hv : Valid C h) (hp : (body (h.ops p)).isSome = true)
    (hn : ∀ n ∈ s.nodes, h.hier.parent n = some p) (hne : s.inputs.flatten ≠ [] ∨ s.outputs ≠ [])
    (hcall : ∀ np ∈ s.functionCalls.flatten, h.live np.1 = true ∧ (linksTo h np.1 np.2).length = 1) :
    (s.validate h = .ok () ↔ (∀ n, n ∈ s.nodes ↔ Between h p s.inputs s.outputs n) ∧ s.nodes.Nodup ∧ Bounded h s ∧
      Convex h p s.nodes) ∧ s.validate h ≠ .panic := by
  have hbn : boundaryNodes s.inputs s.outputs ≠ [] := by
    intro e
    have : ∀ n, ¬ ((∃ np ∈ s.inputs.flatten, np.1 = n) ∨ ∃ np ∈ s.outputs, np.1 = n) := by
      intro n hn
      have := mem_boundaryNodes.2 hn
      rw [e] at this; cases this
    rcases hne with hne | hne
    · obtain ⟨np, hnp⟩ := List.exists_mem_of_ne_nil _ hne
      exact this np.1 (.inl ⟨np, hnp, rfl⟩)
    · obtain ⟨np, hnp⟩ := List.exists_mem_of_ne_nil _ hne
      exact this np.1 (.inr ⟨np, hnp, rfl⟩)
  have hflow : InFlow h s.nodes := fun m hm => ⟨p, hn m hm, hp⟩
  obtain ⟨v1, v2⟩ := C61_validate_subgraph ht hv hflow hcall
  have hreg : (∀ np ∈ s.inputs.flatten, np.1 ∈ s.nodes) → (∀ np ∈ s.outputs, np.1 ∈ s.nodes) →
      ∀ n, n ∈ innerNodes h s.inputs s.outputs ↔ Between h p s.inputs s.outputs n := by
    intro h1 h2 n
    rw [mem_innerNodes ht hbn,
      (region_of_boundary ht hbn (fun np hnp => hn _ (h1 np hnp)) (fun np hnp => hn _ (h2 np hnp))).1]
  unfold Subgraph.validate
  by_cases hperm : (innerNodes h s.inputs s.outputs).isPerm s.nodes = true
  · rw [if_pos hperm]
    have hpm := List.isPerm_iff.1 hperm
    have hmi : ∀ n, n ∈ innerNodes h s.inputs s.outputs ↔ n ∈ s.nodes := fun n => hpm.mem_iff
    have hr := hreg (fun np hnp => (hmi _).1 ((mem_innerNodes ht hbn _).2 (.input hnp)))
      (fun np hnp => (hmi _).1 ((mem_innerNodes ht hbn _).2 (.output hnp)))
    cases hval : validateSubgraph h s.nodes s.inputs s.outputs s.functionCalls with
    | ok u =>
      have hB := v1.1 hval
      simp only []
      have hpar : s.getParent h = some p := by
        unfold Subgraph.getParent
        cases hs : s.nodes with
        | nil => exact absurd hs hB.nonempty
        | cons m ms =>
          simp only []
          rw [getParent_eq ht]
          exact hn m (by rw [hs]; simp)
      rw [hpar]
      simp only []
      have hconv : isConvex h p (innerNodes h s.inputs s.outputs) = true ↔ Convex h p s.nodes :=
        (isConvex_iff ht fun m hm => (ht.child_iff _ _).2 (hn m ((hmi m).1 hm))).trans (Convex.congr hmi)
      by_cases hcv : Convex h p s.nodes
      · rw [if_pos (hconv.2 hcv)]
        exact ⟨⟨fun _ => ⟨fun n => (hmi n).symm.trans (hr n), hpm.nodup_iff.1 (innerNodes_nodup ht), hB, hcv⟩, fun _ => rfl⟩, nofun⟩
      · rw [if_neg fun e => hcv (hconv.1 e)]
        exact ⟨⟨nofun, fun e => absurd e.2.2.2 hcv⟩, nofun⟩
    | err e =>
      simp only []
      refine ⟨⟨nofun, fun e => ?_⟩, nofun⟩
      have := v1.2 e.2.2.1
      rw [hval] at this; cases this
    | panic => exact absurd hval v2
  · rw [if_neg hperm]
    refine ⟨⟨nofun, fun e => absurd (List.isPerm_iff.2 ?_) hperm⟩, nofun⟩
    obtain ⟨e1, e2, e3, e4⟩ := e
    have hr := hreg (fun np hnp => (e3.input np hnp).1) (fun np hnp => (e3.output np hnp).1)
    exact (List.perm_ext_iff_of_nodup (innerNodes_nodup ht) e2).2 fun n => (hr n).trans (e1 n).symm

end Verif.Patch
