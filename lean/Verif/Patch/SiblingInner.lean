import Verif.Patch.SiblingProps

/-!
# The nodes inside of a boundary, and convexity
-/
namespace Verif.Patch

open Verif.Graph Verif.Ops Verif.Passes Verif.Validate Verif.Dataflow Relation

variable {Meta : Type} {C : Validate.Context} {h : Hugr Ops.Op Meta} {p : Nat}

theorem dfs_nodup (succ : Nat → List Nat) (fuel : Nat) (D S : List Nat) (hD : D.Nodup) : (dfs succ fuel D S).Nodup := by
  induction fuel generalizing D S with
  | zero => exact hD
  | succ fuel ih =>
    cases S with
    | nil => exact hD
    | cons n S =>
      unfold dfs
      by_cases hn : n ∈ D
      · rw [if_pos hn]; exact ih _ _ hD
      · rw [if_neg hn]; exact ih _ _ (List.nodup_cons.2 ⟨hn, hD⟩)

theorem mem_followers {a b : Nat} : b ∈ followers h p a ↔ RegionEdge h p a b := by
  unfold followers RegionEdge
  by_cases ha : a ∈ h.children p
  · rw [if_pos ha]
    simp only [List.mem_filter, List.mem_map, decide_eq_true_eq]
    constructor
    · rintro ⟨⟨l, ⟨hl, h1⟩, h2⟩, h3⟩
      exact ⟨ha, h3, l, hl, h1, h2⟩
    · rintro ⟨_, h3, l, hl, h1, h2⟩
      exact ⟨⟨l, ⟨hl, h1⟩, h2⟩, h3⟩
  · rw [if_neg ha]
    simp [ha]

theorem mem_reachedFrom (ht : IsTree h) {start : List Nat} (hs : ∀ n ∈ start, n ∈ h.children p) (n : Nat) :
    n ∈ reachedFrom h p start ↔ ∃ a ∈ start, ReflTransGen (RegionEdge h p) a n := by
  have heq : (fun a b => b ∈ followers h p a) = RegionEdge h p := by
    funext a b; exact propext mem_followers
  unfold reachedFrom
  rw [← heq]
  exact dfs_mem (followers h p) (h.children p) start (ht.child_once p) hs (fun a _ m hm => (mem_followers.1 hm).2.1) n

/-- The check for convexity says whether a way leads out of the nodes and back. -/
theorem isConvex_iff (ht : IsTree h) {nodes : List Nat} (hn : ∀ n ∈ nodes, n ∈ h.children p) :
    isConvex h p nodes = true ↔ Convex h p nodes := by
  have hchild : ∀ a b, ReflTransGen (RegionEdge h p) a b → a ∈ h.children p → b ∈ h.children p := by
    intro a b hr ha
    induction hr with
    | refl => exact ha
    | tail _ e _ => exact e.2.1
  unfold isConvex Convex
  simp only [List.all_eq_true, Bool.or_eq_true, decide_eq_true_eq]
  constructor
  · intro hh a b c ha hb hc hab hbc
    have hbr : b ∈ reachedFrom h p nodes := (mem_reachedFrom ht hn b).2 ⟨a, ha, hab.to_reflTransGen⟩
    rcases hh b hbr with h1 | h1
    · exact hb h1
    · have hb' : b ∈ h.children p := hchild a b hab.to_reflTransGen (hn a ha)
      exact h1 c ((mem_reachedFrom ht (by simpa using hb') c).2 ⟨b, by simp, hbc.to_reflTransGen⟩) hc
  · intro hh b hb
    obtain ⟨a, ha, hab⟩ := (mem_reachedFrom ht hn b).1 hb
    by_cases hbn : b ∈ nodes
    · exact .inl hbn
    · right
      intro c hcr hc
      have hb' : b ∈ h.children p := hchild a b hab (hn a ha)
      obtain ⟨b', hb'', hbc⟩ := (mem_reachedFrom ht (by simpa using hb') c).1 hcr
      rw [List.mem_singleton] at hb''
      subst hb''
      rcases reflTransGen_iff_eq_or_transGen.1 hab with rfl | hab
      · exact hbn ha
      rcases reflTransGen_iff_eq_or_transGen.1 hbc with rfl | hbc
      · exact hbn hc
      exact hh a b' c ha hbn hc hab hbc

theorem mem_boundaryNodes {inputs : List (List (Nat × Nat))} {outputs : List (Nat × Nat)} {n : Nat} :
    n ∈ boundaryNodes inputs outputs ↔ (∃ np ∈ inputs.flatten, np.1 = n) ∨ ∃ np ∈ outputs, np.1 = n := by
  unfold boundaryNodes iterIo incomingPorts outgoingPorts
  simp only [List.map_append, List.map_map, List.mem_append, List.mem_map, Function.comp]

theorem mem_neighbours {inputs : List (List (Nat × Nat))} {outputs : List (Nat × Nat)} {n m : Nat} :
    m ∈ neighbours h p inputs outputs n ↔ ∃ l ∈ h.links, l.src ∈ h.children p ∧ l.dst ∈ h.children p ∧
      (l.src, l.srcPort) ∉ outputs ∧ (l.dst, l.dstPort) ∉ inputs.flatten ∧
      ((l.src = n ∧ l.dst = m) ∨ (l.dst = n ∧ l.src = m)) := by
  unfold neighbours
  by_cases hn : n ∈ h.children p
  · rw [if_pos hn]
    simp only [List.mem_filter, List.mem_append, List.mem_map, Bool.and_eq_true, decide_eq_true_eq]
    constructor
    · rintro ⟨⟨l, ⟨hl, ⟨rfl, h1⟩, h2⟩, rfl⟩ | ⟨l, ⟨hl, ⟨rfl, h1⟩, h2⟩, rfl⟩, hm⟩
      · exact ⟨l, hl, hn, hm, h1, h2, .inl ⟨rfl, rfl⟩⟩
      · exact ⟨l, hl, hm, hn, h1, h2, .inr ⟨rfl, rfl⟩⟩
    · rintro ⟨l, hl, h1, h2, h3, h4, ⟨rfl, rfl⟩ | ⟨rfl, rfl⟩⟩
      · exact ⟨.inl ⟨l, ⟨hl, ⟨rfl, h3⟩, h4⟩, rfl⟩, h2⟩
      · exact ⟨.inr ⟨l, ⟨hl, ⟨rfl, h3⟩, h4⟩, rfl⟩, h1⟩
  · rw [if_neg hn]
    simp only [List.not_mem_nil, false_iff]
    rintro ⟨l, hl, h1, h2, h3, h4, ⟨rfl, rfl⟩ | ⟨rfl, rfl⟩⟩
    · exact hn h1
    · exact hn h2

/-- The nodes found are those that are connected with the boundary without crossing it. -/
theorem mem_innerNodes (ht : IsTree h) {inputs : List (List (Nat × Nat))} {outputs : List (Nat × Nat)}
    (hb : boundaryNodes inputs outputs ≠ []) (n : Nat) :
    n ∈ innerNodes h inputs outputs ↔ Between h (boundaryRegion h inputs outputs) inputs outputs n := by
  unfold innerNodes
  cases hbn : boundaryNodes inputs outputs with
  | nil => exact absurd hbn hb
  | cons a as =>
    simp only []
    generalize boundaryRegion h inputs outputs = q
    rw [dfs_mem]
    · constructor
      · rintro ⟨x, hx, hr⟩
        rw [← hbn] at hx
        induction hr with
        | refl =>
          rcases mem_boundaryNodes.1 hx with ⟨np, h1, rfl⟩ | ⟨np, h1, rfl⟩
          · exact .input h1
          · exact .output h1
        | tail _ e ih =>
          obtain ⟨l, hl, h1, h2, h3, h4, ⟨rfl, rfl⟩ | ⟨rfl, rfl⟩⟩ := mem_neighbours.1 e
          · exact .along ih hl h1 h2 h3 h4
          · exact .back ih hl h1 h2 h3 h4
      · intro hn
        rw [← hbn]
        induction hn with
        | input h1 => exact ⟨_, mem_boundaryNodes.2 (.inl ⟨_, h1, rfl⟩), .refl⟩
        | output h1 => exact ⟨_, mem_boundaryNodes.2 (.inr ⟨_, h1, rfl⟩), .refl⟩
        | along _ hl h1 h2 h3 h4 ih =>
          obtain ⟨x, hx, hr⟩ := ih
          exact ⟨x, hx, hr.tail (mem_neighbours.2 ⟨_, hl, h1, h2, h3, h4, .inl ⟨rfl, rfl⟩⟩)⟩
        | back _ hl h1 h2 h3 h4 ih =>
          obtain ⟨x, hx, hr⟩ := ih
          exact ⟨x, hx, hr.tail (mem_neighbours.2 ⟨_, hl, h1, h2, h3, h4, .inr ⟨rfl, rfl⟩⟩)⟩
    · refine List.nodup_append.2 ⟨List.nodup_dedup _, (ht.child_once q).filter _, ?_⟩
      rintro x hx y hy rfl
      rw [List.mem_dedup] at hx
      simp only [List.mem_filter, decide_eq_true_eq] at hy
      exact hy.2 hx
    · intro x hx
      exact List.mem_append_left _ (List.mem_dedup.2 hx)
    · intro x _ m hm
      obtain ⟨l, hl, h1, h2, _, _, ⟨rfl, rfl⟩ | ⟨rfl, rfl⟩⟩ := mem_neighbours.1 hm
      · by_cases hin : l.dst ∈ a :: as
        · exact List.mem_append_left _ (List.mem_dedup.2 hin)
        · exact List.mem_append_right _ (List.mem_filter.2 ⟨h2, by simpa using hin⟩)
      · by_cases hin : l.src ∈ a :: as
        · exact List.mem_append_left _ (List.mem_dedup.2 hin)
        · exact List.mem_append_right _ (List.mem_filter.2 ⟨h1, by simpa using hin⟩)

theorem innerNodes_nodup (ht : IsTree h) {inputs : List (List (Nat × Nat))} {outputs : List (Nat × Nat)} :
    (innerNodes h inputs outputs).Nodup := by
  unfold innerNodes
  split
  · exact ht.child_once _
  · exact dfs_nodup _ _ _ _ List.nodup_nil

/-- The ports of functions, by their kind. -/
theorem isFunctionPort_iff {np : Nat × Nat} (htag : (h.ops np.1).tagOk = true) :
    isFunctionPort h np = true ↔ ∃ s, ((h.ops np.1).ports .incoming)[np.2]? = some (.function s) := by
  unfold isFunctionPort
  rw [Bool.and_eq_true, isStatic_at htag]
  constructor
  · rintro ⟨⟨kind, h1, h2⟩, h3⟩
    cases hop : h.ops np.1 <;> rw [hop] at h1 h3 <;> simp only [Op.staticInput, Bool.false_eq_true] at h3 <;>
      simp only [Op.ports] at h1 <;> have hm := List.mem_of_getElem? h1 <;>
      simp only [List.mem_append, List.mem_cons, List.mem_map, List.not_mem_nil, or_false, List.mem_singleton] at hm
    · rcases hm with ⟨t, _, rfl⟩ | rfl | rfl
      · cases h2
      · exact ⟨_, h1⟩
      · cases h2
    · rcases hm with rfl | rfl
      · exact ⟨_, h1⟩
      · cases h2
  · rintro ⟨s, hs⟩
    refine ⟨⟨_, hs, rfl⟩, ?_⟩
    have hm := List.mem_of_getElem? hs
    cases hop : h.ops np.1 <;> rw [hop] at hm <;> simp [Op.ports, Op.staticInput] at hm ⊢

end Verif.Patch
