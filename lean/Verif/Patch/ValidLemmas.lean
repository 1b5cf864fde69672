import Verif.Dataflow.DeadCodeSim
import Verif.Patch.LinkLemmas

/-!
# Where the links of a valid Hugr go
-/
namespace Verif.Patch

open Verif.Graph Verif.Ops Verif.Passes Verif.Validate Verif.Dataflow

variable {Meta : Type} {C : Validate.Context} {h : Hugr Ops.Op Meta}

/-- `m` is below `n`. -/
def Inside (h : Hugr Ops.Op Meta) (n m : Nat) : Prop :=
  ∃ p, h.hier.parent m = some p ∧ Above h.hier.parent p n

theorem Inside.child {n m : Nat} (hp : h.hier.parent m = some n) : Inside h n m := ⟨n, hp, .refl _⟩

theorem inside_irrefl (ht : IsTree h) (n : Nat) : ¬ Inside h n n := by
  rintro ⟨p, hp, ha⟩
  exact ht.acyclic _ _ hp ha

theorem Inside.above {n m : Nat} (hi : Inside h n m) : Above h.hier.parent m n := by
  obtain ⟨p, hp, ha⟩ := hi
  exact .step hp ha

theorem inside_iff (ht : IsTree h) {n m : Nat} : Inside h n m ↔ Above h.hier.parent m n ∧ m ≠ n := by
  constructor
  · intro hi
    exact ⟨hi.above, fun e => inside_irrefl ht n (by rw [e] at hi; exact hi)⟩
  · rintro ⟨ha, hne⟩
    rcases above_cases ha with e | ⟨p, hp, hpn⟩
    · exact absurd e hne
    · exact ⟨p, hp, hpn⟩

/-- Links do not go from inside a node to the node. -/
theorem link_not_out (ht : IsTree h) (hv : Valid C h) {l : Link} (hl : l ∈ h.links) :
    ¬ Inside h l.dst l.src := by
  rintro ⟨p', hp', ha'⟩
  have hac := ht.acyclic
  obtain ⟨kind, _, _, p, hp, hor⟩ := hv.kinds l hl
  rw [hp'] at hp; cases hp
  rcases hor with hd | ⟨q, a, hq, hqa, ⟨_, ha⟩ | ⟨_, ⟨ha, _⟩ | ⟨g, sig, entry, rest, hne, hpg, hag, _⟩⟩⟩
  · exact hac _ _ hd ha'
  · exact hac _ _ hq (hqa.trans (.step ha ha'))
  · exact hac _ _ hq (hqa.trans (.step ha ha'))
  · rcases above_cases ha' with e | ⟨g', hg', hgd⟩
    · rw [← e] at hq
      rw [hq] at hpg; cases hpg
      exact hac _ _ hag hqa
    · rw [hg'] at hpg; cases hpg
      exact hac _ _ hag ((hgd.trans (.of_parent hq)).trans hqa)

theorem body_of_value (hv : Valid C h) {n p : Nat} (hn : h.hier.parent n = some p) {kind : Kind}
    {dir : Ops.Dir} (hm : kind ∈ (h.ops n).ports dir) (hk : kind.isValue = true ∨ kind = .stateOrder) :
    (body (h.ops p)).isSome = true := by
  have hc := hv.contains n p hn
  cases hop : h.ops p <;> rw [hop] at hc <;> simp only [MayContain] at hc
  all_goals first
    | exact hc.1
    | (cases hon : h.ops n <;> rw [hon] at hc hm <;> simp only [] at hc <;> cases dir <;>
        simp only [Op.ports, List.mem_cons, List.not_mem_nil, or_false, List.mem_map] at hm <;>
        first
          | (subst hm; simp [Kind.isValue] at hk)
          | (obtain ⟨x, _, rfl⟩ := hm; simp [Kind.isValue] at hk)
          | exact absurd hm (by simp))

/-- Links of values and order do not go from a node to inside it or back to it. -/
theorem link_not_in (ht : IsTree h) (hv : Valid C h) {l : Link} (hl : l ∈ h.links) {kind : Kind}
    (hs : srcKind h l = some kind) (hk : kind.isValue = true ∨ kind = .stateOrder) :
    ¬ Above h.hier.parent l.dst l.src := by
  intro ha'
  have hac := ht.acyclic
  obtain ⟨kind', hs', _, p, hp, hor⟩ := hv.kinds l hl
  rw [hs] at hs'; cases hs'
  have hb : (body (h.ops p)).isSome = true :=
    body_of_value hv hp (List.mem_of_getElem? hs) hk
  have hloop : ∀ o ∈ h.links, o.src = l.src → o.dst = l.src → False := by
    intro o ho h1 h2
    have hm := (ht.child_iff p l.src).2 hp
    exact hv.acyclic p (ht.parent_live _ _ hp).2 hb l.src (.single ⟨hm, hm, o, ho, h1, h2⟩)
  rcases above_cases ha' with e | ⟨q', hq', hqs⟩
  · exact hloop l hl rfl e
  rcases hor with hd | ⟨q, a, hq, hqa, ⟨h1, _⟩ | ⟨_, ⟨ha, o, ho, ho1, ho2, _⟩ | ⟨g, sig, entry, rest, hne, hpg, hag, hog, _⟩⟩⟩
  · rw [hd] at hq'; cases hq'
    exact hac _ _ hp hqs
  · rcases hk with hk | hk
    · cases kind <;> simp [Kind.isValue, Kind.isStatic] at hk h1
    · subst hk; simp [Kind.isStatic] at h1
  · rw [hq] at hq'; cases hq'
    -- both `a` and the source are above `q`, and have the same parent
    have : a = l.src := by
      rcases hqa.total hqs with h2 | h2
      · rcases above_cases h2 with e | ⟨x, hx, hxs⟩
        · exact e
        · rw [ha] at hx; cases hx
          exact absurd hxs (hac _ _ hp)
      · rcases above_cases h2 with e | ⟨x, hx, hxs⟩
        · exact e.symm
        · rw [hp] at hx; cases hx
          exact absurd hxs (hac _ _ ha)
    exact hloop o ho ho1 (by rw [ho2, this])
  · rw [hq] at hq'; cases hq'
    -- the source is below its block, `a` is another block
    have h3 : Above h.hier.parent q' p := hqs.trans (.of_parent hp)
    rcases hqa.total h3 with h2 | h2
    · rcases above_cases h2 with e | ⟨x, hx, hxs⟩
      · exact hne e
      · rw [hag] at hx; cases hx
        exact hac _ _ hpg hxs
    · rcases above_cases h2 with e | ⟨x, hx, hxs⟩
      · exact hne e.symm
      · rw [hpg] at hx; cases hx
        exact hac _ _ hag hxs

/-- The kind of the port at the other end of a link. -/
theorem link_kinds (hv : Valid C h) {l : Link} (hl : l ∈ h.links) :
    ∃ kind, srcKind h l = some kind ∧ ((h.ops l.dst).ports .incoming)[l.dstPort]? = some kind := by
  obtain ⟨kind, h1, h2, _⟩ := hv.kinds l hl
  exact ⟨kind, h1, h2⟩

/-- The nodes at the ends of a link of a value or of order have order ports, which are their last. -/
theorem link_order (ht : IsTree h) (hv : Valid C h) {l : Link} (hl : l ∈ h.links) {kind : Kind}
    (hs : srcKind h l = some kind) (hk : kind.isValue = true ∨ kind = .stateOrder) :
    (HasOrder h l.src .outgoing ∧ HasOrder h l.dst .incoming) ∧
    (kind = .stateOrder ↔ l.srcPort = lastPort (h.ops l.src) .outgoing) ∧
    (kind = .stateOrder ↔ l.dstPort = lastPort (h.ops l.dst) .incoming) := by
  obtain ⟨k', h1, h2⟩ := link_kinds hv hl
  rw [hs] at h1; cases h1
  obtain ⟨l1, l2⟩ := link_live ht hv hl
  obtain ⟨a1, a2, a3⟩ := otherPort_last (hv.tags _ l1) (List.mem_of_getElem? hs) hk
  obtain ⟨b1, b2, b3⟩ := otherPort_last (hv.tags _ l2) (List.mem_of_getElem? h2) hk
  refine ⟨⟨⟨l1, a1, ?_⟩, l2, b1, ?_⟩, ?_, ?_⟩
  · simp only [portsOf, (hv.ports _ l1).2]; exact a2
  · simp only [portsOf, (hv.ports _ l2).1]; exact b2
  · rw [← a3]; unfold srcKind at hs; rw [hs]; simp
  · rw [← b3, h2]; simp

end Verif.Patch
