import Verif.Patch.ValidLemmas
import Mathlib.Data.List.Chain

/-!
# Which values a region can use

A region can use the values of the regions around it and of the blocks that dominate those. This is a
strict order, so running a region does not change what it could use before.
-/
namespace Verif.Patch

open Verif.Graph Verif.Ops Verif.Passes Verif.Validate Verif.Dataflow

variable {Meta : Type} {C : Validate.Context} {h : Hugr Ops.Op Meta}

/-! ## Dominance -/

section Dom
variable {edge : Nat → Nat → Prop} {entry : Nat}

theorem path_prefix {π1 π2 : List Nat} {b : Nat} (hh : (π1 ++ b :: π2).head? = some entry)
    (hc : (π1 ++ b :: π2).IsChain edge) :
    (π1 ++ [b]).head? = some entry ∧ (π1 ++ [b]).getLast? = some b ∧ (π1 ++ [b]).IsChain edge := by
  refine ⟨?_, by simp, ?_⟩
  · cases π1 <;> simpa using hh
  · have : π1 ++ b :: π2 = (π1 ++ [b]) ++ π2 := by simp
    rw [this] at hc
    exact hc.left_of_append

theorem dominates_antisymm {a b : Nat} (hne : a ≠ b) (h1 : Dominates edge entry a b)
    (h2 : Dominates edge entry b a) : False := by
  have key : ∀ n (π : List Nat), π.length ≤ n → π.head? = some entry → π.getLast? = some a →
      π.IsChain edge → False := by
    intro n
    induction n with
    | zero =>
      intro π hl hh
      have : π = [] := List.length_eq_zero_iff.1 (Nat.le_zero.1 hl)
      subst this; simp at hh
    | succ n ih =>
      intro π hl hh ha hc
      have hb := h2.2 π hh ha hc
      obtain ⟨π1, π2, rfl⟩ := List.append_of_mem hb
      obtain ⟨q1, q2, q3⟩ := path_prefix hh hc
      have hm := h1.2 _ q1 q2 q3
      rcases List.mem_append.1 hm with hm | hm
      · obtain ⟨π3, π4, rfl⟩ := List.append_of_mem hm
        obtain ⟨r1, r2, r3⟩ := path_prefix (π2 := π4 ++ [b]) (by simpa using q1) (by simpa using q3)
        refine ih _ ?_ r1 r2 r3
        simp only [List.length_append, List.length_cons, List.length_nil] at hl ⊢
        omega
      · exact hne (by simpa using hm)
  obtain ⟨l, hl1, hl2⟩ := List.exists_isChain_cons_of_relationReflTransGen h2.1
  refine key _ (entry :: l) (Nat.le_refl _) rfl ?_ hl1
  rw [List.getLast?_eq_some_getLast (by simp), hl2]

theorem dominates_trans {a b c : Nat} (h1 : Dominates edge entry a b) (h2 : Dominates edge entry b c) :
    Dominates edge entry a c := by
  refine ⟨h2.1, fun π hh hl hc => ?_⟩
  obtain ⟨π1, π2, rfl⟩ := List.append_of_mem (h2.2 π hh hl hc)
  obtain ⟨q1, q2, q3⟩ := path_prefix hh hc
  have := h1.2 _ q1 q2 q3
  simp only [List.mem_append, List.mem_cons, List.not_mem_nil, or_false] at this ⊢
  tauto

theorem dominates_step {a b c : Nat} (hr : Relation.ReflTransGen edge entry b) (he : edge b c)
    (h1 : Dominates edge entry a c) : a = c ∨ Dominates edge entry a b := by
  by_cases hac : a = c
  · exact .inl hac
  · refine .inr ⟨hr, fun π hh hl hc => ?_⟩
    have := h1.2 (π ++ [c]) (by cases π with | nil => simp at hh | cons => simpa using hh) (by simp)
      (by
        rw [List.isChain_append]
        refine ⟨hc, .singleton _, ?_⟩
        intro x hx y hy
        rw [hl] at hx
        simp only [Option.mem_def, Option.some.injEq, List.head?_cons] at hx hy
        subst hx; subst hy; exact he)
    simp only [List.mem_append, List.mem_singleton] at this
    exact this.resolve_right hac

theorem dominates_entry {a : Nat} (h1 : Dominates edge entry a entry) : a = entry := by
  have := h1.2 [entry] rfl rfl (.singleton _)
  simpa using this

end Dom

/-! ## Visible regions -/

/-- Another block of the same control-flow graph, that dominates the block. -/
def SDom (h : Hugr Ops.Op Meta) (b a : Nat) : Prop :=
  a ≠ b ∧ ∃ g sig entry rest, h.hier.parent b = some g ∧ h.hier.parent a = some g ∧ h.ops g = .cfg sig ∧
    h.children g = entry :: rest ∧ Dominates (RegionEdge h g) entry b a

/-- The region `P` can use the values of the region `A`, which is another one. -/
def See (h : Hugr Ops.Op Meta) (P A : Nat) : Prop :=
  Inside h A P ∨ ∃ a, Above h.hier.parent P a ∧ SDom h A a

theorem SDom.trans {a b c : Nat} (h1 : SDom h a b) (h2 : SDom h b c) : SDom h a c := by
  obtain ⟨n1, g, sig, entry, rest, p1, p2, p3, p4, p5⟩ := h1
  obtain ⟨n2, g', sig', entry', rest', q1, q2, q3, q4, q5⟩ := h2
  rw [p2] at q1; cases q1
  rw [p4] at q4; cases q4
  refine ⟨?_, g, sig, entry, rest, p1, q2, p3, p4, dominates_trans p5 q5⟩
  rintro rfl
  exact dominates_antisymm n2 p5 q5

theorem see_irrefl (ht : IsTree h) (P : Nat) : ¬ See h P P := by
  rintro (h1 | ⟨a, h1, n1, g, sig, entry, rest, p1, p2, _⟩)
  · exact inside_irrefl ht P h1
  · rcases above_cases h1 with e | ⟨q, hq, hqa⟩
    · exact n1 e.symm
    · rw [p1] at hq; cases hq
      exact ht.acyclic _ _ p2 hqa

theorem See.trans (ht : IsTree h) {P A B : Nat} (h1 : See h P A) (h2 : See h A B) : See h P B := by
  have above_strict : ∀ {x y z}, Inside h y x → Above h.hier.parent y z → Inside h z x := by
    rintro x y z ⟨q, hq, hqy⟩ hyz
    exact ⟨q, hq, hqy.trans hyz⟩
  rcases h1 with h1 | ⟨a, ha, hs⟩
  · rcases h2 with h2 | ⟨b, hb, hs2⟩
    · exact .inl (above_strict h1 h2.above)
    · exact .inr ⟨b, h1.above.trans hb, hs2⟩
  · obtain ⟨n1, g, sig, entry, rest, p1, p2, _⟩ := id hs
    have strict : ∀ z, Above h.hier.parent g z → Inside h z P := by
      intro z hz
      rcases above_cases ha with e | ⟨q, hq, hqa⟩
      · rw [e]; exact ⟨g, p2, hz⟩
      · exact ⟨q, hq, hqa.trans (.step p2 hz)⟩
    rcases h2 with ⟨q, hq, hqB⟩ | ⟨b, hb, hs2⟩
    · rw [p1] at hq; cases hq
      exact .inl (strict B hqB)
    · rcases above_cases hb with e | ⟨q, hq, hqb⟩
      · subst e
        exact .inr ⟨a, ha, hs2.trans hs⟩
      · rw [p1] at hq; cases hq
        exact .inr ⟨b, ha.trans (.step p2 hqb), hs2⟩

theorem see_parent {n p : Nat} (hp : h.hier.parent n = some p) : See h n p := .inl (.child hp)

/-- What a node can use is in its region, or its region can use it, or it is a block. -/
theorem see_child {n P A : Nat} (hp : h.hier.parent n = some P) (hs : See h n A) :
    A = P ∨ See h P A ∨ SDom h A n := by
  rcases hs with ⟨q, hq, hqA⟩ | ⟨a, ha, hd⟩
  · rw [hp] at hq; cases hq
    rcases above_cases hqA with e | ⟨q, hq, hqA⟩
    · exact .inl e.symm
    · exact .inr (.inl (.inl ⟨q, hq, hqA⟩))
  · rcases above_cases ha with e | ⟨q, hq, hqa⟩
    · subst e; exact .inr (.inr hd)
    · rw [hp] at hq; cases hq
      exact .inr (.inl (.inr ⟨a, hqa, hd⟩))

theorem SDom.cfg {a n P : Nat} (hs : SDom h a n) (hp : h.hier.parent n = some P) :
    ∃ sig, h.ops P = .cfg sig := by
  obtain ⟨_, g, sig, _, _, _, p2, p3, _⟩ := hs
  rw [hp] at p2; cases p2
  exact ⟨sig, p3⟩

/-- Links of values come from what the region can use. -/
theorem link_see (ht : IsTree h) (hv : Valid C h) {l : Link} (hl : l ∈ h.links) {t : Types.Ty}
    (hs : srcKind h l = some (.value t)) : ∃ A Q, h.hier.parent l.src = some A ∧
      h.hier.parent l.dst = some Q ∧ (A = Q ∨ See h Q A) := by
  obtain ⟨kind', hs', _, p, hp, hor⟩ := hv.kinds l hl
  rw [hs] at hs'; cases hs'
  rcases hor with hd | ⟨q, a, hq, hqa, ⟨h1, _⟩ | ⟨_, ⟨ha, _⟩ | ⟨g, sig, entry, rest, hne, hpg, hag, hog, hch, hdom⟩⟩⟩
  · exact ⟨p, p, hp, hd, .inl rfl⟩
  · simp [Kind.isStatic] at h1
  · refine ⟨p, q, hp, hq, .inr (.inl ((inside_iff ht).2 ⟨hqa.trans (.of_parent ha), ?_⟩))⟩
    rintro rfl
    exact ht.acyclic _ _ ha hqa
  · exact ⟨p, q, hp, hq, .inr (.inr ⟨a, hqa, hne, g, sig, entry, rest, hpg, hag, hog, hch, hdom⟩)⟩

/-- The block has been reached. -/
def Reached (h : Hugr Ops.Op Meta) (b : Nat) : Prop :=
  ∃ g sig entry rest, h.hier.parent b = some g ∧ h.ops g = .cfg sig ∧ h.children g = entry :: rest ∧
    Relation.ReflTransGen (RegionEdge h g) entry b

theorem block_link (hv : Valid C h) {l : Link} (hl : l ∈ h.links)
    {x y : List Types.Ty} {z : List (List Types.Ty)} (hop : h.ops l.src = .dataflowBlock x y z) :
    ∃ g, h.hier.parent l.src = some g ∧ h.hier.parent l.dst = some g := by
  obtain ⟨kind, hs, _, p, hp, hor⟩ := hv.kinds l hl
  have hk : kind = .controlFlow := by
    unfold srcKind at hs
    rw [hop] at hs
    have := List.mem_of_getElem? hs
    simp only [Op.ports, List.mem_map] at this
    obtain ⟨_, _, rfl⟩ := this
    rfl
  subst hk
  rcases hor with hd | ⟨q, a, hq, hqa, ⟨h1, _⟩ | ⟨⟨t, h1, _⟩, _⟩⟩
  · exact ⟨p, hp, hd⟩
  · simp [Kind.isStatic] at h1
  · cases h1

theorem Reached.step (ht : IsTree h) (hv : Valid C h) {l : Link} (hl : l ∈ h.links)
    {x y : List Types.Ty} {z : List (List Types.Ty)} (hop : h.ops l.src = .dataflowBlock x y z)
    (hr : Reached h l.src) :
    Reached h l.dst ∧ ∀ A, SDom h A l.dst → A = l.src ∨ SDom h A l.src := by
  obtain ⟨g, sig, entry, rest, p1, p2, p3, p4⟩ := hr
  obtain ⟨g', q1, q2⟩ := block_link hv hl hop
  rw [p1] at q1; cases q1
  have he : RegionEdge h g l.src l.dst :=
    ⟨(ht.child_iff _ _).2 p1, (ht.child_iff _ _).2 q2, l, hl, rfl, rfl⟩
  refine ⟨⟨g, sig, entry, rest, q2, p2, p3, p4.tail he⟩, ?_⟩
  rintro A ⟨n1, g', sig', entry', rest', r1, r2, r3, r4, r5⟩
  rw [q2] at r2; cases r2
  rw [p3] at r4; cases r4
  by_cases hA : A = l.src
  · exact .inl hA
  · rcases dominates_step p4 he r5 with e | hd
    · exact absurd e.symm n1
    · exact .inr ⟨fun e => hA e.symm, g, sig, entry, rest, r1, p1, p2, p3, hd⟩

theorem Reached.entry (ht : IsTree h) {g entry : Nat} {sig : Types.Signature} {rest : List Nat}
    (hop : h.ops g = .cfg sig) (hc : h.children g = entry :: rest) :
    h.hier.parent entry = some g ∧ Reached h entry ∧ ∀ A, ¬ SDom h A entry := by
  have hp : h.hier.parent entry = some g :=
    (ht.child_iff g entry).1 (by change entry ∈ h.children g; rw [hc]; simp)
  refine ⟨hp, ⟨g, sig, entry, rest, hp, hop, hc, .refl⟩, ?_⟩
  rintro A ⟨n1, g', sig', entry', rest', r1, r2, r3, r4, r5⟩
  rw [hp] at r2; cases r2
  rw [hc] at r4; cases r4
  exact n1 (dominates_entry r5).symm

/-- Control-flow graphs, conditionals and modules have no values of their own. -/
theorem region_of_value (hv : Valid C h) {n A : Nat} (hp : h.hier.parent n = some A) {port : Nat}
    {t : Types.Ty} (hk : ((h.ops n).ports .outgoing)[port]? = some (.value t)) :
    (body (h.ops A)).isSome = true :=
  body_of_value hv hp (List.mem_of_getElem? hk) (.inl rfl)

end Verif.Patch
