import Verif.Patch.OutlineDown

/-!
# Outlining: where nodes are, and which blocks dominate
-/
namespace Verif.Patch

open Verif.Graph Verif.Ops Verif.Passes Verif.Validate Verif.Dataflow

variable {Meta W K : Type} {C : Validate.Context} {h g : Hugr Ops.Op Meta}

theorem reach_mono {r s : Nat → Nat → Prop} {x y : Nat} (hr : Relation.ReflTransGen r x y) (hm : ∀ a b, r a b → s a b) :
    Relation.ReflTransGen s x y := by
  induction hr with
  | refl => exact .refl
  | tail _ he ih => exact ih.tail (hm _ _ he)

/-- Edges to allowed nodes. -/
def Avoid (edge : Nat → Nat → Prop) (P : Nat → Prop) (x y : Nat) : Prop := edge x y ∧ P y

theorem Avoid.mono {edge : Nat → Nat → Prop} {P Q : Nat → Prop} (hp : ∀ x, P x → Q x) {x y : Nat}
    (hr : Relation.ReflTransGen (Avoid edge P) x y) : Relation.ReflTransGen (Avoid edge Q) x y :=
  reach_mono hr fun _ _ h => ⟨h.1, hp _ h.2⟩

theorem Avoid.reach {edge : Nat → Nat → Prop} {P : Nat → Prop} {x y : Nat}
    (hr : Relation.ReflTransGen (Avoid edge P) x y) : Relation.ReflTransGen edge x y := reach_mono hr fun _ _ h => h.1

theorem avoid_path {edge : Nat → Nat → Prop} {b x y : Nat} (hx : x ≠ b) (hr : Relation.ReflTransGen (Avoid edge (· ≠ b)) x y) :
    ∃ path : List Nat, path.head? = some x ∧ path.getLast? = some y ∧ path.IsChain edge ∧ b ∉ path := by
  induction hr with
  | refl => exact ⟨[x], rfl, rfl, .singleton _, by simpa using hx.symm⟩
  | @tail y w _ he ih =>
    obtain ⟨π, h1, h2, h3, h4⟩ := ih
    refine ⟨π ++ [w], by cases π with | nil => simp at h1 | cons => simpa using h1, by simp, ?_, by
      simp only [List.mem_append, List.mem_singleton, not_or]; exact ⟨h4, he.2.symm⟩⟩
    rw [List.isChain_append]
    refine ⟨h3, .singleton _, fun a ha c hc => ?_⟩
    rw [h2] at ha
    simp at ha hc
    subst ha hc
    exact he.1

theorem path_avoid {edge : Nat → Nat → Prop} {b : Nat} : ∀ {path : List Nat} {x y : Nat}, path.head? = some x → path.getLast? = some y →
    path.IsChain edge → b ∉ path → x ≠ b ∧ Relation.ReflTransGen (Avoid edge (· ≠ b)) x y
  | [], _, _, h1, _, _, _ => by simp at h1
  | [a], x, y, h1, h2, _, h4 => by
    simp at h1 h2
    subst h1 h2
    exact ⟨by simpa using Ne.symm (by simpa using h4), .refl⟩
  | a :: c :: π, x, y, h1, h2, h3, h4 => by
    simp at h1
    subst h1
    rw [List.isChain_cons_cons] at h3
    simp only [List.mem_cons, not_or] at h4
    obtain ⟨q1, q2⟩ := path_avoid (path := c :: π) rfl (by rw [← h2]; simp) h3.2 (by simp only [List.mem_cons, not_or]; exact h4.2)
    exact ⟨fun e => h4.1 e.symm, .head ⟨h3.1, q1⟩ q2⟩

theorem dominates_iff {edge : Nat → Nat → Prop} {e b a : Nat} : Dominates edge e b a ↔
    Relation.ReflTransGen edge e a ∧ ¬ (e ≠ b ∧ Relation.ReflTransGen (Avoid edge (· ≠ b)) e a) := by
  constructor
  · rintro ⟨h1, h2⟩
    refine ⟨h1, fun ⟨q1, q2⟩ => ?_⟩
    obtain ⟨π, p1, p2, p3, p4⟩ := avoid_path q1 q2
    exact p4 (h2 π p1 p2 p3)
  · rintro ⟨h1, h2⟩
    refine ⟨h1, fun π p1 p2 p3 => ?_⟩
    by_contra p4
    exact h2 (path_avoid p1 p2 p3 p4)

namespace OutlineAt

variable {G entry exit port outside : Nat} {bs : List Nat} {ins outs : List Types.Ty} {N : OutlineNew}
  (z : OutlineAt C h G bs entry exit port outside ins outs N g)
include z

/-! ## Where nodes are -/

theorem live_cases {x : Nat} (hx : g.live x = true) : h.live x = true ∨ x ∈ N.news := (z.done.live x).1 hx

theorem up_bs {b : Nat} (hb : b ∈ bs) : g.hier.parent b = some N.cfg := by
  refine (z.treeG.child_iff _ _).1 ?_
  change b ∈ g.children N.cfg
  rw [z.done.childrenCfg]
  by_cases e : b = entry
  · simp [e]
  · simp [e, hb]

theorem up_exit : g.hier.parent N.exit = some N.cfg := by
  refine (z.treeG.child_iff _ _).1 ?_
  change N.exit ∈ g.children N.cfg
  rw [z.done.childrenCfg]; simp

theorem up_kid {x : Nat} (hx : x ∈ [N.inp, N.out, N.cfg, N.const, N.load]) : g.hier.parent x = some N.block := by
  refine (z.treeG.child_iff _ _).1 ?_
  change x ∈ g.children N.block
  rw [z.done.childrenBlock]; exact hx

theorem up_cfg : g.hier.parent N.cfg = some N.block := z.up_kid (by simp)

theorem kids_G_mem {x : Nat} : x ∈ g.children G ↔ x = N.block ∨ (x ∈ h.children G ∧ x ∉ bs) := by
  rw [z.done.childrenG]
  split <;> simp [or_comm]

theorem up_block : g.hier.parent N.block = some G := (z.treeG.child_iff _ _).1 (z.kids_G_mem.2 (.inl rfl))

theorem new_mem_iff {x : Nat} : x ∈ N.news ↔ x = N.block ∨ x = N.exit ∨ x ∈ [N.inp, N.out, N.cfg, N.const, N.load] := by
  simp only [OutlineNew.news, List.mem_cons, List.not_mem_nil, or_false]
  tauto

theorem dead_new {x : Nat} (hx : x ∈ N.news) : h.live x = false := by
  have := z.fresh.2 x hx
  simpa using this

theorem up_old {x : Nat} (hl : h.live x = true) (hx : x ∉ bs) : g.hier.parent x = h.hier.parent x := by
  have hn := z.not_new hl
  have key : ∀ p, g.hier.parent x = some p ↔ h.hier.parent x = some p := by
    intro p
    rw [← z.treeG.child_iff, ← z.tree.child_iff]
    change x ∈ g.children p ↔ x ∈ h.children p
    by_cases h1 : p = N.cfg
    · subst h1
      have : h.children N.cfg = [] := (z.tree.dead (z.dead_new (by simp [OutlineNew.news]))).2
      rw [this, z.done.childrenCfg]
      simp only [List.mem_cons, List.mem_filter, List.not_mem_nil, iff_false, not_or]
      exact ⟨fun e => hx (e ▸ z.at'.entry_mem), fun e => hn (by simp [OutlineNew.news, e]), fun e => hx e.1⟩
    · by_cases h2 : p = N.block
      · subst h2
        have : h.children N.block = [] := (z.tree.dead (z.dead_new (by simp [OutlineNew.news]))).2
        rw [this, z.done.childrenBlock]
        simp only [List.not_mem_nil, iff_false]
        exact fun e => hn (z.new_mem_iff.2 (.inr (.inr e)))
      · by_cases h3 : p = G
        · subst h3
          rw [z.kids_G_mem]
          have : x ≠ N.block := fun e => hn (by simp [OutlineNew.news, e])
          simp [this, hx]
        · rw [z.done.children p h1 h2 h3]
  cases hg : g.hier.parent x with
  | some p => exact ((key p).1 hg).symm
  | none =>
    cases hh : h.hier.parent x with
    | none => rfl
    | some p => rw [(key p).2 hh] at hg; cases hg

theorem bs_up_G {b : Nat} (hb : b ∈ bs) : Above g.hier.parent b G :=
  .step (z.up_bs hb) (.step z.up_cfg (.step z.up_block (.refl _)))

theorem above_up {x a : Nat} (ha : Above h.hier.parent x a) : Above g.hier.parent x a := by
  induction ha with
  | refl => exact .refl _
  | @step x p a hp ha ih =>
    by_cases hx : x ∈ bs
    · rw [z.at'.siblings _ hx] at hp; cases hp
      exact (z.bs_up_G hx).trans ih
    · exact .step (by rw [z.up_old (z.tree.parent_live _ _ hp).1 hx]; exact hp) ih

/-! ## Links between blocks -/

theorem G_new : G ∉ N.news := z.not_new z.live_G

theorem child_live {x : Nat} (hx : x ∈ h.children G) : h.live x = true := (z.tree.parent_live _ _ ((z.tree.child_iff _ _).1 hx)).1

theorem bs_child {b : Nat} (hb : b ∈ bs) : b ∈ h.children G := (z.tree.child_iff _ _).2 (z.at'.siblings _ hb)

theorem edge_outer {x y : Nat} (hr : RegionEdge g G x y) : (x = N.block ∧ y = outside) ∨
    (x ∈ h.children G ∧ x ∉ bs ∧ ((y = N.block ∧ RegionEdge h G x entry) ∨ (y ∉ bs ∧ y ≠ N.block ∧ RegionEdge h G x y))) := by
  obtain ⟨h1, h2, l, hl, rfl, rfl⟩ := hr
  rcases z.kids_G_mem.1 h1 with e | ⟨c1, c2⟩
  · left
    have := z.from_new hl e
    rw [this]; exact ⟨rfl, rfl⟩
  · refine .inr ⟨c1, c2, ?_⟩
    rcases z.old_link hl (z.not_new (z.child_live c1)) with ⟨k, q1, q2, q3, q4, q5, q6⟩ | ⟨q1, q2, q3⟩ | ⟨q1, q2, q3⟩
    · exact .inl ⟨q6, c1, z.bs_child z.at'.entry_mem, k, q1, q2, q4⟩
    · exact absurd (q1 ▸ z.at'.exit_mem) c2
    · have hb : l.dst ≠ N.block := fun e => z.not_new (z.live_link q1).2 (by simp [OutlineNew.news, e])
      obtain ⟨d1, d2⟩ := (z.kids_G_mem.1 h2).resolve_left hb
      exact .inr ⟨d2, hb, c1, d1, l, q1, rfl, rfl⟩

theorem edge_kept {x y : Nat} (hr : RegionEdge h G x y) (hx : x ∉ bs) (hy : y ∉ bs) : RegionEdge g G x y := by
  obtain ⟨h1, h2, l, hl, rfl, rfl⟩ := hr
  exact ⟨z.kids_G_mem.2 (.inr ⟨h1, hx⟩), z.kids_G_mem.2 (.inr ⟨h2, hy⟩), l,
    z.link_stay hl (fun e => hy (e.1 ▸ z.at'.entry_mem)) (fun e => hx (e.1 ▸ z.at'.exit_mem)), rfl, rfl⟩

theorem edge_enter {x y : Nat} (hr : RegionEdge h G x y) (hx : x ∉ bs) (hy : y ∈ bs) : y = entry ∧ RegionEdge g G x N.block := by
  obtain ⟨h1, h2, l, hl, rfl, rfl⟩ := hr
  have e : l.dst = entry := (z.at'.enters _ hy).1 (.inr ⟨l, hl, rfl, hx⟩)
  exact ⟨e, z.kids_G_mem.2 (.inr ⟨h1, hx⟩), z.kids_G_mem.2 (.inl rfl), _, z.link_in hl e hx, rfl, rfl⟩

theorem edge_next : RegionEdge g G N.block outside :=
  ⟨z.kids_G_mem.2 (.inl rfl), z.kids_G_mem.2 (.inr ⟨(z.tree.child_iff _ _).2 z.outside_parent, z.at'.outside_not⟩), _, z.wire_next, rfl, rfl⟩

theorem edge_left : RegionEdge h G exit outside :=
  ⟨z.bs_child z.at'.exit_mem, (z.tree.child_iff _ _).2 z.outside_parent, _, z.at'.left, rfl, rfl⟩

theorem edge_leave {x y : Nat} (hr : RegionEdge h G x y) (hx : x ∈ bs) (hy : y ∉ bs) : x = exit ∧ y = outside := by
  obtain ⟨h1, h2, l, hl, rfl, rfl⟩ := hr
  have := z.left_eq hl hx hy
  rw [this]; exact ⟨rfl, rfl⟩

theorem cfg_child {x : Nat} : x ∈ g.children N.cfg ↔ x = N.exit ∨ x ∈ bs := by
  rw [z.done.childrenCfg]
  simp only [List.mem_cons, List.mem_filter]
  constructor
  · rintro (e | e | e)
    · exact .inr (e ▸ z.at'.entry_mem)
    · exact .inl e
    · exact .inr e.1
  · rintro (e | e)
    · exact .inr (.inl e)
    · by_cases h1 : x = entry
      · exact .inl h1
      · exact .inr (.inr ⟨e, by simpa using h1⟩)

theorem edge_inside {x y : Nat} (hr : RegionEdge h G x y) (hx : x ∈ bs) (hy : y ∈ bs) : RegionEdge g N.cfg x y := by
  obtain ⟨h1, h2, l, hl, rfl, rfl⟩ := hr
  exact ⟨z.cfg_child.2 (.inr hx), z.cfg_child.2 (.inr hy), l,
    z.link_stay hl (fun e => e.2 hx) (fun e => ((z.at'.leaves l hl hx).2 e) hy), rfl, rfl⟩

theorem exit_no_out {l : Link} (hl : l ∈ g.links) : l.src ≠ N.exit := by
  intro e
  have hd1 := z.fresh.1
  simp only [OutlineNew.news, List.nodup_cons, List.mem_cons, List.not_mem_nil, or_false, not_or, List.nodup_nil,
    not_false_eq_true, and_true] at hd1
  rcases z.mem_links.1 hl with ⟨k, hk, rfl⟩ | hw | rfl
  · have : (N.redirect bs entry exit port k).src = k.src := by
      rcases z.redirect_cases hk with ⟨_, _, e⟩ | ⟨e', e⟩ | ⟨_, _, e⟩
      · rw [e]
      · rw [e, e']
      · rw [e]
    rw [this] at e
    exact z.not_new (z.live_link hk).1 (by simp [OutlineNew.news, e])
  · simp only [OutlineNew.wires, straight, List.mem_append, List.mem_map, List.mem_range, List.mem_cons, List.not_mem_nil, or_false] at hw
    aesop
  · simp only at e
    exact hd1.1.2.2.2.1 e

theorem edge_inner {x y : Nat} (hr : RegionEdge g N.cfg x y) (hy : y ∈ bs) : x ∈ bs ∧ RegionEdge h G x y := by
  obtain ⟨h1, h2, l, hl, rfl, rfl⟩ := hr
  have hx := (z.cfg_child.1 h1).resolve_left (z.exit_no_out hl)
  refine ⟨hx, z.bs_child hx, z.bs_child hy, l, ?_, rfl, rfl⟩
  rcases z.old_link hl (z.not_new (z.live_bs hx)) with ⟨k, q1, q2, q3, q4, q5, q6⟩ | ⟨q1, q2, q3⟩ | ⟨q1, q2, q3⟩
  · exact absurd hx q5
  · exact absurd (q3 ▸ hy) fun hm => z.not_new (z.live_bs hm) (by simp [OutlineNew.news])
  · exact q1

/-! ## Domination -/

/-- The first block of `G` now. -/
theorem first_eq {f : Nat} {r : List Nat} (hf : h.children G = f :: r) :
    (f = entry ∧ ∃ r', g.children G = N.block :: r') ∨ (f ∉ bs ∧ ∃ r', g.children G = f :: r') := by
  have hk := z.done.childrenG
  by_cases hm : f ∈ bs
  · have : f = entry := (z.at'.enters f hm).1 (.inl (by rw [hf]; rfl))
    subst this
    rw [if_pos (by rw [hf]; rfl)] at hk
    exact .inl ⟨rfl, _, hk⟩
  · rw [if_neg (by
      rw [hf]; intro e; cases e
      exact hm z.at'.entry_mem), hf, List.filter_cons_of_pos (by simpa using hm), List.cons_append] at hk
    exact .inr ⟨hm, _, hk⟩

/-- In `g`, the blocks are one. -/
def Merged (_ : OutlineAt C h G bs entry exit port outside ins outs N g) (x x' : Nat) : Prop := (x ∈ bs ∧ x' = N.block) ∨ (x ∉ bs ∧ x' = x)

theorem reach_merged {P P' : Nat → Prop} (hP : ∀ x, x ∉ bs → P x → P' x) (hB : P' N.block) {x y x' y' : Nat}
    (hr : Relation.ReflTransGen (Avoid (RegionEdge h G) P) x y) (hx : z.Merged x x') (hy : z.Merged y y') :
    Relation.ReflTransGen (Avoid (RegionEdge g G) P') x' y' := by
  induction hr generalizing y' with
  | refl =>
    rcases hx with ⟨h1, rfl⟩ | ⟨h1, rfl⟩ <;> rcases hy with ⟨h2, rfl⟩ | ⟨h2, rfl⟩
    · exact .refl
    · exact absurd h1 h2
    · exact absurd h2 h1
    · exact .refl
  | @tail w y _ he ih =>
    by_cases hw : w ∈ bs
    · have ih2 := ih (y' := N.block) (.inl ⟨hw, rfl⟩)
      rcases hy with ⟨h2, rfl⟩ | ⟨h2, rfl⟩
      · exact ih2
      · obtain ⟨rfl, rfl⟩ := z.edge_leave he.1 hw h2
        exact ih2.tail ⟨z.edge_next, hP _ h2 he.2⟩
    · have ih : Relation.ReflTransGen _ x' w := ih (.inr ⟨hw, rfl⟩)
      rcases hy with ⟨h2, rfl⟩ | ⟨h2, rfl⟩
      · exact ih.tail ⟨(z.edge_enter he.1 hw h2).2, hB⟩
      · exact ih.tail ⟨z.edge_kept he.1 hw h2, hP _ h2 he.2⟩

/-- A moved block that control gets to, it gets to from the entry, inside. -/
theorem reach_inside {f : Nat} {r : List Nat} (hf : h.children G = f :: r) {c : Nat}
    (hr : Relation.ReflTransGen (RegionEdge h G) f c) (hc : c ∈ bs) :
    Relation.ReflTransGen (fun x y => x ∈ bs ∧ y ∈ bs ∧ RegionEdge h G x y) entry c := by
  induction hr with
  | refl =>
    rcases z.first_eq hf with ⟨e, _⟩ | ⟨e, _⟩
    · rw [e]
    · exact absurd hc e
  | @tail x y hx he ih =>
    by_cases hm : x ∈ bs
    · exact (ih hm).tail ⟨hm, hc, he⟩
    · rw [(z.edge_enter he hm hc).1]

/-- The way to the entry passes no other moved block. -/
theorem reach_entry {f : Nat} {r : List Nat} (hf : h.children G = f :: r) {c : Nat}
    (hr : Relation.ReflTransGen (RegionEdge h G) f c) :
    (c ∉ bs ∧ Relation.ReflTransGen (Avoid (RegionEdge h G) fun n => n ∉ bs ∨ n = entry) f c) ∨
    Relation.ReflTransGen (Avoid (RegionEdge h G) fun n => n ∉ bs ∨ n = entry) f entry := by
  induction hr with
  | refl =>
    rcases z.first_eq hf with ⟨e, _⟩ | ⟨e, _⟩
    · rw [e]; exact .inr .refl
    · exact .inl ⟨e, .refl⟩
  | @tail x y hx he ih =>
    rcases ih with ⟨h1, h2⟩ | h2
    · by_cases hy : y ∈ bs
      · obtain rfl := (z.edge_enter he h1 hy).1
        exact .inr (h2.tail ⟨he, .inr rfl⟩)
      · exact .inl ⟨hy, h2.tail ⟨he, .inl hy⟩⟩
    · exact .inr h2

/-- Ways in `g` are ways in `h`, through the blocks. -/
theorem reach_split {P : Nat → Prop} (hx : CanReach h G entry → CanReach h G exit) (hP : ∀ b ∈ bs, P b)
    {f f' : Nat} {r r' : List Nat} (hf : h.children G = f :: r) (hf' : g.children G = f' :: r') {y : Nat}
    (hr : Relation.ReflTransGen (Avoid (RegionEdge g G) fun n => n = N.block ∨ P n) f' y) :
    (y = N.block ∧ Relation.ReflTransGen (Avoid (RegionEdge h G) P) f entry) ∨
    (y ≠ N.block ∧ y ∉ bs ∧ Relation.ReflTransGen (Avoid (RegionEdge h G) P) f y) := by
  have out : outside ≠ N.block := fun e => z.not_new (z.live_link z.at'.left).2 (by simp [OutlineNew.news, e])
  induction hr with
  | refl =>
    rcases z.first_eq hf with ⟨e, r2, e2⟩ | ⟨e, r2, e2⟩
    · rw [hf'] at e2; cases e2
      rw [e]; exact .inl ⟨rfl, .refl⟩
    · rw [hf'] at e2; cases e2
      refine .inr ⟨fun e' => ?_, e, .refl⟩
      exact z.not_new (z.child_live (x := f) (by rw [hf]; simp)) (by simp [OutlineNew.news, e'])
  | @tail x y _ he ih =>
    rcases z.edge_outer he.1 with ⟨rfl, rfl⟩ | ⟨c1, c2, c3⟩
    · have ih := (ih.resolve_right fun h => h.1 rfl).2
      refine .inr ⟨out, z.at'.outside_not, ?_⟩
      have he' : CanReach h G entry := fun f2 r2 e => by rw [hf] at e; cases e; exact Avoid.reach ih
      have hin := z.reach_inside hf (hx he' f r hf) z.at'.exit_mem
      have : Relation.ReflTransGen (Avoid (RegionEdge h G) P) entry exit := reach_mono hin fun a b hab => ⟨hab.2.2, hP _ hab.2.1⟩
      exact (ih.trans this).tail ⟨z.edge_left, he.2.resolve_left out⟩
    · have hne : x ≠ N.block := fun e => z.not_new (z.child_live c1) (by simp [OutlineNew.news, e])
      have ih := (ih.resolve_left fun h => hne h.1).2.2
      rcases c3 with ⟨rfl, c3⟩ | ⟨c3, c4, c5⟩
      · exact .inl ⟨rfl, ih.tail ⟨c3, hP _ z.at'.entry_mem⟩⟩
      · exact .inr ⟨c4, c3, ih.tail ⟨c5, he.2.resolve_left c4⟩⟩

theorem reach_all {edge : Nat → Nat → Prop} {x y : Nat} (hr : Relation.ReflTransGen edge x y) :
    Relation.ReflTransGen (Avoid edge fun _ => True) x y := by
  have _ := z
  exact reach_mono hr fun _ _ h => ⟨h, trivial⟩

/-- Domination outside of the moved blocks. -/
theorem dom_outer (hx : CanReach h G entry → CanReach h G exit) {f f' : Nat} {r r' : List Nat} (hf : h.children G = f :: r)
    (hf' : g.children G = f' :: r') {p a a' : Nat} (hp : p ∉ bs) (hpn : p ∉ N.news) (ha : z.Merged a a')
    (hd : Dominates (RegionEdge h G) f p a) : Dominates (RegionEdge g G) f' p a' := by
  rw [dominates_iff] at hd ⊢
  have hff : z.Merged f f' := by
    rcases z.first_eq hf with ⟨e, r2, e2⟩ | ⟨e, r2, e2⟩
    · rw [hf'] at e2; cases e2; exact .inl ⟨e ▸ z.at'.entry_mem, rfl⟩
    · rw [hf'] at e2; cases e2; exact .inr ⟨e, rfl⟩
  have hpB : p ≠ N.block := fun e => hpn (by simp [OutlineNew.news, e])
  have hPb : ∀ b ∈ bs, b ≠ p := fun b hb e => hp (e ▸ hb)
  refine ⟨Avoid.reach (z.reach_merged (P' := fun _ => True) (fun _ _ _ => trivial) trivial (z.reach_all hd.1) hff ha), fun ⟨h1, h2⟩ => hd.2 ⟨?_, ?_⟩⟩
  · rcases hff with ⟨q, _⟩ | ⟨_, q⟩
    · exact hPb _ q
    · rw [← q]; exact h1
  · have := z.reach_split hx hPb hf hf' (reach_mono h2 fun _ _ h => ⟨h.1, .inr h.2⟩)
    rcases ha with ⟨q1, rfl⟩ | ⟨q1, rfl⟩
    · have h3 := (this.resolve_right fun h => h.1 rfl).2
      have hin := z.reach_inside hf hd.1 q1
      exact h3.trans (reach_mono hin fun a b hab => ⟨hab.2.2, hPb _ hab.2.1⟩)
    · rcases this with ⟨e, h3⟩ | ⟨_, _, h3⟩
      · have := z.child_live (x := a') (by
          rcases hd.1.cases_tail with e | ⟨w, _, hw⟩
          · rw [e, hf]; simp
          · exact hw.2.1)
        exact absurd (by simp [OutlineNew.news, e]) (z.not_new this)
      · exact h3

/-- Domination between moved blocks. -/
theorem dom_inner {f : Nat} {r : List Nat} (hf : h.children G = f :: r) {p a : Nat} (hp : p ∈ bs) (ha : a ∈ bs)
    (hd : Dominates (RegionEdge h G) f p a) : Dominates (RegionEdge g N.cfg) entry p a := by
  rw [dominates_iff] at hd ⊢
  refine ⟨reach_mono (z.reach_inside hf hd.1 ha) fun _ _ h => z.edge_inside h.2.2 h.1 h.2.1, fun ⟨h1, h2⟩ => hd.2 ⟨?_, ?_⟩⟩
  · rintro rfl
    rcases z.first_eq hf with ⟨e, _⟩ | ⟨e, _⟩
    · exact h1 e.symm
    · exact e hp
  · have h3 := (z.reach_entry hf hd.1).resolve_left fun h => h.1 ha
    refine (Avoid.mono (Q := (· ≠ p)) (fun n hn e => ?_) h3).trans ?_
    · rcases hn with hn | hn
      · exact hn (e ▸ hp)
      · exact h1 (hn.symm.trans e)
    · have key : ∀ {y}, Relation.ReflTransGen (Avoid (RegionEdge g N.cfg) (· ≠ p)) entry y → y ∈ bs →
          Relation.ReflTransGen (Avoid (RegionEdge h G) (· ≠ p)) entry y := by
        intro y hy
        induction hy with
        | refl => intro _; exact .refl
        | @tail x y _ he ih =>
          intro hm
          obtain ⟨k1, k2⟩ := z.edge_inner he.1 hm
          exact (ih k1).tail ⟨k2, he.2⟩
      exact key h2 ha

end OutlineAt

end Verif.Patch
