import Verif.Patch.PeelAt
import Verif.Patch.InlineCallValid

/-!
# Peeling a loop keeps a Hugr valid
-/
namespace Verif.Patch

open Verif.Graph Verif.Ops Verif.Validate Verif.Passes Verif.Dataflow

variable {Meta : Type} {C : Validate.Context} {h g : Hugr Ops.Op Meta}

theorem childrenOk_loop {p : Nat} (h1 : g.ops p = h.ops p) (h2 : g.children p = h.children p)
    (h3 : ∀ c ∈ h.children p, g.ops c = h.ops c ∨ (∃ a b x, h.ops c = .tailLoop a b x) ∧ ∃ s, g.ops c = .dfg s)
    (hc : ChildrenOk h p) : ChildrenOk g p := by
  have io : ∀ {ti tj : List Types.Ty}, (∃ inp out rest, h.children p = inp :: out :: rest ∧
        h.ops inp = .input ti ∧ h.ops out = .output tj ∧ ∀ c ∈ rest, ¬ IsIO (h.ops c)) →
      ∃ inp out rest, g.children p = inp :: out :: rest ∧
        g.ops inp = .input ti ∧ g.ops out = .output tj ∧ ∀ c ∈ rest, ¬ IsIO (g.ops c) := by
    rintro ti tj ⟨inp, out, rest, e, a1, a2, a3⟩
    rw [e] at h2 h3
    refine ⟨inp, out, rest, h2, ?_, ?_, ?_⟩
    · rcases h3 inp (by simp) with e | ⟨⟨_, _, _, e⟩, _⟩
      · rw [e, a1]
      · rw [a1] at e; cases e
    · rcases h3 out (by simp) with e | ⟨⟨_, _, _, e⟩, _⟩
      · rw [e, a2]
      · rw [a2] at e; cases e
    · intro c hc
      rcases h3 c (by simp [hc]) with e | ⟨_, _, e⟩
      · rw [e]; exact a3 c hc
      · rw [e]; rintro (⟨_, e⟩ | ⟨_, e⟩) <;> cases e
  unfold ChildrenOk at hc ⊢
  rw [h1]
  cases hop : h.ops p <;> rw [hop] at hc <;> simp only [body] at hc ⊢
  case conditional rows other outs =>
    refine ⟨hc.1, ?_⟩
    rw [← hc.2, h2]
    refine List.map_congr_left fun c hm => ?_
    rcases h3 c hm with e | ⟨⟨_, _, _, e⟩, _⟩
    · exact e
    · have : h.ops c ∈ (h.children p).map h.ops := List.mem_map.2 ⟨c, hm, rfl⟩
      rw [hc.2] at this
      obtain ⟨_, _, e'⟩ := List.mem_map.1 this
      rw [e] at e'; cases e'
  case cfg =>
    obtain ⟨entry, exit, rest, x, r, e, a1, a2, a3⟩ := hc
    rw [e] at h2 h3
    refine ⟨entry, exit, rest, x, r, h2, ?_, ?_, ?_⟩
    · rcases h3 entry (by simp) with e | ⟨⟨_, _, _, e⟩, _⟩
      · rw [e, a1]
      · rw [a1] at e; cases e
    · rcases h3 exit (by simp) with e | ⟨⟨_, _, _, e⟩, _⟩
      · rw [e, a2]
      · rw [a2] at e; cases e
    · intro c hc
      rcases h3 c (by simp [hc]) with e | ⟨_, _, e⟩
      · rw [e]; exact a3 c hc
      · rw [e]; intro _ e; cases e
  all_goals first
    | exact io hc
    | (rw [h2, hc])
    | exact hc

/-- What counts up along the edges has no cycle. -/
theorem no_cycle {E : Nat → Nat → Prop} (rank : Nat → Nat) (hr : ∀ x y, E x y → rank x < rank y) (x : Nat) :
    ¬ Relation.TransGen E x x := by
  have key : ∀ y, Relation.TransGen E x y → rank x < rank y := by
    intro y hy
    induction hy with
    | single he => exact hr _ _ he
    | tail _ he ih => exact Nat.lt_trans ih (hr _ _ he)
  exact fun hc => Nat.lt_irrefl _ (key x hc)

/-- The variables at a node that is not in a function directly are those at its parent. -/
theorem decls_up (ht : IsTree h) {x p : Nat} {d : List Types.Term} (hd : DeclsAt h x d) (hp : h.hier.parent x = some p)
    (hn : ∀ name sig, h.ops p ≠ .funcDefn name sig) : DeclsAt h p d := by
  cases hd with
  | root => rw [ht.root_top] at hp; cases hp
  | inside hp' hop => rw [hp] at hp'; cases hp'; exact absurd hop (hn _ _)
  | inherited hp' _ hd => rw [hp] at hp'; cases hp'; exact hd

theorem countP_straight (φ : Link → Bool) (s t k : Nat) :
    (straight s t k).countP φ = (List.range k).countP fun p => φ ⟨s, p, t, p⟩ := by
  unfold straight
  rw [List.countP_map]; rfl

theorem countP_range (k p : Nat) : (List.range k).countP (fun q => decide (q = p)) = if p < k then 1 else 0 := by
  induction k with
  | zero => rfl
  | succ k ih =>
    rw [List.range_succ, List.countP_append, ih]
    simp only [List.countP_cons, List.countP_nil]
    by_cases h1 : p < k
    · have h2 : k ≠ p := by omega
      rw [if_pos h1, if_pos (by omega : p < k + 1)]; simp [h2]
    · by_cases h2 : k = p
      · rw [if_neg h1, if_pos (by omega : p < k + 1)]; simp [h2]
      · rw [if_neg h1, if_neg (by omega : ¬ p < k + 1)]; simp [h2]

theorem straight_to (s t k p : Nat) :
    (straight s t k).countP (fun l => l.dst = t && l.dstPort = p) = if p < k then 1 else 0 := by
  rw [countP_straight, ← countP_range]
  simp

theorem straight_from (s t k p : Nat) :
    (straight s t k).countP (fun l => l.src = s && l.srcPort = p) = if p < k then 1 else 0 := by
  rw [countP_straight, ← countP_range]
  simp

theorem straight_to_ne {s t k x p : Nat} (hx : t ≠ x) :
    (straight s t k).countP (fun l => l.dst = x && l.dstPort = p) = 0 := by
  rw [countP_straight, List.countP_eq_zero]
  intro q _
  simp [hx]

theorem straight_from_ne {s t k x p : Nat} (hx : s ≠ x) :
    (straight s t k).countP (fun l => l.src = x && l.srcPort = p) = 0 := by
  rw [countP_straight, List.countP_eq_zero]
  intro q _
  simp [hx]

namespace PeelAt

variable {P : PeelNodes} {r : Nat} {ji jo rest : List Types.Ty} {nodes : List Nat} {μ : Nat → Nat}
  (z : PeelAt C h g P r ji jo rest nodes μ)
include z

theorem cases3 {x : Nat} (hx : g.live x = true) : h.live x = true ∨ x ∈ P.news ∨ ∃ a ∈ nodes, x = μ a :=
  (z.peeled.live x).1 hx

theorem kids_n {c : Nat} (hc : c ∈ h.children P.n) : c ∈ g.children P.n := by
  obtain ⟨cs, e1, e2⟩ := z.peeled.kidsN
  rw [e1] at hc; rw [e2]
  simp only [List.mem_cons] at hc ⊢
  tauto

theorem kids_n' {c : Nat} (hc : c ∈ g.children P.n) : c ∈ h.children P.n ∨ c = P.out := by
  obtain ⟨cs, e1, e2⟩ := z.peeled.kidsN
  rw [e2] at hc; rw [e1]
  simp only [List.mem_cons] at hc ⊢
  tauto

/-- The node above a node that was there. -/
theorem parent_some {x q : Nat} (hq : h.hier.parent x = some q) : g.hier.parent x = some q := by
  have hc : x ∈ h.children q := (z.tree.child_iff _ _).2 hq
  have hql := (z.tree.parent_live _ _ hq).2
  refine (z.treeG.child_iff _ _).1 ?_
  change x ∈ g.children q
  by_cases hn : q = P.n
  · subst hn; exact z.kids_n hc
  · by_cases ho : q = P.o
    · subst ho; rw [z.kids_o] at hc; cases hc
    · rw [z.kids_old (z.old hql) (z.not_new hql) hn ho]; exact hc

theorem parent_old {x : Nat} (hx : h.live x = true) : g.hier.parent x = h.hier.parent x := by
  by_cases e : x = h.moduleRoot
  · subst e
    rw [z.tree.root_top, ← z.peeled.moduleRoot]; exact z.treeG.root_top
  · obtain ⟨q, hq⟩ := z.tree.has_parent x hx e
    rw [hq]; exact z.parent_some hq

theorem parent_new {a q : Nat} (ha : a ∈ nodes) (hq : h.hier.parent a = some q) :
    g.hier.parent (μ a) = some (if q = P.n then P.copy else μ q) := by
  have hc : a ∈ h.children q := (z.tree.child_iff _ _).2 hq
  refine (z.treeG.child_iff _ _).1 ?_
  by_cases e : q = P.n
  · rw [if_pos e]
    change μ a ∈ g.children P.copy
    rw [z.peeled.kidsCopy]
    exact List.mem_map.2 ⟨a, e ▸ hc, rfl⟩
  · rw [if_neg e]
    change μ a ∈ g.children (μ q)
    rw [z.kids_new (z.mem_parent ha hq e)]
    exact List.mem_map.2 ⟨a, hc, rfl⟩

theorem parent_copy {a q : Nat} (ha : a ∈ nodes) (hq : h.hier.parent a = some q) :
    (q = P.n ∧ g.hier.parent (μ a) = some P.copy) ∨ (q ∈ nodes ∧ g.hier.parent (μ a) = some (μ q)) := by
  have h1 := z.parent_new ha hq
  by_cases e : q = P.n
  · rw [if_pos e] at h1; exact .inl ⟨e, h1⟩
  · rw [if_neg e] at h1; exact .inr ⟨z.mem_parent ha hq e, h1⟩

theorem up {c q : Nat} (hc : c ∈ g.children q) : g.hier.parent c = some q := (z.treeG.child_iff _ _).1 hc

theorem up_out : g.hier.parent P.out = some P.n := by
  obtain ⟨cs, _, e2⟩ := z.peeled.kidsN
  exact z.up (by rw [e2]; simp)
theorem up_o : g.hier.parent P.o = some P.n := by
  obtain ⟨cs, _, e2⟩ := z.peeled.kidsN
  exact z.up (by rw [e2]; simp)
theorem up_again : g.hier.parent P.again = some P.o := z.up (by rw [z.peeled.kidsO]; simp)
theorem up_stop : g.hier.parent P.stop = some P.o := z.up (by rw [z.peeled.kidsO]; simp)
theorem up_againIn : g.hier.parent P.againIn = some P.again := z.up (by rw [z.peeled.kidsAgain]; simp)
theorem up_againOut : g.hier.parent P.againOut = some P.again := z.up (by rw [z.peeled.kidsAgain]; simp)
theorem up_copy : g.hier.parent P.copy = some P.again := z.up (by rw [z.peeled.kidsAgain]; simp)
theorem up_stopIn : g.hier.parent P.stopIn = some P.stop := z.up (by rw [z.peeled.kidsStop]; simp)
theorem up_stopOut : g.hier.parent P.stopOut = some P.stop := z.up (by rw [z.peeled.kidsStop]; simp)

/-- What holds of each new node. -/
theorem news_cases {φ : Nat → Prop} (h1 : φ P.out) (h2 : φ P.again) (h3 : φ P.againIn) (h4 : φ P.againOut) (h5 : φ P.copy)
    (h6 : φ P.stop) (h7 : φ P.stopIn) (h8 : φ P.stopOut) {x : Nat} (hx : x ∈ P.news) : φ x := by
  simp only [PeelNew.news, List.mem_cons, List.not_mem_nil, or_false] at hx
  rcases hx with rfl | rfl | rfl | rfl | rfl | rfl | rfl | rfl <;> assumption

theorem live_new {x : Nat} (hx : x ∈ P.news) : g.live x = true := (z.peeled.live x).2 (.inr (.inl hx))

theorem new_ne {x y : Nat} (hx : h.live x = true) (hy : y ∈ P.news) : x ≠ y := fun e => z.not_new hx (e ▸ hy)

theorem above_old {x q : Nat} (ha : Above h.hier.parent x q) : Above g.hier.parent x q :=
  ha.mono fun _ _ hq => z.parent_some hq

theorem above_copy : Above g.hier.parent P.copy P.n := .step z.up_copy (.step z.up_again (.step z.up_o (.refl _)))

/-- A copy is in the copy of the loop. -/
theorem above_μ {a q : Nat} (ha : a ∈ nodes) (hq : h.hier.parent a = some q) :
    ∃ q', g.hier.parent (μ a) = some q' ∧ Above g.hier.parent q' P.n := by
  have key : ∀ {q m}, Above h.hier.parent q m → m = P.n → ∀ a ∈ nodes, h.hier.parent a = some q →
      ∃ q', g.hier.parent (μ a) = some q' ∧ Above g.hier.parent q' P.n := by
    intro q m hqm
    induction hqm with
    | refl => rintro rfl a ha hq; exact ⟨P.copy, by rw [z.parent_new ha hq, if_pos rfl], z.above_copy⟩
    | @step q w m hw h1 ih =>
      rintro rfl a ha hq
      have hqm : q ∈ nodes := (z.mem q).2 ⟨w, hw, h1⟩
      obtain ⟨q', h2, h3⟩ := ih rfl q hqm hw
      exact ⟨μ q, by rw [z.parent_new ha hq, if_neg (fun e : q = P.n => z.n_out (e ▸ hqm))], .step h2 h3⟩
  obtain ⟨q', hq', hqn⟩ := (z.mem a).1 ha
  rw [hq] at hq'; cases hq'
  exact key hqn rfl a ha hq

theorem above_new {x q : Nat} (ha : Above h.hier.parent x q) (hq : q ∈ nodes) :
    Above g.hier.parent (μ x) (μ q) ∧ x ∈ nodes := by
  induction ha with
  | refl => exact ⟨.refl _, hq⟩
  | @step x p q hp _ ih =>
    obtain ⟨h1, h2⟩ := ih hq
    have hx : x ∈ nodes := z.child_mem h2 ((z.tree.child_iff _ _).2 hp)
    rcases z.parent_copy hx hp with ⟨rfl, _⟩ | ⟨_, h3⟩
    · exact absurd h2 z.n_out
    · exact ⟨.step h3 h1, hx⟩

/-! ## Links and regions -/

/-- Links to nodes that were there. -/
theorem link_live {l : Link} (hl : l ∈ g.links) (hd : h.live l.dst = true) : l ∈ h.links := by
  rcases z.link_T hl (z.not_new hd) with h1 | ⟨_, d, _, hm, _, e⟩
  · exact h1
  · exact absurd e (z.old hd d hm)

/-- Links to copies. -/
theorem link_copy {l : Link} {d : Nat} (hl : l ∈ g.links) (hd : d ∈ nodes) (e : l.dst = μ d) :
    ∃ s, ⟨s, l.srcPort, d, l.dstPort⟩ ∈ h.links ∧ l.src = μ s := by
  have hn : l.dst ∉ P.news := e ▸ z.μ_new d (z.live_mem hd)
  rcases z.link_T hl hn with h1 | ⟨s, d', h1, hm, e1, e2⟩
  · exact absurd e (z.old (z.live_link h1).2 d hd)
  · have : d' = d := z.peeled.inj d' hm d hd (e2.symm.trans e)
    subst this
    exact ⟨s, h1, e1⟩

theorem region_old {q : Nat} (hq : h.live q = true) (hn : q ≠ P.n) (ho : q ≠ P.o) {x y : Nat} :
    RegionEdge g q x y ↔ RegionEdge h q x y := by
  unfold RegionEdge
  rw [z.kids_old (z.old hq) (z.not_new hq) hn ho]
  constructor
  · rintro ⟨hx, hy, l, hl, rfl, rfl⟩
    exact ⟨hx, hy, l, z.link_live hl (z.live_child hy), rfl, rfl⟩
  · rintro ⟨hx, hy, l, hl, e1, e2⟩
    exact ⟨hx, hy, l, z.link_old hl, e1, e2⟩

/-- The regions of the copy. -/
theorem region_copy {p q : Nat} (hk : g.children p = (h.children q).map μ) (hm : ∀ c ∈ h.children q, c ∈ nodes) {x' y' : Nat}
    (he : RegionEdge g p x' y') : ∃ x y, x' = μ x ∧ y' = μ y ∧ x ∈ nodes ∧ y ∈ nodes ∧ RegionEdge h q x y := by
  obtain ⟨hx, hy, l, hl, e1, e2⟩ := he
  rw [hk] at hx hy
  rw [List.mem_map] at hx hy
  obtain ⟨x, hx, rfl⟩ := hx
  obtain ⟨y, hy, rfl⟩ := hy
  obtain ⟨s, h1, e3⟩ := z.link_copy hl (hm y hy) e2
  refine ⟨x, y, rfl, rfl, hm x hx, hm y hy, hx, hy, _, h1, ?_, rfl⟩
  have := z.orig_copy (z.live_link h1).1
  simp only at this
  rw [← e3, e1, z.orig_new (hm x hx)] at this
  exact this.symm

theorem cfg_new {c : Nat} (hm : c ∈ nodes) :
    (∀ x y, RegionEdge h c x y → RegionEdge g (μ c) (μ x) (μ y)) ∧
    ∀ x y', x ∈ nodes → RegionEdge g (μ c) (μ x) y' → ∃ y, y' = μ y ∧ y ∈ nodes ∧ RegionEdge h c x y := by
  constructor
  · rintro x y ⟨hx, hy, l, hl, rfl, rfl⟩
    rw [RegionEdge, z.kids_new hm]
    exact ⟨List.mem_map.2 ⟨_, hx, rfl⟩, List.mem_map.2 ⟨_, hy, rfl⟩, _, z.link_new hl (z.child_mem hm hy), rfl, rfl⟩
  · intro x y' hxm he
    obtain ⟨x', y, e1, e2, hx', hy, h1⟩ := z.region_copy (z.kids_new hm) (fun c hc => z.child_mem hm hc) he
    have : x = x' := z.peeled.inj x hxm x' hx' e1
    subst this
    exact ⟨y, e2, hy, h1⟩

/-! ## The rules -/

theorem v_ports {x : Nat} (hx : g.live x = true) : g.ins x = ((g.ops x).ports .incoming).length ∧
    g.outs x = ((g.ops x).ports .outgoing).length := by
  rcases z.cases3 hx with hx | hx | ⟨a, ha, rfl⟩
  · have hv := z.valid.ports x hx
    obtain ⟨h1, _, h2, h3⟩ := z.peeled.old x (z.old hx) (z.not_new hx)
    by_cases ho : x = P.o
    · subst ho
      rw [z.op_o] at hv
      rw [z.peeled.opO, h1, z.peeled.outsO, hv.1, hv.2]
      simp [Op.ports, Nat.add_assoc]
    · rw [h1, h2 ho, hv.1, hv.2]
      by_cases hn : x = P.n
      · subst hn
        rw [z.peeled.opN, z.loop]; simp [Op.ports]
      · rw [(h3 hn ho).1]; exact ⟨rfl, rfl⟩
  · exact z.peeled.newPorts x hx
  · obtain ⟨h1, h2, h3, _⟩ := z.peeled.new a ha
    rw [h1, h2, h3]; exact z.valid.ports a (z.live_mem ha)

theorem v_tags {x : Nat} (hx : g.live x = true) : (g.ops x).tagOk = true := by
  rcases z.cases3 hx with hx | hx | ⟨a, ha, rfl⟩
  · by_cases hn : x = P.n
    · subst hn; rw [z.peeled.opN]; rfl
    · by_cases ho : x = P.o
      · subst ho; rw [z.peeled.opO]; rfl
      · rw [z.ops_old (z.old hx) (z.not_new hx) hn ho]; exact z.valid.tags x hx
  · refine z.news_cases (φ := fun x => (g.ops x).tagOk = true) ?_ ?_ ?_ ?_ ?_ ?_ ?_ ?_ hx
    · rw [z.peeled.opOut]; rfl
    · rw [z.peeled.opAgain.1]; rfl
    · rw [z.peeled.opAgain.2.1]; rfl
    · rw [z.peeled.opAgain.2.2.1]; rfl
    · rw [z.peeled.opAgain.2.2.2]; rfl
    · rw [z.peeled.opStop.1]; rfl
    · rw [z.peeled.opStop.2.1]; rfl
    · rw [z.peeled.opStop.2.2]; rfl
  · rw [z.ops_new ha]; exact z.valid.tags a (z.live_mem ha)

theorem v_contains {x p : Nat} (hp : g.hier.parent x = some p) : MayContain (g.ops p) (g.ops x) := by
  rcases z.cases3 (z.treeG.parent_live _ _ hp).1 with hx | hx | ⟨a, ha, rfl⟩
  · rw [z.parent_old hx] at hp
    have hpl := (z.tree.parent_live _ _ hp).2
    have hc := z.valid.contains _ _ hp
    have hpo : p ≠ P.o := by
      rintro rfl
      have := (z.tree.child_iff _ _).2 hp
      change x ∈ h.children P.o at this
      rw [z.kids_o] at this; cases this
    by_cases hpn : p = P.n
    · subst hpn
      have hxn : x ≠ P.n := by rintro rfl; exact z.tree.acyclic _ _ hp (.refl _)
      rw [z.loop] at hc
      rw [z.peeled.opN]
      refine ⟨rfl, ?_⟩
      by_cases ho : x = P.o
      · subst ho; rw [z.peeled.opO]; trivial
      · rw [z.ops_old (z.old hx) (z.not_new hx) hxn ho]; exact hc.2
    · rw [z.ops_old (z.old hpl) (z.not_new hpl) hpn hpo]
      by_cases e : x = P.n
      · subst e
        rw [z.loop] at hc
        rw [z.peeled.opN]
        unfold MayContain at hc ⊢
        cases hop : h.ops p <;> rw [hop] at hc <;> first | exact hc | exact ⟨hc.1, trivial⟩
      · have ho : x ≠ P.o := by
          rintro rfl
          rw [(z.tree.child_iff _ _).1 z.o_kid] at hp; cases hp
          exact hpn rfl
        rw [z.ops_old (z.old hx) (z.not_new hx) e ho]; exact hc
  · revert hp
    refine z.news_cases (φ := fun x => g.hier.parent x = some p → MayContain (g.ops p) (g.ops x)) ?_ ?_ ?_ ?_ ?_ ?_ ?_ ?_ hx
    · intro hp; rw [z.up_out] at hp; cases hp; rw [z.peeled.opN, z.peeled.opOut]; exact ⟨rfl, trivial⟩
    · intro hp; rw [z.up_again] at hp; cases hp; rw [z.peeled.opO, z.peeled.opAgain.1]; trivial
    · intro hp; rw [z.up_againIn] at hp; cases hp; rw [z.peeled.opAgain.1, z.peeled.opAgain.2.1]; exact ⟨rfl, trivial⟩
    · intro hp; rw [z.up_againOut] at hp; cases hp; rw [z.peeled.opAgain.1, z.peeled.opAgain.2.2.1]; exact ⟨rfl, trivial⟩
    · intro hp; rw [z.up_copy] at hp; cases hp; rw [z.peeled.opAgain.1, z.peeled.opAgain.2.2.2]; exact ⟨rfl, trivial⟩
    · intro hp; rw [z.up_stop] at hp; cases hp; rw [z.peeled.opO, z.peeled.opStop.1]; trivial
    · intro hp; rw [z.up_stopIn] at hp; cases hp; rw [z.peeled.opStop.1, z.peeled.opStop.2.1]; exact ⟨rfl, trivial⟩
    · intro hp; rw [z.up_stopOut] at hp; cases hp; rw [z.peeled.opStop.1, z.peeled.opStop.2.2]; exact ⟨rfl, trivial⟩
  · obtain ⟨q, hq, _⟩ := (z.mem a).1 ha
    have hc := z.valid.contains _ _ hq
    rw [z.ops_new ha]
    rcases z.parent_copy ha hq with ⟨rfl, h1⟩ | ⟨hqm, h1⟩
    · rw [h1] at hp; cases hp
      rw [z.peeled.opAgain.2.2.2, ← z.loop]; exact hc
    · rw [h1] at hp; cases hp
      rw [z.ops_new hqm]; exact hc

/-- The body of the loop. -/
theorem loop_kids : ∃ cs, h.children P.n = P.i :: P.o :: cs ∧ g.children P.n = P.i :: P.out :: P.o :: cs ∧
    h.ops P.i = .input (ji ++ rest) ∧ ∀ c ∈ cs, ¬ IsIO (h.ops c) := by
  obtain ⟨cs, e1, e2⟩ := z.peeled.kidsN
  obtain ⟨inp, out, cs', e3, e4, _, e6⟩ := (childrenOk_body (h := h) (n := P.n) (by rw [z.loop]; rfl)).1
    (z.valid.children _ z.live_n)
  rw [e1] at e3
  simp only [List.cons.injEq] at e3
  obtain ⟨rfl, rfl, rfl⟩ := e3
  exact ⟨cs, e1, e2, e4, e6⟩

theorem i_kid : P.i ∈ h.children P.n := by
  obtain ⟨cs, e1, _⟩ := z.loop_kids
  rw [e1]; simp

theorem i_ne_o : P.i ≠ P.o := by
  intro e
  obtain ⟨cs, _, _, e4, _⟩ := z.loop_kids
  rw [e, z.op_o] at e4; cases e4

theorem op_i : h.ops P.i = .input (ji ++ rest) := z.loop_kids.choose_spec.2.2.1

theorem v_children {x : Nat} (hx : g.live x = true) : ChildrenOk g x := by
  rcases z.cases3 hx with hx | hx | ⟨a, ha, rfl⟩
  · by_cases hn : x = P.n
    · subst hn
      obtain ⟨cs, e1, e2, e3, e4⟩ := z.loop_kids
      refine (childrenOk_body (by rw [z.peeled.opN]; rfl)).2 ⟨P.i, P.out, P.o :: cs, e2, ?_, z.peeled.opOut, ?_⟩
      · have hi := z.live_child z.i_kid
        rw [z.ops_old (z.old hi) (z.not_new hi) (fun e => by rw [e, z.loop] at e3; cases e3) z.i_ne_o]; exact e3
      · intro c hc
        by_cases ho : c = P.o
        · subst ho
          rw [z.peeled.opO]
          rintro (⟨_, e⟩ | ⟨_, e⟩) <;> cases e
        · have hc' : c ∈ cs := by simpa [ho] using hc
          have hck : c ∈ h.children P.n := by rw [e1]; simp [hc']
          have hcl := z.live_child hck
          rw [z.ops_old (z.old hcl) (z.not_new hcl) (fun e => z.n_out (e ▸ z.kid_mem hck)) ho]
          exact e4 c hc'
    · by_cases ho : x = P.o
      · subst ho
        unfold ChildrenOk
        rw [z.peeled.opO]
        refine ⟨by simp, ?_⟩
        rw [z.peeled.kidsO]
        simp only [List.map_cons, List.map_nil]
        rw [z.peeled.opAgain.1, z.peeled.opStop.1]
      · refine childrenOk_loop (z.ops_old (z.old hx) (z.not_new hx) hn ho) (z.kids_old (z.old hx) (z.not_new hx) hn ho) ?_
          (z.valid.children x hx)
        intro c hc
        have hcp := (z.tree.child_iff _ _).1 hc
        have hcl := (z.tree.parent_live _ _ hcp).1
        by_cases hcn : c = P.n
        · subst hcn
          exact .inr ⟨⟨_, _, _, z.loop⟩, _, z.peeled.opN⟩
        · refine .inl (z.ops_old (z.old hcl) (z.not_new hcl) hcn ?_)
          rintro rfl
          rw [(z.tree.child_iff _ _).1 z.o_kid] at hcp; cases hcp
          exact hn rfl
  · have leaf : ∀ x, body (g.ops x) = none → (∀ s, g.ops x ≠ .cfg s) → (∀ a b c, g.ops x ≠ .conditional a b c) →
        g.children x = [] → ChildrenOk g x := by
      intro x h1 h2 h3 h4
      unfold ChildrenOk
      cases hop : g.ops x <;> rw [hop] at h1 h2 h3 <;>
        first | trivial | exact h4 | exact absurd rfl (h2 _) | exact absurd rfl (h3 _ _ _) | cases h1
    have io := z.peeled.kidsIO
    refine z.news_cases (φ := ChildrenOk g) ?_ ?_ ?_ ?_ ?_ ?_ ?_ ?_ hx
    · exact leaf _ (by rw [z.peeled.opOut]; rfl) (by rw [z.peeled.opOut]; intros; simp) (by rw [z.peeled.opOut]; intros; simp) io.1
    · exact (childrenOk_body (by rw [z.peeled.opAgain.1]; rfl)).2 ⟨_, _, _, z.peeled.kidsAgain, z.peeled.opAgain.2.1,
        z.peeled.opAgain.2.2.1, by
          intro c hc
          simp only [List.mem_cons, List.not_mem_nil, or_false] at hc
          subst hc
          rw [z.peeled.opAgain.2.2.2]; rintro (⟨_, e⟩ | ⟨_, e⟩) <;> cases e⟩
    · exact leaf _ (by rw [z.peeled.opAgain.2.1]; rfl) (by rw [z.peeled.opAgain.2.1]; intros; simp)
        (by rw [z.peeled.opAgain.2.1]; intros; simp) io.2.1
    · exact leaf _ (by rw [z.peeled.opAgain.2.2.1]; rfl) (by rw [z.peeled.opAgain.2.2.1]; intros; simp)
        (by rw [z.peeled.opAgain.2.2.1]; intros; simp) io.2.2.1
    · exact childrenOk_map (Q := P.n) (ν := μ) (by rw [z.peeled.opAgain.2.2.2, z.loop]) z.peeled.kidsCopy
        (fun c hc => .inl (z.ops_new (z.kid_mem hc))) (z.valid.children _ z.live_n)
    · exact (childrenOk_body (by rw [z.peeled.opStop.1]; rfl)).2 ⟨_, _, _, z.peeled.kidsStop, z.peeled.opStop.2.1,
        z.peeled.opStop.2.2, by simp⟩
    · exact leaf _ (by rw [z.peeled.opStop.2.1]; rfl) (by rw [z.peeled.opStop.2.1]; intros; simp)
        (by rw [z.peeled.opStop.2.1]; intros; simp) io.2.2.2.1
    · exact leaf _ (by rw [z.peeled.opStop.2.2]; rfl) (by rw [z.peeled.opStop.2.2]; intros; simp)
        (by rw [z.peeled.opStop.2.2]; intros; simp) io.2.2.2.2
  · refine childrenOk_map (z.ops_new ha) (z.kids_new ha) (fun c hc => .inl ?_) (z.valid.children a (z.live_mem ha))
    exact z.ops_new (z.child_mem ha hc)

theorem v_entrypoint : Container (g.ops g.entrypoint) := by
  have hc := z.valid.entrypoint
  have hl := z.tree.entry_live
  rw [z.peeled.entrypoint]
  by_cases hn : h.entrypoint = P.n
  · rw [hn, z.peeled.opN]; rfl
  · by_cases ho : h.entrypoint = P.o
    · rw [ho, z.peeled.opO]; trivial
    · rw [z.ops_old (z.old hl) (z.not_new hl) hn ho]; exact hc

theorem v_blocks {l : Link} (hl : l ∈ g.links) {q : Nat} {s : Types.Signature} (hs : g.ops q = .cfg s)
    (h1 : l.src ∈ g.children q) (h2 : l.dst ∈ g.children q) : BlockLinkOk g l := by
  have hql := (z.treeG.parent_live _ _ (z.up h1)).2
  rcases z.cases3 hql with hq | hq | ⟨a, ha, rfl⟩
  · have hqn : q ≠ P.n := by rintro rfl; rw [z.peeled.opN] at hs; cases hs
    have hqo : q ≠ P.o := by rintro rfl; rw [z.peeled.opO] at hs; cases hs
    rw [z.ops_old (z.old hq) (z.not_new hq) hqn hqo] at hs
    rw [z.kids_old (z.old hq) (z.not_new hq) hqn hqo] at h1 h2
    have same : ∀ x, x ∈ h.children q → g.ops x = h.ops x := by
      intro x hx
      have hp := (z.tree.child_iff _ _).1 hx
      have hc := z.valid.contains _ _ hp
      have hxl := z.live_child hx
      refine z.ops_old (z.old hxl) (z.not_new hxl) ?_ ?_
      · rintro rfl; rw [hs, z.loop] at hc; cases hc
      · rintro rfl; rw [hs, z.op_o] at hc; cases hc
    obtain ⟨ins, other, rows, row, b1, b2, b3⟩ := z.valid.blocks l (z.link_live hl (z.live_child h2)) q s hs h1 h2
    exact ⟨ins, other, rows, row, by rw [same _ h1]; exact b1, b2, by rw [same _ h2]; exact b3⟩
  · revert hs
    refine z.news_cases (φ := fun q => g.ops q = .cfg s → BlockLinkOk g l) ?_ ?_ ?_ ?_ ?_ ?_ ?_ ?_ hq
    · rw [z.peeled.opOut]; intro e; cases e
    · rw [z.peeled.opAgain.1]; intro e; cases e
    · rw [z.peeled.opAgain.2.1]; intro e; cases e
    · rw [z.peeled.opAgain.2.2.1]; intro e; cases e
    · rw [z.peeled.opAgain.2.2.2]; intro e; cases e
    · rw [z.peeled.opStop.1]; intro e; cases e
    · rw [z.peeled.opStop.2.1]; intro e; cases e
    · rw [z.peeled.opStop.2.2]; intro e; cases e
  · rw [z.ops_new ha] at hs
    rw [z.kids_new ha] at h1 h2
    obtain ⟨x, hx, ex⟩ := List.mem_map.1 h1
    obtain ⟨y, hy, ey⟩ := List.mem_map.1 h2
    have hxm := z.child_mem ha hx
    have hym := z.child_mem ha hy
    obtain ⟨s', hl', e1⟩ := z.link_copy hl hym ey.symm
    have e3 : s' = x := by
      have := z.orig_copy (z.live_link hl').1
      simp only at this
      rw [← e1, ← ex, z.orig_new hxm] at this
      exact this.symm
    subst e3
    obtain ⟨ins, other, rows, row, b1, b2, b3⟩ := z.valid.blocks _ hl' a s hs hx hy
    refine ⟨ins, other, rows, row, by rw [e1, z.ops_new hxm]; exact b1, b2, ?_⟩
    rw [← ey, z.ops_new hym]; exact b3

end PeelAt

end Verif.Patch
