import Verif.Patch.PeelValid

/-!
# Peeling a loop keeps a Hugr valid: links and types
-/
namespace Verif.Patch

open Verif.Graph Verif.Ops Verif.Validate Verif.Passes Verif.Dataflow

variable {Meta : Type} {C : Validate.Context} {h g : Hugr Ops.Op Meta}

namespace PeelAt

variable {P : PeelNodes} {r : Nat} {ji jo rest : List Types.Ty} {nodes : List Nat} {μ : Nat → Nat}
  (z : PeelAt C h g P r ji jo rest nodes μ)
include z

theorem m_copy : P.copy ∈ P.news := by simp [PeelNew.news]
theorem m_out : P.out ∈ P.news := by simp [PeelNew.news]
theorem m_again : P.again ∈ P.news := by simp [PeelNew.news]
theorem m_againIn : P.againIn ∈ P.news := by simp [PeelNew.news]
theorem m_againOut : P.againOut ∈ P.news := by simp [PeelNew.news]
theorem m_stop : P.stop ∈ P.news := by simp [PeelNew.news]
theorem m_stopIn : P.stopIn ∈ P.news := by simp [PeelNew.news]
theorem m_stopOut : P.stopOut ∈ P.news := by simp [PeelNew.news]

theorem apart (i j : Fin 8) (hij : i ≠ j) : P.news.get i ≠ P.news.get j :=
  fun e => hij ((List.nodup_iff_injective_get.1 z.peeled.distinct) e)

/-- The new nodes are different from each other. -/
theorem ne_01 : P.copy ≠ P.out := z.apart (0 : Fin 8) (1 : Fin 8) (by decide)
theorem ne_03 : P.copy ≠ P.againIn := z.apart (0 : Fin 8) (3 : Fin 8) (by decide)
theorem ne_04 : P.copy ≠ P.againOut := z.apart (0 : Fin 8) (4 : Fin 8) (by decide)
theorem ne_06 : P.copy ≠ P.stopIn := z.apart (0 : Fin 8) (6 : Fin 8) (by decide)
theorem ne_07 : P.copy ≠ P.stopOut := z.apart (0 : Fin 8) (7 : Fin 8) (by decide)
theorem ne_13 : P.out ≠ P.againIn := z.apart (1 : Fin 8) (3 : Fin 8) (by decide)
theorem ne_14 : P.out ≠ P.againOut := z.apart (1 : Fin 8) (4 : Fin 8) (by decide)
theorem ne_16 : P.out ≠ P.stopIn := z.apart (1 : Fin 8) (6 : Fin 8) (by decide)
theorem ne_17 : P.out ≠ P.stopOut := z.apart (1 : Fin 8) (7 : Fin 8) (by decide)
theorem ne_34 : P.againIn ≠ P.againOut := z.apart (3 : Fin 8) (4 : Fin 8) (by decide)
theorem ne_36 : P.againIn ≠ P.stopIn := z.apart (3 : Fin 8) (6 : Fin 8) (by decide)
theorem ne_37 : P.againIn ≠ P.stopOut := z.apart (3 : Fin 8) (7 : Fin 8) (by decide)
theorem ne_46 : P.againOut ≠ P.stopIn := z.apart (4 : Fin 8) (6 : Fin 8) (by decide)
theorem ne_47 : P.againOut ≠ P.stopOut := z.apart (4 : Fin 8) (7 : Fin 8) (by decide)
theorem ne_67 : P.stopIn ≠ P.stopOut := z.apart (6 : Fin 8) (7 : Fin 8) (by decide)

/-- Links to new nodes. -/
theorem link_news {l : Link} (hl : l ∈ g.links) (hd : l.dst ∈ P.news) :
    (∃ p, p < (jo ++ rest).length ∧ l = ⟨P.o, p, P.out, p⟩) ∨ (∃ p, p < (jo ++ rest).length ∧ l = ⟨P.stopIn, p, P.stopOut, p⟩) ∨
    (∃ p, p < (jo ++ rest).length ∧ l = ⟨P.copy, p, P.againOut, p⟩) ∨ (∃ p, p < (ji ++ rest).length ∧ l = ⟨P.againIn, p, P.copy, p⟩) := by
  rcases z.links hl with h1 | ⟨s, d, _, hm, _, e⟩ | h1
  · exact absurd hd (z.not_new (z.live_link h1).2)
  · exact absurd (e ▸ hd) (z.μ_new d (z.live_mem hm))
  · exact h1

theorem v_acyclic {p : Nat} (hp : g.live p = true) (hb : (body (g.ops p)).isSome = true) (x : Nat) :
    ¬ Relation.TransGen (RegionEdge g p) x x := by
  have hcopy : ∀ {p q : Nat}, g.children p = (h.children q).map μ → (∀ c ∈ h.children q, c ∈ nodes) → h.live q = true →
      (body (h.ops q)).isSome = true → ¬ Relation.TransGen (RegionEdge g p) x x := by
    intro p q hk hm hq hbq hc
    refine z.valid.acyclic q hq hbq (original nodes μ x) (Relation.TransGen.lift (original nodes μ) (fun a b he => ?_) x x hc)
    obtain ⟨a', b', rfl, rfl, ha, hb, he⟩ := z.region_copy hk hm he
    change RegionEdge h q (original nodes μ (μ a')) (original nodes μ (μ b'))
    rw [z.orig_new ha, z.orig_new hb]; exact he
  rcases z.cases3 hp with hp | hp | ⟨a, ha, rfl⟩
  · by_cases hn : p = P.n
    · subst hn
      intro hc
      have key : ∀ {a b}, RegionEdge g P.n a b → a ≠ P.out := by
        rintro a b ⟨_, hb', l, hl, rfl, rfl⟩ e
        rcases z.links hl with h1 | ⟨s, d, h1, _, e1, _⟩ | ⟨p, _, rfl⟩ | ⟨p, _, rfl⟩ | ⟨p, _, rfl⟩ | ⟨p, _, rfl⟩
        · exact z.not_new (z.live_link h1).1 (e ▸ z.m_out)
        · exact z.μ_new s (z.live_link h1).1 (e1 ▸ e ▸ z.m_out)
        · exact z.new_ne z.live_o z.m_out e
        · exact z.ne_16 e.symm
        · exact z.ne_01 e
        · exact z.ne_13 e.symm
      have low : ∀ {a b}, RegionEdge g P.n a b → b ≠ P.out → RegionEdge h P.n a b := by
        rintro a b he hne
        have hao := key he
        obtain ⟨h1, h2, l, hl, rfl, rfl⟩ := he
        have h1 := (z.kids_n' h1).resolve_right hao
        have h2 := (z.kids_n' h2).resolve_right hne
        exact ⟨h1, h2, l, z.link_live hl (z.live_child h2), rfl, rfl⟩
      have tr : ∀ {b}, Relation.TransGen (RegionEdge g P.n) x b → b ≠ P.out → Relation.TransGen (RegionEdge h P.n) x b := by
        intro b hb
        induction hb with
        | single he => exact fun hne => .single (low he hne)
        | tail _ he ih => exact fun hne => .tail (ih (key he)) (low he hne)
      have hxo : x ≠ P.out := by
        obtain ⟨y, hy, _⟩ := Relation.TransGen.head'_iff.1 hc
        exact key hy
      exact z.valid.acyclic P.n hp (by rw [z.loop]; rfl) x (tr hc hxo)
    · by_cases ho : p = P.o
      · subst ho; rw [z.peeled.opO] at hb; cases hb
      · have : RegionEdge g p = RegionEdge h p := by
          funext x y; exact propext (z.region_old hp hn ho)
        rw [this]
        rw [z.ops_old (z.old hp) (z.not_new hp) hn ho] at hb
        exact z.valid.acyclic p hp hb x
  · revert hb
    refine z.news_cases (φ := fun p => (body (g.ops p)).isSome = true → ¬ Relation.TransGen (RegionEdge g p) x x)
      ?_ ?_ ?_ ?_ ?_ ?_ ?_ ?_ hp
    · rw [z.peeled.opOut]; intro e; cases e
    · intro _
      refine no_cycle (fun x => if x = P.againIn then 0 else if x = P.copy then 1 else 2) ?_ x
      rintro a b ⟨h1, h2, l, hl, rfl, rfl⟩
      rw [z.peeled.kidsAgain] at h1 h2
      simp only [List.mem_cons, List.not_mem_nil, or_false] at h1 h2
      have hdn : l.dst ∈ P.news := by
        rcases h2 with e | e | e <;> rw [e]
        · exact z.m_againIn
        · exact z.m_againOut
        · exact z.m_copy
      rcases z.link_news hl hdn with ⟨p, _, rfl⟩ | ⟨p, _, rfl⟩ | ⟨p, _, rfl⟩ | ⟨p, _, rfl⟩
      · rcases h2 with e | e | e
        · exact absurd e z.ne_13
        · exact absurd e z.ne_14
        · exact absurd e z.ne_01.symm
      · rcases h2 with e | e | e
        · exact absurd e z.ne_37.symm
        · exact absurd e z.ne_47.symm
        · exact absurd e z.ne_07.symm
      · simp [z.ne_03, z.ne_34.symm, z.ne_04.symm]
      · simp [z.ne_03]
    · rw [z.peeled.opAgain.2.1]; intro e; cases e
    · rw [z.peeled.opAgain.2.2.1]; intro e; cases e
    · intro _
      exact hcopy z.peeled.kidsCopy (fun c hc => z.kid_mem hc) z.live_n (by rw [z.loop]; rfl)
    · intro _
      refine no_cycle (fun x => if x = P.stopIn then 0 else 1) ?_ x
      rintro a b ⟨h1, h2, l, hl, rfl, rfl⟩
      rw [z.peeled.kidsStop] at h1 h2
      simp only [List.mem_cons, List.not_mem_nil, or_false] at h1 h2
      have hdn : l.dst ∈ P.news := by
        rcases h2 with e | e <;> rw [e]
        · exact z.m_stopIn
        · exact z.m_stopOut
      rcases z.link_news hl hdn with ⟨p, _, rfl⟩ | ⟨p, _, rfl⟩ | ⟨p, _, rfl⟩ | ⟨p, _, rfl⟩
      · rcases h2 with e | e
        · exact absurd e z.ne_16
        · exact absurd e z.ne_17
      · simp [z.ne_67.symm]
      · rcases h2 with e | e
        · exact absurd e z.ne_46
        · exact absurd e z.ne_47
      · rcases h2 with e | e
        · exact absurd e z.ne_06
        · exact absurd e z.ne_07
    · rw [z.peeled.opStop.2.1]; intro e; cases e
    · rw [z.peeled.opStop.2.2]; intro e; cases e
  · rw [z.ops_new ha] at hb
    exact hcopy (z.kids_new ha) (fun c hc => z.child_mem ha hc) (z.live_mem ha) hb

theorem root_ne : h.moduleRoot ≠ P.n ∧ h.moduleRoot ≠ P.o := by
  constructor
  · intro e
    have := z.parent
    rw [← e, z.tree.root_top] at this; cases this
  · intro e
    have := (z.tree.child_iff _ _).1 z.o_kid
    rw [← e, z.tree.root_top] at this; cases this

theorem v_exports {a : Nat} {nm : String} {s : Types.PolyFunc} {b : Bool} (he : Exports C g a nm s b) :
    Exports C h a nm s b := by
  obtain ⟨h1, h2, h3⟩ := he
  rw [z.peeled.moduleRoot, z.kids_old (z.old z.tree.root_live) (z.not_new z.tree.root_live) z.root_ne.1 z.root_ne.2] at h1
  have hl := z.live_child h1
  have han : a ≠ P.n := by
    rintro rfl
    rw [z.peeled.opN] at h3
    rcases h3 with ⟨_, e⟩ | ⟨_, e⟩ <;> cases e
  have hao : a ≠ P.o := by
    rintro rfl
    rw [z.peeled.opO] at h3
    rcases h3 with ⟨_, e⟩ | ⟨_, e⟩ <;> cases e
  rw [z.ops_old (z.old hl) (z.not_new hl) han hao] at h3
  exact ⟨h1, h2, h3⟩

theorem n_not_defn : ∀ name sig, h.ops P.n ≠ .funcDefn name sig := by
  intro _ _ e; rw [z.loop] at e; cases e

theorem par_o : h.hier.parent P.o = some P.n := (z.tree.child_iff _ _).1 z.o_kid

/-- The variables that can be used are those that could be used in the loop. -/
theorem v_decls {x : Nat} {decls : List Types.Term} (hd : DeclsAt g x decls) :
    (h.live x = true → DeclsAt h x decls) ∧ (∀ a ∈ nodes, x = μ a → DeclsAt h a decls) ∧
    (x ∈ P.news → DeclsAt h P.n decls) := by
  have noNew : ∀ {y nm s}, y ∈ P.news → g.ops y ≠ .funcDefn nm s := by
    intro y nm s hy
    refine z.news_cases (φ := fun y => g.ops y ≠ .funcDefn nm s) ?_ ?_ ?_ ?_ ?_ ?_ ?_ ?_ hy
    · rw [z.peeled.opOut]; intro e; cases e
    · rw [z.peeled.opAgain.1]; intro e; cases e
    · rw [z.peeled.opAgain.2.1]; intro e; cases e
    · rw [z.peeled.opAgain.2.2.1]; intro e; cases e
    · rw [z.peeled.opAgain.2.2.2]; intro e; cases e
    · rw [z.peeled.opStop.1]; intro e; cases e
    · rw [z.peeled.opStop.2.1]; intro e; cases e
    · rw [z.peeled.opStop.2.2]; intro e; cases e
  have upNew : ∀ {y p}, y ∈ P.news → g.hier.parent y = some p → p = P.n ∨ p = P.o ∨ p ∈ P.news := by
    intro y p hy
    refine z.news_cases (φ := fun y => g.hier.parent y = some p → p = P.n ∨ p = P.o ∨ p ∈ P.news) ?_ ?_ ?_ ?_ ?_ ?_ ?_ ?_ hy
    · rw [z.up_out]; intro e; cases e; exact .inl rfl
    · rw [z.up_again]; intro e; cases e; exact .inr (.inl rfl)
    · rw [z.up_againIn]; intro e; cases e; exact .inr (.inr z.m_again)
    · rw [z.up_againOut]; intro e; cases e; exact .inr (.inr z.m_again)
    · rw [z.up_copy]; intro e; cases e; exact .inr (.inr z.m_again)
    · rw [z.up_stop]; intro e; cases e; exact .inr (.inl rfl)
    · rw [z.up_stopIn]; intro e; cases e; exact .inr (.inr z.m_stop)
    · rw [z.up_stopOut]; intro e; cases e; exact .inr (.inr z.m_stop)
  induction hd with
  | root =>
    rw [z.peeled.moduleRoot]
    exact ⟨fun _ => .root, fun a ha e => absurd e (z.old z.tree.root_live a ha),
      fun hx => absurd hx (z.not_new z.tree.root_live)⟩
  | @inside x p nm s hp hop =>
    refine ⟨fun hx => ?_, ?_, fun hx => ?_⟩
    · rw [z.parent_old hx] at hp
      have hpl := (z.tree.parent_live _ _ hp).2
      have hpn : p ≠ P.n := by rintro rfl; rw [z.peeled.opN] at hop; cases hop
      have hpo : p ≠ P.o := by rintro rfl; rw [z.peeled.opO] at hop; cases hop
      rw [z.ops_old (z.old hpl) (z.not_new hpl) hpn hpo] at hop
      exact .inside hp hop
    · rintro a ha rfl
      obtain ⟨q, hq, _⟩ := (z.mem a).1 ha
      rcases z.parent_copy ha hq with ⟨rfl, h1⟩ | ⟨hqm, h1⟩
      · rw [h1] at hp; cases hp
        exact absurd hop (noNew z.m_copy)
      · rw [h1] at hp; cases hp
        rw [z.ops_new hqm] at hop
        exact absurd (.inl ⟨_, _, hop⟩) (z.not_defn hqm)
    · rcases upNew hx hp with rfl | rfl | hm
      · rw [z.peeled.opN] at hop; cases hop
      · rw [z.peeled.opO] at hop; cases hop
      · exact absurd hop (noNew hm)
  | @inherited x p ds hp hop _ ih =>
    refine ⟨fun hx => ?_, ?_, fun hx => ?_⟩
    · rw [z.parent_old hx] at hp
      have hpl := (z.tree.parent_live _ _ hp).2
      refine .inherited hp ?_ (ih.1 hpl)
      by_cases hpn : p = P.n
      · rw [hpn]; exact z.n_not_defn
      · by_cases hpo : p = P.o
        · rw [hpo, z.op_o]; intro _ _ e; cases e
        · rw [← z.ops_old (z.old hpl) (z.not_new hpl) hpn hpo]; exact hop
    · rintro a ha rfl
      obtain ⟨q, hq, _⟩ := (z.mem a).1 ha
      rcases z.parent_copy ha hq with ⟨rfl, h1⟩ | ⟨hqm, h1⟩
      · rw [h1] at hp; cases hp
        exact .inherited hq z.n_not_defn (ih.2.2 z.m_copy)
      · rw [h1] at hp; cases hp
        exact .inherited hq (fun _ _ e => z.not_defn hqm (.inl ⟨_, _, e⟩)) (ih.2.1 q hqm rfl)
    · rcases upNew hx hp with rfl | rfl | hm
      · exact ih.1 z.live_n
      · exact decls_up z.tree (ih.1 z.live_o) z.par_o z.n_not_defn
      · exact ih.2.2 hm

/-! ## Links -/

theorem outs_old {x : Nat} (hx : h.live x = true) (ho : x ≠ P.o) :
    (g.ops x).ports .outgoing = (h.ops x).ports .outgoing := by
  by_cases hn : x = P.n
  · subst hn
    rw [z.peeled.opN, z.loop]
    simp [Op.ports]
  · rw [z.ops_old (z.old hx) (z.not_new hx) hn ho]

theorem ins_old {x : Nat} (hx : h.live x = true) : (g.ops x).ports .incoming = (h.ops x).ports .incoming := by
  by_cases hn : x = P.n
  · subst hn
    rw [z.peeled.opN, z.loop]
    simp [Op.ports]
  · by_cases ho : x = P.o
    · subst ho
      rw [z.peeled.opO, z.op_o]
      simp [Op.ports]
    · rw [z.ops_old (z.old hx) (z.not_new hx) hn ho]

theorem kind_old {l : Link} (hl : l ∈ h.links) : srcKind g l = srcKind h l := by
  unfold srcKind
  rw [z.outs_old (z.live_link hl).1 (z.src_ne_o hl)]

theorem cfg_same {c : Nat} {s : Types.Signature} (hc : h.ops c = .cfg s) (hl : h.live c = true) :
    g.ops c = .cfg s ∧ g.children c = h.children c ∧ RegionEdge g c = RegionEdge h c := by
  have hn : c ≠ P.n := by rintro rfl; rw [z.loop] at hc; cases hc
  have ho : c ≠ P.o := by rintro rfl; rw [z.op_o] at hc; cases hc
  refine ⟨by rw [z.ops_old (z.old hl) (z.not_new hl) hn ho]; exact hc, z.kids_old (z.old hl) (z.not_new hl) hn ho, ?_⟩
  funext x y; exact propext (z.region_old hl hn ho)

/-- Links from a node that was there, if the target stays below what it was below. -/
theorem edge_far {s sp d dp d' q a p : Nat} {kind : Kind} (hp : h.hier.parent s = some p) (hl : ⟨s, sp, d, dp⟩ ∈ h.links)
    (hd' : g.hier.parent d' = some q) (hqa : Above g.hier.parent q a)
    (hor : (kind.isStatic = true ∧ h.hier.parent a = some p) ∨
      (∃ t, kind = .value t ∧ t.copyable = true) ∧
      ((h.hier.parent a = some p ∧ ∃ o ∈ h.links, o.src = s ∧ o.dst = a ∧ srcKind h o = some .stateOrder) ∨
       ∃ c sig entry rest, a ≠ p ∧ h.hier.parent p = some c ∧ h.hier.parent a = some c ∧
          h.ops c = .cfg sig ∧ h.children c = entry :: rest ∧ Dominates (RegionEdge h c) entry p a)) :
    EdgeOk g ⟨s, sp, d', dp⟩ kind := by
  refine ⟨p, z.parent_some hp, .inr ⟨q, a, hd', hqa, ?_⟩⟩
  rcases hor with ⟨hst, ha⟩ | ⟨ht, ⟨ha, o, ho, o1, o2, o3⟩ | ⟨c, sg, entry, rest, hne, hpc, hac, hcfg, hch, hdom⟩⟩
  · exact .inl ⟨hst, z.parent_some ha⟩
  · exact .inr ⟨ht, .inl ⟨z.parent_some ha, o, z.link_old ho, o1, o2, by rw [z.kind_old ho]; exact o3⟩⟩
  · obtain ⟨e1, e2, e3⟩ := z.cfg_same hcfg (z.tree.parent_live _ _ hpc).2
    exact .inr ⟨ht, .inr ⟨c, sg, entry, rest, hne, z.parent_some hpc, z.parent_some hac, e1, by rw [e2]; exact hch,
      by rw [e3]; exact hdom⟩⟩

theorem edge_old {l : Link} {kind : Kind} (hl : l ∈ h.links) (he : EdgeOk h l kind) : EdgeOk g l kind := by
  obtain ⟨p, hp, hor⟩ := he
  rcases hor with hq | ⟨q, a, hq, hqa, hor⟩
  · exact ⟨p, z.parent_some hp, .inl (z.parent_some hq)⟩
  · exact z.edge_far hp hl (z.parent_some hq) (z.above_old hqa) hor

/-- Links from one copy to another. -/
theorem edge_new {s sp d dp : Nat} (hs : s ∈ nodes) (hd : d ∈ nodes) {kind : Kind}
    (he : EdgeOk h ⟨s, sp, d, dp⟩ kind) : EdgeOk g ⟨μ s, sp, μ d, dp⟩ kind := by
  obtain ⟨p, hp, hor⟩ := he
  simp only [] at hp hor
  have reg : ∀ {x}, x ∈ nodes → h.hier.parent x = some p →
      g.hier.parent (μ x) = some (if p = P.n then P.copy else μ p) := fun hx hxp => z.parent_new hx hxp
  refine ⟨_, reg hs hp, ?_⟩
  rcases hor with hq | ⟨q, a, hq, hqa, hor⟩
  · exact .inl (reg hd hq)
  · right
    have fin : a ∈ nodes → g.hier.parent (μ d) = some (μ q) ∧ Above g.hier.parent (μ q) (μ a) := by
      intro ham
      obtain ⟨h1, hqm⟩ := z.above_new hqa ham
      rcases z.parent_copy hd hq with ⟨rfl, _⟩ | ⟨_, h2⟩
      · exact absurd hqm z.n_out
      · exact ⟨h2, h1⟩
    have hkid : ∀ {x}, h.hier.parent x = some p → x ∈ nodes := by
      intro x hx
      rcases z.parent_copy hs hp with ⟨rfl, _⟩ | ⟨h1, _⟩
      · exact z.kid_mem ((z.tree.child_iff _ _).2 hx)
      · exact z.child_mem h1 ((z.tree.child_iff _ _).2 hx)
    rcases hor with ⟨hst, ha⟩ | ⟨ht, ⟨ha, o, ho, o1, o2, o3⟩ | ⟨c, sg, entry, rest, hne, hpc, hac, hcfg, hch, hdom⟩⟩
    · have ham : a ∈ nodes := hkid ha
      exact ⟨_, _, (fin ham).1, (fin ham).2, .inl ⟨hst, reg ham ha⟩⟩
    · have ham : a ∈ nodes := hkid ha
      obtain ⟨os, osp, od, odp⟩ := o
      simp only [] at o1 o2
      subst o1; subst o2
      refine ⟨_, _, (fin ham).1, (fin ham).2, .inr ⟨ht, .inl ⟨reg ham ha, _, z.link_new ho ham, rfl, rfl, ?_⟩⟩⟩
      unfold srcKind at o3 ⊢
      simp only [] at o3 ⊢
      rw [z.ops_new hs]; exact o3
    · have hpf : p ≠ P.n := by
        rintro rfl
        have := z.valid.contains _ _ hpc
        rw [hcfg, z.loop] at this; cases this
      have hpm : p ∈ nodes := z.mem_parent hs hp hpf
      have hcf : c ≠ P.n := by rintro rfl; rw [z.loop] at hcfg; cases hcfg
      have hcm : c ∈ nodes := z.mem_parent hpm hpc hcf
      have ham : a ∈ nodes := z.child_mem hcm ((z.tree.child_iff _ _).2 hac)
      have hem : entry ∈ nodes := z.child_mem hcm (by rw [hch]; simp)
      refine ⟨_, _, (fin ham).1, (fin ham).2, .inr ⟨ht, .inr ⟨μ c, sg, μ entry, rest.map μ, ?_, ?_, ?_, ?_, ?_, ?_⟩⟩⟩
      · rw [if_neg hpf]; exact fun e => hne (z.peeled.inj a ham p hpm e)
      · rw [if_neg hpf, z.parent_new hpm hpc, if_neg hcf]
      · rw [z.parent_new ham hac, if_neg hcf]
      · rw [z.ops_new hcm]; exact hcfg
      · rw [z.kids_new hcm, hch]; rfl
      · rw [if_neg hpf]
        exact dominates_map (K := fun x => x ∈ nodes) (z.cfg_new hcm).1 (z.cfg_new hcm).2
          (fun x y hx hy => z.peeled.inj x hx y hy) hem ham hdom

/-- A link into the loop goes to something that is around the loop. -/
theorem far {s sp d dp : Nat} (hs : s ∉ nodes) (hd : d ∈ nodes) {kind : Kind}
    (he : EdgeOk h ⟨s, sp, d, dp⟩ kind) :
    ∃ p a, h.hier.parent s = some p ∧ Above h.hier.parent P.n a ∧
    ((kind.isStatic = true ∧ h.hier.parent a = some p) ∨
      (∃ t, kind = .value t ∧ t.copyable = true) ∧
      ((h.hier.parent a = some p ∧ ∃ o ∈ h.links, o.src = s ∧ o.dst = a ∧ srcKind h o = some .stateOrder) ∨
       ∃ c sig entry rest, a ≠ p ∧ h.hier.parent p = some c ∧ h.hier.parent a = some c ∧
          h.ops c = .cfg sig ∧ h.children c = entry :: rest ∧ Dominates (RegionEdge h c) entry p a)) := by
  obtain ⟨p, hp, hor⟩ := he
  simp only [] at hp hor
  have hpn : p ≠ P.n := by rintro rfl; exact hs (z.kid_mem ((z.tree.child_iff _ _).2 hp))
  have hpm : p ∉ nodes := fun hm => hs (z.child_mem hm ((z.tree.child_iff _ _).2 hp))
  rcases hor with hq | ⟨q, a, hq, hqa, hor⟩
  · exact absurd (z.mem_parent hd hq hpn) hpm
  · refine ⟨p, a, hp, ?_, hor⟩
    -- the node around the target is not in the loop
    have ham : a ∉ nodes := by
      intro ham
      rcases hor with ⟨_, ha⟩ | ⟨_, ⟨ha, _⟩ | ⟨c, sg, entry, rest, _, hpc, hac, hcfg, _⟩⟩
      · exact hpm (z.mem_parent ham ha hpn)
      · exact hpm (z.mem_parent ham ha hpn)
      · have hcf : c ≠ P.n := by rintro rfl; rw [z.loop] at hcfg; cases hcfg
        exact hpm (z.child_mem (z.mem_parent ham hac hcf) ((z.tree.child_iff _ _).2 hpc))
    have key : ∀ {q a}, Above h.hier.parent q a → a ∉ nodes → (q ∈ nodes ∨ q = P.n) → Above h.hier.parent P.n a := by
      intro q a hqa
      induction hqa with
      | refl q =>
        rintro h1 (h2 | rfl)
        · exact absurd h2 h1
        · exact .refl _
      | @step q w a hw h1 ih =>
        rintro h2 (h3 | rfl)
        · by_cases e : w = P.n
          · exact ih h2 (.inr e)
          · exact ih h2 (.inl (z.mem_parent h3 hw e))
        · exact .step hw h1
    refine key hqa ham ?_
    by_cases e : q = P.n
    · exact .inr e
    · exact .inl (z.mem_parent hd hq e)

theorem v_kinds {l : Link} (hl : l ∈ g.links) :
    ∃ kind, srcKind g l = some kind ∧ ((g.ops l.dst).ports .incoming)[l.dstPort]? = some kind ∧ EdgeOk g l kind := by
  have val : ∀ (ts : List Types.Ty) (p : Nat), p < ts.length → ∃ t, (ts.map Kind.value ++ [.stateOrder])[p]? = some (.value t) := by
    intro ts p hp
    rw [List.getElem?_append_left (by simpa using hp), List.getElem?_map, List.getElem?_eq_getElem hp]
    exact ⟨_, rfl⟩
  rcases z.links hl with h1 | ⟨s, d, h1, hd, e1, e2⟩ | ⟨p, hp, rfl⟩ | ⟨p, hp, rfl⟩ | ⟨p, hp, rfl⟩ | ⟨p, hp, rfl⟩
  · obtain ⟨kind, k1, k2, k3⟩ := z.valid.kinds l h1
    exact ⟨kind, by rw [z.kind_old h1]; exact k1, by rw [z.ins_old (z.live_link h1).2]; exact k2, z.edge_old h1 k3⟩
  · obtain ⟨kind, k1, k2, k3⟩ := z.valid.kinds _ h1
    obtain ⟨l1, lp, l2, ldp⟩ := l
    simp only [] at e1 e2 h1 k1 k2 k3 ⊢
    subst e1; subst e2
    refine ⟨kind, ?_, by rw [z.ops_new hd]; exact k2, ?_⟩
    · by_cases hs : s ∈ nodes
      · unfold srcKind at k1 ⊢
        simp only [] at k1 ⊢
        rw [z.ops_new hs]; exact k1
      · rw [z.peeled.keep s hs]
        have := z.kind_old h1
        unfold srcKind at this k1 ⊢
        simp only [] at this k1 ⊢
        rw [this]; exact k1
    · by_cases hs : s ∈ nodes
      · exact z.edge_new hs hd k3
      · rw [z.peeled.keep s hs]
        obtain ⟨p, a, h2, h3, h4⟩ := z.far hs hd k3
        obtain ⟨q, hq, _⟩ := (z.mem d).1 hd
        obtain ⟨q', h5, h6⟩ := z.above_μ hd hq
        exact z.edge_far h2 h1 h5 (h6.trans (z.above_old h3)) h4
  · obtain ⟨t, ht⟩ := val _ p hp
    exact ⟨.value t, by unfold srcKind; simp only []; rw [z.peeled.opO]; exact ht, by simp only []; rw [z.peeled.opOut]; exact ht,
      P.n, z.up_o, .inl z.up_out⟩
  · obtain ⟨t, ht⟩ := val _ p hp
    exact ⟨.value t, by unfold srcKind; simp only []; rw [z.peeled.opStop.2.1]; exact ht,
      by simp only []; rw [z.peeled.opStop.2.2]; exact ht, P.stop, z.up_stopIn, .inl z.up_stopOut⟩
  · obtain ⟨t, ht⟩ := val _ p hp
    exact ⟨.value t, by unfold srcKind; simp only []; rw [z.peeled.opAgain.2.2.2]; exact ht,
      by simp only []; rw [z.peeled.opAgain.2.2.1]; exact ht, P.again, z.up_copy, .inl z.up_againOut⟩
  · obtain ⟨t, ht⟩ := val _ p hp
    exact ⟨.value t, by unfold srcKind; simp only []; rw [z.peeled.opAgain.2.1]; exact ht,
      by simp only []; rw [z.peeled.opAgain.2.2.2]; exact ht, P.again, z.up_againIn, .inl z.up_copy⟩

/-! ## How many links ports have -/

/-- How many links there are. -/
theorem count (φ : Link → Bool) : (g.links.filter φ).length = h.links.countP φ +
    (h.links.filter fun l => decide (l.dst ∈ nodes)).countP (fun l => φ (renameLink μ l)) +
    (straight P.o P.out (jo ++ rest).length).countP φ + (straight P.stopIn P.stopOut (jo ++ rest).length).countP φ +
    (straight P.copy P.againOut (jo ++ rest).length).countP φ + (straight P.againIn P.copy (ji ++ rest).length).countP φ := by
  have hf : (h.links.filter fun l => decide (l.src ∈ nodes) || decide (l.dst ∈ nodes)) =
      h.links.filter fun l => decide (l.dst ∈ nodes) := by
    refine List.filter_congr fun l hl => ?_
    by_cases hd : l.dst ∈ nodes
    · simp [hd]
    · have hs : l.src ∉ nodes := fun hs => hd ((z.mem _).2 (loop_leave z.valid z.loop hl ((z.mem _).1 hs)))
      simp [hd, hs]
  rw [← List.countP_eq_length_filter, z.peeled.links.countP_eq, hf]
  simp only [List.countP_append, List.countP_map]
  rfl

theorem old_zero {x : Nat} (hx : h.live x = false) (port : Nat) :
    h.links.countP (fun l => decide (l.dst = x) && decide (l.dstPort = port)) = 0 ∧
    h.links.countP (fun l => decide (l.src = x) && decide (l.srcPort = port)) = 0 := by
  constructor
  all_goals
    rw [List.countP_eq_zero]
    intro l hl
    simp only [Bool.and_eq_true, decide_eq_true_eq, not_and]
    rintro rfl
    have := z.live_link hl
    simp_all

theorem to_old {x port : Nat} (hx : h.live x = true) : (linksTo g x port).length = (linksTo h x port).length := by
  unfold linksTo
  rw [z.count, ← List.countP_eq_length_filter, straight_to_ne (z.new_ne hx z.m_out).symm,
    straight_to_ne (z.new_ne hx z.m_stopOut).symm, straight_to_ne (z.new_ne hx z.m_againOut).symm,
    straight_to_ne (z.new_ne hx z.m_copy).symm]
  have : (h.links.filter fun l => decide (l.dst ∈ nodes)).countP
      (fun l => decide ((renameLink μ l).dst = x) && decide ((renameLink μ l).dstPort = port)) = 0 := by
    rw [List.countP_eq_zero]
    intro l hl
    simp only [List.mem_filter, decide_eq_true_eq] at hl
    simp only [Bool.and_eq_true, decide_eq_true_eq, not_and]
    intro e
    exact absurd e.symm (z.old hx _ hl.2)
  rw [this]
  simp only [Nat.add_zero]

theorem to_new {a port : Nat} (ha : a ∈ nodes) : (linksTo g (μ a) port).length = (linksTo h a port).length := by
  have hm : ∀ {y}, y ∈ P.news → y ≠ μ a := fun hy e => z.μ_new a (z.live_mem ha) (e ▸ hy)
  unfold linksTo
  rw [z.count, ← List.countP_eq_length_filter, straight_to_ne (hm z.m_out), straight_to_ne (hm z.m_stopOut),
    straight_to_ne (hm z.m_againOut), straight_to_ne (hm z.m_copy), (z.old_zero (z.peeled.fresh a ha).1 port).1, List.countP_filter]
  simp only [Nat.zero_add, Nat.add_zero]
  refine List.countP_congr fun l hl => ?_
  rw [Bool.and_eq_true, Bool.and_eq_true, Bool.and_eq_true, decide_eq_true_iff, decide_eq_true_iff, decide_eq_true_iff,
    decide_eq_true_iff, decide_eq_true_iff]
  change ((μ l.dst = μ a ∧ l.dstPort = port) ∧ l.dst ∈ nodes) ↔ (l.dst = a ∧ l.dstPort = port)
  constructor
  · rintro ⟨⟨e1, e2⟩, hd⟩; exact ⟨z.peeled.inj _ hd _ ha e1, e2⟩
  · rintro ⟨rfl, e2⟩; exact ⟨⟨rfl, e2⟩, ha⟩

theorem from_new {a port : Nat} (ha : a ∈ nodes) : (linksFrom g (μ a) port).length = (linksFrom h a port).length := by
  have hm : ∀ {y}, y ∈ P.news → y ≠ μ a := fun hy e => z.μ_new a (z.live_mem ha) (e ▸ hy)
  unfold linksFrom
  rw [z.count, ← List.countP_eq_length_filter, straight_from_ne (z.μ_ne ha z.live_o).symm, straight_from_ne (hm z.m_stopIn),
    straight_from_ne (hm z.m_copy), straight_from_ne (hm z.m_againIn), (z.old_zero (z.peeled.fresh a ha).1 port).2, List.countP_filter]
  simp only [Nat.zero_add, Nat.add_zero]
  refine List.countP_congr fun l hl => ?_
  rw [Bool.and_eq_true, Bool.and_eq_true, Bool.and_eq_true, decide_eq_true_iff, decide_eq_true_iff, decide_eq_true_iff,
    decide_eq_true_iff, decide_eq_true_iff]
  change ((μ l.src = μ a ∧ l.srcPort = port) ∧ l.dst ∈ nodes) ↔ (l.src = a ∧ l.srcPort = port)
  constructor
  · rintro ⟨⟨e1, e2⟩, hd⟩
    refine ⟨?_, e2⟩
    have := z.orig_copy (z.live_link hl).1
    rw [e1, z.orig_new ha] at this
    exact this.symm
  · rintro ⟨rfl, e2⟩
    exact ⟨⟨rfl, e2⟩, (z.mem _).2 (loop_leave z.valid z.loop hl ((z.mem _).1 ha))⟩

theorem from_old {x port : Nat} (hx : h.live x = true) (ho : x ≠ P.o) {kind : Kind}
    (hk : ((h.ops x).ports .outgoing)[port]? = some kind) (h1 : kind.isStatic = false)
    (h2 : ∀ t, kind = .value t → t.copyable = false) : (linksFrom g x port).length = (linksFrom h x port).length := by
  unfold linksFrom
  rw [z.count, ← List.countP_eq_length_filter, straight_from_ne ho.symm,
    straight_from_ne (z.new_ne hx z.m_stopIn).symm, straight_from_ne (z.new_ne hx z.m_copy).symm,
    straight_from_ne (z.new_ne hx z.m_againIn).symm]
  have : (h.links.filter fun l => decide (l.dst ∈ nodes)).countP
      (fun l => decide ((renameLink μ l).src = x) && decide ((renameLink μ l).srcPort = port)) = 0 := by
    rw [List.countP_eq_zero]
    intro l hl
    simp only [List.mem_filter, decide_eq_true_eq] at hl
    simp only [Bool.and_eq_true, decide_eq_true_eq, not_and]
    intro e3 e4
    have e3 : μ l.src = x := e3
    have e4 : l.srcPort = port := e4
    by_cases hs : l.src ∈ nodes
    · exact z.old hx _ hs e3.symm
    · rw [z.peeled.keep _ hs] at e3
      obtain ⟨kind', k1, _, k3⟩ := z.valid.kinds l hl.1
      unfold srcKind at k1
      rw [e3, e4, hk] at k1; cases k1
      obtain ⟨_, _, _, _, h4⟩ := z.far (s := l.src) (sp := l.srcPort) (dp := l.dstPort) hs hl.2 k3
      rcases h4 with ⟨h4, _⟩ | ⟨⟨t, rfl, h4⟩, _⟩
      · rw [h1] at h4; cases h4
      · rw [h2 t rfl] at h4; cases h4
  rw [this]
  simp only [Nat.add_zero]

/-- New nodes have no other links. -/
theorem ren_zero {x : Nat} (hx : x ∈ P.news ∨ x = P.o) (port : Nat) :
    (h.links.filter fun l => decide (l.dst ∈ nodes)).countP
      (fun l => decide ((renameLink μ l).src = x) && decide ((renameLink μ l).srcPort = port)) = 0 := by
  rw [List.countP_eq_zero]
  intro l hl
  simp only [List.mem_filter] at hl
  simp only [Bool.and_eq_true, decide_eq_true_eq, not_and]
  intro e
  have e : μ l.src = x := e
  have hs := (z.live_link hl.1).1
  rcases hx with hx | rfl
  · exact absurd (e ▸ hx) (z.μ_new _ hs)
  · exact absurd e (z.μ_ne_o hs)

theorem ren_zero_to {x : Nat} (hx : x ∈ P.news) (port : Nat) :
    (h.links.filter fun l => decide (l.dst ∈ nodes)).countP
      (fun l => decide ((renameLink μ l).dst = x) && decide ((renameLink μ l).dstPort = port)) = 0 := by
  rw [List.countP_eq_zero]
  intro l hl
  simp only [List.mem_filter] at hl
  simp only [Bool.and_eq_true, decide_eq_true_eq, not_and]
  intro e
  have e : μ l.dst = x := e
  exact absurd (e ▸ hx) (z.μ_new _ (z.live_link hl.1).2)

theorem v_inDegree {x port : Nat} {kind : Kind} (hx : g.live x = true)
    (hk : ((g.ops x).ports .incoming)[port]? = some kind) : InDegreeOk kind (linksTo g x port).length := by
  rcases z.cases3 hx with hx | hx | ⟨a, ha, rfl⟩
  · rw [z.to_old hx]
    rw [z.ins_old hx] at hk
    exact z.valid.inDegree x port kind hx hk
  · have ends : ∀ {ts : List Types.Ty}, (ts.map Kind.value ++ [.stateOrder])[port]? = some kind →
        (port < ts.length → (linksTo g x port).length = 1) → InDegreeOk kind (linksTo g x port).length := by
      intro ts hts h1
      by_cases hp : port < ts.length
      · rw [List.getElem?_append_left (by simpa using hp), List.getElem?_map, List.getElem?_eq_getElem hp] at hts
        cases hts
        exact h1 hp
      · rw [List.getElem?_append_right (by simpa using hp)] at hts
        have hm := List.mem_of_getElem? hts
        simp at hm
        subst hm
        trivial
    have h0 := (z.old_zero (z.peeled.newFresh x hx) port).1
    have h1 := z.ren_zero_to hx port
    have hc := z.count (fun l => decide (l.dst = x) && decide (l.dstPort = port))
    rw [h0, h1] at hc
    revert hk ends hc
    refine z.news_cases (φ := fun x => ((g.ops x).ports .incoming)[port]? = some kind →
      (∀ {ts : List Types.Ty}, (ts.map Kind.value ++ [.stateOrder])[port]? = some kind →
        (port < ts.length → (linksTo g x port).length = 1) → InDegreeOk kind (linksTo g x port).length) →
      (g.links.filter (fun l => decide (l.dst = x) && decide (l.dstPort = port))).length = 0 + 0 +
        (straight P.o P.out (jo ++ rest).length).countP (fun l => decide (l.dst = x) && decide (l.dstPort = port)) +
        (straight P.stopIn P.stopOut (jo ++ rest).length).countP (fun l => decide (l.dst = x) && decide (l.dstPort = port)) +
        (straight P.copy P.againOut (jo ++ rest).length).countP (fun l => decide (l.dst = x) && decide (l.dstPort = port)) +
        (straight P.againIn P.copy (ji ++ rest).length).countP (fun l => decide (l.dst = x) && decide (l.dstPort = port)) →
      InDegreeOk kind (linksTo g x port).length) ?_ ?_ ?_ ?_ ?_ ?_ ?_ ?_ hx
    · rw [z.peeled.opOut]
      intro hk ends hc
      refine ends hk fun hp => ?_
      rw [straight_to, if_pos hp, straight_to_ne z.ne_17.symm, straight_to_ne z.ne_14.symm, straight_to_ne z.ne_01] at hc
      exact hc
    · rw [z.peeled.opAgain.1]; intro hk; cases hk
    · rw [z.peeled.opAgain.2.1]; intro hk; cases hk
    · rw [z.peeled.opAgain.2.2.1]
      intro hk ends hc
      refine ends hk fun hp => ?_
      rw [straight_to_ne z.ne_14, straight_to_ne z.ne_47.symm, straight_to, if_pos hp, straight_to_ne z.ne_04] at hc
      exact hc
    · rw [z.peeled.opAgain.2.2.2]
      intro hk ends hc
      refine ends hk fun hp => ?_
      rw [straight_to_ne z.ne_01.symm, straight_to_ne z.ne_07.symm, straight_to_ne z.ne_04.symm, straight_to, if_pos hp] at hc
      exact hc
    · rw [z.peeled.opStop.1]; intro hk; cases hk
    · rw [z.peeled.opStop.2.1]; intro hk; cases hk
    · rw [z.peeled.opStop.2.2]
      intro hk ends hc
      refine ends hk fun hp => ?_
      rw [straight_to_ne z.ne_17, straight_to, if_pos hp, straight_to_ne z.ne_47, straight_to_ne z.ne_07] at hc
      exact hc
  · rw [z.to_new ha]
    rw [z.ops_new ha] at hk
    exact z.valid.inDegree a port kind (z.live_mem ha) hk

theorem v_outDegree {x port : Nat} {kind : Kind} (hx : g.live x = true)
    (hk : ((g.ops x).ports .outgoing)[port]? = some kind) : OutDegreeOk kind (linksFrom g x port).length := by
  have ends : ∀ {ts : List Types.Ty}, (ts.map Kind.value ++ [.stateOrder])[port]? = some kind →
      (port < ts.length → (linksFrom g x port).length = 1) → OutDegreeOk kind (linksFrom g x port).length := by
    intro ts hts h1
    by_cases hp : port < ts.length
    · rw [List.getElem?_append_left (by simpa using hp), List.getElem?_map, List.getElem?_eq_getElem hp] at hts
      cases hts
      exact .inr (h1 hp)
    · rw [List.getElem?_append_right (by simpa using hp)] at hts
      have hm := List.mem_of_getElem? hts
      simp at hm
      subst hm
      trivial
  rcases z.cases3 hx with hx | hx | ⟨a, ha, rfl⟩
  · by_cases ho : x = P.o
    · subst ho
      rw [z.peeled.opO] at hk
      refine ends hk fun hp => ?_
      have h0 : h.links.countP (fun l => decide (l.src = P.o) && decide (l.srcPort = port)) = 0 := by
        rw [List.countP_eq_zero]
        intro l hl
        simp [z.src_ne_o hl]
      unfold linksFrom
      rw [z.count, h0, z.ren_zero (.inr rfl), straight_from, if_pos hp, straight_from_ne (z.new_ne hx z.m_stopIn).symm,
        straight_from_ne (z.new_ne hx z.m_copy).symm, straight_from_ne (z.new_ne hx z.m_againIn).symm]
    · rw [z.outs_old hx ho] at hk
      by_cases h1 : kind.isStatic = true
      · cases kind <;> first | trivial | cases h1
      · by_cases h2 : ∃ t, kind = .value t ∧ t.copyable = true
        · obtain ⟨t, rfl, h2⟩ := h2
          exact .inl h2
        · rw [z.from_old hx ho hk (by simpa using h1) (fun t e => by
            by_contra hne
            exact h2 ⟨t, e, by simpa using hne⟩)]
          exact z.valid.outDegree x port kind hx hk
  · have h0 := (z.old_zero (z.peeled.newFresh x hx) port).2
    have h1 := z.ren_zero (.inl hx) port
    have hc := z.count (fun l => decide (l.src = x) && decide (l.srcPort = port))
    rw [h0, h1] at hc
    have hxo : P.o ≠ x := z.new_ne z.live_o hx
    revert hk ends hc hxo
    refine z.news_cases (φ := fun x => ((g.ops x).ports .outgoing)[port]? = some kind →
      (∀ {ts : List Types.Ty}, (ts.map Kind.value ++ [.stateOrder])[port]? = some kind →
        (port < ts.length → (linksFrom g x port).length = 1) → OutDegreeOk kind (linksFrom g x port).length) →
      (g.links.filter (fun l => decide (l.src = x) && decide (l.srcPort = port))).length = 0 + 0 +
        (straight P.o P.out (jo ++ rest).length).countP (fun l => decide (l.src = x) && decide (l.srcPort = port)) +
        (straight P.stopIn P.stopOut (jo ++ rest).length).countP (fun l => decide (l.src = x) && decide (l.srcPort = port)) +
        (straight P.copy P.againOut (jo ++ rest).length).countP (fun l => decide (l.src = x) && decide (l.srcPort = port)) +
        (straight P.againIn P.copy (ji ++ rest).length).countP (fun l => decide (l.src = x) && decide (l.srcPort = port)) →
      P.o ≠ x → OutDegreeOk kind (linksFrom g x port).length) ?_ ?_ ?_ ?_ ?_ ?_ ?_ ?_ hx
    · rw [z.peeled.opOut]; intro hk; cases hk
    · rw [z.peeled.opAgain.1]; intro hk; cases hk
    · rw [z.peeled.opAgain.2.1]
      intro hk ends hc hxo
      refine ends hk fun hp => ?_
      rw [straight_from_ne hxo, straight_from_ne z.ne_36.symm, straight_from_ne z.ne_03, straight_from, if_pos hp] at hc
      exact hc
    · rw [z.peeled.opAgain.2.2.1]; intro hk; cases hk
    · rw [z.peeled.opAgain.2.2.2]
      intro hk ends hc hxo
      refine ends hk fun hp => ?_
      rw [straight_from_ne hxo, straight_from_ne z.ne_06.symm, straight_from, if_pos hp, straight_from_ne z.ne_03.symm] at hc
      exact hc
    · rw [z.peeled.opStop.1]; intro hk; cases hk
    · rw [z.peeled.opStop.2.1]
      intro hk ends hc hxo
      refine ends hk fun hp => ?_
      rw [straight_from_ne hxo, straight_from, if_pos hp, straight_from_ne z.ne_06, straight_from_ne z.ne_36] at hc
      exact hc
    · rw [z.peeled.opStop.2.2]; intro hk; cases hk
  · rw [z.from_new ha]
    rw [z.ops_new ha] at hk
    exact z.valid.outDegree a port kind (z.live_mem ha) hk

theorem v_types {x : Nat} {decls : List Types.Term} (hx : g.live x = true) (hd : DeclsAt g x decls) :
    ArgsOk C decls (g.ops x) ∧ ∀ kind ∈ (g.ops x).ports .outgoing, KindOk C decls kind := by
  have hdd := z.v_decls hd
  -- the types of the loop and of its input
  have loopOut : DeclsAt h P.n decls → ∀ kind ∈ (jo ++ rest).map Kind.value ++ [.stateOrder], KindOk C decls kind := by
    intro hn kind hk
    have := (z.valid.types P.n decls z.live_n hn).2
    rw [z.loop] at this
    exact this kind hk
  have loopIn : DeclsAt h P.n decls → ∀ kind ∈ (ji ++ rest).map Kind.value ++ [.stateOrder], KindOk C decls kind := by
    intro hn kind hk
    have := (z.valid.types P.i decls (z.live_child z.i_kid)
      (.inherited ((z.tree.child_iff _ _).1 z.i_kid) z.n_not_defn hn)).2
    rw [z.op_i] at this
    exact this kind hk
  rcases z.cases3 hx with hx | hx | ⟨a, ha, rfl⟩
  · by_cases ho : x = P.o
    · subst ho
      rw [z.peeled.opO]
      exact ⟨trivial, loopOut (decls_up z.tree (hdd.1 hx) z.par_o z.n_not_defn)⟩
    · obtain ⟨h1, h2⟩ := z.valid.types x decls hx (hdd.1 hx)
      rw [z.outs_old hx ho]
      refine ⟨?_, h2⟩
      by_cases hn : x = P.n
      · rw [hn, z.peeled.opN]; trivial
      · rw [z.ops_old (z.old hx) (z.not_new hx) hn ho]; exact h1
  · have hn := hdd.2.2 hx
    refine z.news_cases (φ := fun x => ArgsOk C decls (g.ops x) ∧ ∀ kind ∈ (g.ops x).ports .outgoing, KindOk C decls kind)
      ?_ ?_ ?_ ?_ ?_ ?_ ?_ ?_ hx
    · rw [z.peeled.opOut]; exact ⟨trivial, fun _ hk => by cases hk⟩
    · rw [z.peeled.opAgain.1]; exact ⟨trivial, fun _ hk => by cases hk⟩
    · rw [z.peeled.opAgain.2.1]; exact ⟨trivial, loopIn hn⟩
    · rw [z.peeled.opAgain.2.2.1]; exact ⟨trivial, fun _ hk => by cases hk⟩
    · rw [z.peeled.opAgain.2.2.2]; exact ⟨trivial, loopOut hn⟩
    · rw [z.peeled.opStop.1]; exact ⟨trivial, fun _ hk => by cases hk⟩
    · rw [z.peeled.opStop.2.1]; exact ⟨trivial, loopOut hn⟩
    · rw [z.peeled.opStop.2.2]; exact ⟨trivial, fun _ hk => by cases hk⟩
  · rw [z.ops_new ha]
    exact z.valid.types a decls (z.live_mem ha) (hdd.2.1 a ha rfl)

/-- The constants of the result. -/
theorem const_orig {x : Nat} {t : Types.Ty} (hx : g.live x = true) (hop : g.ops x = .const t) :
    h.live (original nodes μ x) = true ∧ h.ops (original nodes μ x) = .const t := by
  rcases z.cases3 hx with hx | hx | ⟨a, ha, rfl⟩
  · have hn : x ≠ P.n := by rintro rfl; rw [z.peeled.opN] at hop; cases hop
    have ho : x ≠ P.o := by rintro rfl; rw [z.peeled.opO] at hop; cases hop
    rw [z.ops_old (z.old hx) (z.not_new hx) hn ho] at hop
    rw [z.orig_live hx]; exact ⟨hx, hop⟩
  · exfalso
    revert hop
    refine z.news_cases (φ := fun x => g.ops x = .const t → False) ?_ ?_ ?_ ?_ ?_ ?_ ?_ ?_ hx
    · rw [z.peeled.opOut]; intro e; cases e
    · rw [z.peeled.opAgain.1]; intro e; cases e
    · rw [z.peeled.opAgain.2.1]; intro e; cases e
    · rw [z.peeled.opAgain.2.2.1]; intro e; cases e
    · rw [z.peeled.opAgain.2.2.2]; intro e; cases e
    · rw [z.peeled.opStop.1]; intro e; cases e
    · rw [z.peeled.opStop.2.1]; intro e; cases e
    · rw [z.peeled.opStop.2.2]; intro e; cases e
  · rw [z.ops_new ha] at hop
    rw [z.orig_new ha]; exact ⟨z.live_mem ha, hop⟩

/-- The result of peeling is valid, if the constants that are copied are as good as the originals. -/
theorem valid_g (hconst : ∀ x t, g.live x = true → g.ops x = .const t → C.constOk (original nodes μ x) = true → C.constOk x = true) :
    Valid C g :=
  ⟨fun _ hx => z.v_tags hx, fun _ hx => z.v_ports hx, fun _ _ hp => z.v_contains hp, fun _ hx => z.v_children hx,
    z.v_entrypoint, fun _ hl _ _ hs h1 h2 => z.v_blocks hl hs h1 h2, fun _ hp hb x => z.v_acyclic hp hb x,
    fun x t hx hop => hconst x t hx hop (z.valid.constants _ t (z.const_orig hx hop).1 (z.const_orig hx hop).2),
    fun _ _ _ hx hk => z.v_inDegree hx hk, fun _ _ _ hx hk => z.v_outDegree hx hk, fun _ hl => z.v_kinds hl,
    fun _ _ hx hd => z.v_types hx hd, fun a b nm s1 s2 d1 d2 h1 h2 => z.valid.exports a b nm s1 s2 d1 d2
      (z.v_exports h1) (z.v_exports h2)⟩

end PeelAt

end Verif.Patch
