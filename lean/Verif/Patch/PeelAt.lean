import Verif.Patch.PeelRuns
import Verif.Patch.PeelLemmas
import Verif.Patch.InlineCallRuns

/-!
# A Hugr and the Hugr with a loop peeled look alike
-/
namespace Verif.Patch

open Verif.Graph Verif.Ops Verif.Validate Verif.Passes Verif.Dataflow

variable {Meta : Type} {C : Validate.Context} {h g : Hugr Ops.Op Meta}

/-- A loop of a valid Hugr, and the Hugr where it is peeled. -/
structure PeelAt (C : Validate.Context) (h g : Hugr Ops.Op Meta) (P : PeelNodes) (r : Nat) (ji jo rest : List Types.Ty)
    (nodes : List Nat) (μ : Nat → Nat) : Prop where
  tree : IsTree h
  valid : Valid C h
  treeG : IsTree g
  loop : h.ops P.n = .tailLoop ji jo rest
  parent : h.hier.parent P.n = some r
  peeled : LoopPeeled h P ji jo rest nodes μ g
  vacant : ∀ x, x ∈ P.news ∨ (∃ a ∈ nodes, x = μ a) → ¬ IsDefn h x

/-- Functions are in the module. -/
theorem defn_parent (hv : Valid C h) {f q : Nat} (hf : (∃ s t, h.ops f = .funcDefn s t) ∨ ∃ s t, h.ops f = .funcDecl s t)
    (hp : h.hier.parent f = some q) : h.ops q = .module := by
  have := hv.contains f q hp
  unfold MayContain at this
  rcases hf with ⟨s, t, e⟩ | ⟨s, t, e⟩
  all_goals
    rw [e] at this
    cases hq : h.ops q <;> rw [hq] at this <;> simp [DataflowChild] at this

/-- Blocks are in graphs of control flow. -/
theorem block_parent (hv : Valid C h) {b q : Nat} {x y : List Types.Ty} {z : List (List Types.Ty)} (hb : h.ops b = .dataflowBlock x y z)
    (hp : h.hier.parent b = some q) : ∃ sig, h.ops q = .cfg sig := by
  have := hv.contains b q hp
  unfold MayContain at this
  rw [hb] at this
  cases hq : h.ops q <;> rw [hq] at this <;> simp [DataflowChild] at this
  exact ⟨_, rfl⟩

/-- No link leaves a loop. -/
theorem loop_leave (hv : Valid C h) {n : Nat} {ji jo rest : List Types.Ty} (hn : h.ops n = .tailLoop ji jo rest) {l : Link}
    (hl : l ∈ h.links) (hi : Inside h n l.src) : Inside h n l.dst := by
  obtain ⟨p', hp', ha'⟩ := hi
  obtain ⟨kind, _, _, p, hp, hor⟩ := hv.kinds l hl
  rw [hp'] at hp; cases hp
  rcases hor with hd | ⟨q, a, hq, hqa, ⟨_, ha⟩ | ⟨_, ⟨ha, _⟩ | ⟨g, sig', entry, rest, hne, hpg, hag, hcfg, _⟩⟩⟩
  · exact ⟨_, hd, ha'⟩
  · exact ⟨q, hq, hqa.trans (.step ha ha')⟩
  · exact ⟨q, hq, hqa.trans (.step ha ha')⟩
  · rcases Dataflow.above_cases ha' with rfl | ⟨g', hg', hgf⟩
    · have := hv.contains _ _ hpg
      rw [hn, hcfg] at this
      exact this.elim
    · rw [hpg] at hg'; cases hg'
      exact ⟨q, hq, hqa.trans (.step hag hgf)⟩

namespace PeelAt

variable {P : PeelNodes} {r : Nat} {ji jo rest : List Types.Ty} {nodes : List Nat} {μ : Nat → Nat}
  (z : PeelAt C h g P r ji jo rest nodes μ)
include z

theorem mem (a : Nat) : a ∈ nodes ↔ Inside h P.n a := z.peeled.mem a

theorem live_n : h.live P.n = true := (z.tree.parent_live _ _ z.parent).1

theorem n_out : P.n ∉ nodes := fun hn => inside_irrefl z.tree _ ((z.mem _).1 hn)

theorem live_mem {a : Nat} (ha : a ∈ nodes) : h.live a = true := by
  obtain ⟨q, hq, _⟩ := (z.mem a).1 ha
  exact (z.tree.parent_live _ _ hq).1

theorem live_child {x c : Nat} (hc : c ∈ h.children x) : h.live c = true :=
  (z.tree.parent_live _ _ ((z.tree.child_iff _ _).1 hc)).1

theorem kid_mem {c : Nat} (hc : c ∈ h.children P.n) : c ∈ nodes := (z.mem c).2 (.child ((z.tree.child_iff _ _).1 hc))

theorem child_mem {a c : Nat} (ha : a ∈ nodes) (hc : c ∈ h.children a) : c ∈ nodes := by
  obtain ⟨q, hq, hqr⟩ := (z.mem a).1 ha
  exact (z.mem c).2 ⟨a, (z.tree.child_iff _ _).1 hc, .step hq hqr⟩

theorem mem_parent {a q : Nat} (ha : a ∈ nodes) (hq : h.hier.parent a = some q) (hn : q ≠ P.n) : q ∈ nodes := by
  obtain ⟨w, hw, hwf⟩ := (z.mem a).1 ha
  rw [hq] at hw; cases hw
  rcases above_cases hwf with e | ⟨y, hy, hyf⟩
  · exact absurd e hn
  · exact (z.mem q).2 ⟨y, hy, hyf⟩

theorem old {x : Nat} (hx : h.live x = true) : ∀ a ∈ nodes, x ≠ μ a := by
  rintro a ha rfl
  rw [(z.peeled.fresh a ha).1] at hx; cases hx

theorem not_new {x : Nat} (hx : h.live x = true) : x ∉ P.news := by
  intro hm
  rw [z.peeled.newFresh x hm] at hx; cases hx

theorem o_kid : P.o ∈ h.children P.n := by
  obtain ⟨cs, h1, _⟩ := z.peeled.kidsN
  rw [h1]; simp

theorem o_mem : P.o ∈ nodes := z.kid_mem z.o_kid

theorem live_o : h.live P.o = true := z.live_mem z.o_mem

theorem o_ne_n : P.o ≠ P.n := fun e => z.n_out (e ▸ z.o_mem)

theorem op_o : h.ops P.o = .output (sumOf [ji, jo] :: rest) := by
  obtain ⟨i, o, cs, h1, _, h2, _⟩ := loop_children z.valid z.live_n z.loop
  obtain ⟨cs', h3, _⟩ := z.peeled.kidsN
  rw [h1] at h3
  simp only [List.cons.injEq] at h3
  rw [← h3.2.1]; exact h2

theorem kids_o : h.children P.o = [] := by
  have := z.valid.children _ z.live_o
  unfold ChildrenOk at this
  rw [z.op_o] at this
  exact this

theorem orig_new {a : Nat} (ha : a ∈ nodes) : original nodes μ (μ a) = a := by
  unfold original
  cases hf : nodes.find? (fun b => μ b = μ a) with
  | none => exact absurd (List.find?_eq_none.1 hf a ha) (by simp)
  | some b =>
    have h1 := List.mem_of_find?_eq_some hf
    have h2 := List.find?_some hf
    simp only [decide_eq_true_eq] at h2
    exact z.peeled.inj b h1 a ha h2

theorem orig_live {x : Nat} (hx : h.live x = true) : original nodes μ x = x := CallAt.orig_old (z.old hx)

theorem orig_copy {s : Nat} (hs : h.live s = true) : original nodes μ (μ s) = s := by
  by_cases hm : s ∈ nodes
  · exact z.orig_new hm
  · rw [z.peeled.keep s hm]; exact z.orig_live hs

theorem live_link {l : Link} (hl : l ∈ h.links) : h.live l.src = true ∧ h.live l.dst = true :=
  ⟨(live_of_link z.tree z.valid hl).1.1, (live_of_link z.tree z.valid hl).2.1⟩

theorem src_ne_o {l : Link} (hl : l ∈ h.links) : l.src ≠ P.o := by
  intro e
  obtain ⟨kind, h1, _⟩ := link_kinds z.valid hl
  unfold srcKind at h1
  rw [e, z.op_o] at h1
  have := List.mem_of_getElem? h1
  simp [Op.ports] at this

theorem μ_ne {a : Nat} (ha : a ∈ nodes) {x : Nat} (hx : h.live x = true) : μ a ≠ x := fun e => z.old hx a ha e.symm

theorem μ_new (a : Nat) (ha : h.live a = true) : μ a ∉ P.news := by
  by_cases hm : a ∈ nodes
  · exact (z.peeled.fresh a hm).2
  · rw [z.peeled.keep a hm]; exact z.not_new ha

theorem μ_ne_o {s : Nat} (hs : h.live s = true) : μ s ≠ P.o := by
  intro e
  by_cases hm : s ∈ nodes
  · exact z.μ_ne hm z.live_o e
  · rw [z.peeled.keep s hm] at e
    exact hm (e ▸ z.o_mem)

theorem kids_old {x : Nat} (hx : ∀ a ∈ nodes, x ≠ μ a) (hw : x ∉ P.news) (hn : x ≠ P.n) (ho : x ≠ P.o) :
    g.children x = h.children x := ((z.peeled.old x hx hw).2.2.2 hn ho).2

theorem ops_old {x : Nat} (hx : ∀ a ∈ nodes, x ≠ μ a) (hw : x ∉ P.news) (hn : x ≠ P.n) (ho : x ≠ P.o) :
    g.ops x = h.ops x := ((z.peeled.old x hx hw).2.2.2 hn ho).1

theorem kids_new {a : Nat} (ha : a ∈ nodes) : g.children (μ a) = (h.children a).map μ := (z.peeled.new a ha).2.2.2.2

theorem ops_new {a : Nat} (ha : a ∈ nodes) : g.ops (μ a) = h.ops a := (z.peeled.new a ha).1

/-- The links of the result. -/
theorem links {l : Link} (hl : l ∈ g.links) : l ∈ h.links ∨
    (∃ s d, ⟨s, l.srcPort, d, l.dstPort⟩ ∈ h.links ∧ d ∈ nodes ∧ l.src = μ s ∧ l.dst = μ d) ∨
    (∃ p, p < (jo ++ rest).length ∧ l = ⟨P.o, p, P.out, p⟩) ∨ (∃ p, p < (jo ++ rest).length ∧ l = ⟨P.stopIn, p, P.stopOut, p⟩) ∨
    (∃ p, p < (jo ++ rest).length ∧ l = ⟨P.copy, p, P.againOut, p⟩) ∨ (∃ p, p < (ji ++ rest).length ∧ l = ⟨P.againIn, p, P.copy, p⟩) := by
  rw [z.peeled.links.mem_iff] at hl
  simp only [List.mem_append, mem_straight] at hl
  rcases hl with ((((hl | hl) | hl) | hl) | hl) | hl
  · exact .inl hl
  · right; left
    simp only [List.mem_map, List.mem_filter, Bool.or_eq_true, decide_eq_true_eq] at hl
    obtain ⟨k, ⟨hk, hor⟩, rfl⟩ := hl
    refine ⟨k.src, k.dst, hk, ?_, rfl, rfl⟩
    rcases hor with hs | hd
    · exact (z.mem _).2 (loop_leave z.valid z.loop hk ((z.mem _).1 hs))
    · exact hd
  · exact .inr (.inr (.inl (by simpa using hl)))
  · exact .inr (.inr (.inr (.inl (by simpa using hl))))
  · exact .inr (.inr (.inr (.inr (.inl (by simpa using hl)))))
  · exact .inr (.inr (.inr (.inr (.inr (by simpa using hl)))))

theorem link_old {l : Link} (hl : l ∈ h.links) : l ∈ g.links := by
  rw [z.peeled.links.mem_iff]
  simp only [List.mem_append]
  exact .inl (.inl (.inl (.inl (.inl hl))))

theorem link_new {s sp d dp : Nat} (hl : ⟨s, sp, d, dp⟩ ∈ h.links) (hd : d ∈ nodes) :
    ⟨μ s, sp, μ d, dp⟩ ∈ g.links := by
  rw [z.peeled.links.mem_iff]
  simp only [List.mem_append]
  refine .inl (.inl (.inl (.inl (.inr ?_))))
  simp only [List.mem_map, List.mem_filter, Bool.or_eq_true, decide_eq_true_eq]
  exact ⟨⟨s, sp, d, dp⟩, ⟨hl, .inr hd⟩, rfl⟩

theorem link_T {l : Link} (hl : l ∈ g.links) (hT : l.dst ∉ P.news) : l ∈ h.links ∨
    ∃ s d, ⟨s, l.srcPort, d, l.dstPort⟩ ∈ h.links ∧ d ∈ nodes ∧ l.src = μ s ∧ l.dst = μ d := by
  rcases z.links hl with h1 | h1 | ⟨p, _, rfl⟩ | ⟨p, _, rfl⟩ | ⟨p, _, rfl⟩ | ⟨p, _, rfl⟩
  · exact .inl h1
  · exact .inr h1
  all_goals exact absurd (by simp [PeelNew.news]) hT

/-- What is inside the copy is a copy. -/
theorem inside_copy {p x : Nat} (hp : p = P.copy ∨ ∃ a ∈ nodes, p = μ a) (hi : Inside g p x) :
    ∃ b ∈ nodes, x = μ b := by
  refine inside_closed (S := fun x => ∃ b ∈ nodes, x = μ b) z.treeG ?_ ?_ hi
  · intro c hc
    rcases hp with rfl | ⟨a, ha, rfl⟩
    · rw [z.peeled.kidsCopy] at hc
      obtain ⟨b, hb, rfl⟩ := List.mem_map.1 hc
      exact ⟨b, z.kid_mem hb, rfl⟩
    · rw [z.kids_new ha] at hc
      obtain ⟨b, hb, rfl⟩ := List.mem_map.1 hc
      exact ⟨b, z.child_mem ha hb, rfl⟩
  · rintro p ⟨a, ha, rfl⟩ c hc
    rw [z.kids_new ha] at hc
    obtain ⟨b, hb, rfl⟩ := List.mem_map.1 hc
    exact ⟨b, z.child_mem ha hb, rfl⟩

theorem kids_mem {a : Nat} (ha : a ∈ nodes) (ho : a ≠ P.o) : g.children a = h.children a :=
  z.kids_old (z.old (z.live_mem ha)) (z.not_new (z.live_mem ha)) (fun e => z.n_out (e ▸ ha)) ho

/-- What is inside a node of the body, except its end, is of the body. -/
theorem inside_body {a x : Nat} (ha : a ∈ nodes) (ho : a ≠ P.o) (hi : Inside g a x) : x ∈ nodes ∧ x ≠ P.o := by
  have key : ∀ a, a ∈ nodes ∧ a ≠ P.o → ∀ c ∈ g.children a, c ∈ nodes ∧ c ≠ P.o := by
    rintro a ⟨ha, ho⟩ c hc
    rw [z.kids_mem ha ho] at hc
    refine ⟨z.child_mem ha hc, ?_⟩
    rintro rfl
    have h1 := (z.tree.child_iff _ _).1 hc
    rw [(z.tree.child_iff _ _).1 z.o_kid] at h1
    cases h1
    exact z.n_out ha
  exact inside_closed (S := fun a => a ∈ nodes ∧ a ≠ P.o) z.treeG (key a ⟨ha, ho⟩) key hi

/-- What is inside the conditional is new. -/
theorem inside_o {x : Nat} (hi : Inside g P.o x) : x ∈ P.news ∨ ∃ b ∈ nodes, x = μ b := by
  refine inside_closed (S := fun x => x ∈ P.news ∨ ∃ b ∈ nodes, x = μ b) z.treeG ?_ ?_ hi
  · intro c hc
    rw [z.peeled.kidsO] at hc
    simp only [List.mem_cons, List.not_mem_nil, or_false] at hc
    rcases hc with rfl | rfl
    all_goals exact .inl (by simp [PeelNew.news])
  · rintro p (hp | ⟨a, ha, rfl⟩) c hc
    · obtain ⟨k1, k2, k3, k4, k5⟩ := z.peeled.kidsIO
      simp only [PeelNew.news, List.mem_cons, List.not_mem_nil, or_false] at hp
      rcases hp with rfl | rfl | rfl | rfl | rfl | rfl | rfl | rfl
      · rw [z.peeled.kidsCopy] at hc
        obtain ⟨b, hb, rfl⟩ := List.mem_map.1 hc
        exact .inr ⟨b, z.kid_mem hb, rfl⟩
      · rw [k1] at hc; cases hc
      · rw [z.peeled.kidsAgain] at hc
        simp only [List.mem_cons, List.not_mem_nil, or_false] at hc
        rcases hc with rfl | rfl | rfl
        all_goals exact .inl (by simp [PeelNew.news])
      · rw [k2] at hc; cases hc
      · rw [k3] at hc; cases hc
      · rw [z.peeled.kidsStop] at hc
        simp only [List.mem_cons, List.not_mem_nil, or_false] at hc
        rcases hc with rfl | rfl
        all_goals exact .inl (by simp [PeelNew.news])
      · rw [k4] at hc; cases hc
      · rw [k5] at hc; cases hc
    · rw [z.kids_new ha] at hc
      obtain ⟨b, hb, rfl⟩ := List.mem_map.1 hc
      exact .inr ⟨b, z.child_mem ha hb, rfl⟩

/-- Functions are not in loops. -/
theorem not_defn {a : Nat} (ha : a ∈ nodes) : ¬ ((∃ s t, h.ops a = .funcDefn s t) ∨ ∃ s t, h.ops a = .funcDecl s t) := by
  intro hf
  obtain ⟨q, hq, hqf⟩ := (z.mem a).1 ha
  have e := defn_parent z.valid hf hq
  rcases above_cases hqf with e' | ⟨y, hy, _⟩
  · rw [e', z.loop] at e; cases e
  · rw [module_top z.valid e] at hy; cases hy

theorem peels : Peels h g P ji jo rest (fun x => x ∉ P.news) (original nodes μ) := by
  have hp := z.peeled
  have c1 : P.copy ∈ P.news := by simp [PeelNew.news]
  have c2 : P.out ∈ P.news := by simp [PeelNew.news]
  have c5 : P.againOut ∈ P.news := by simp [PeelNew.news]
  have c8 : P.stopOut ∈ P.news := by simp [PeelNew.news]
  have nd := hp.distinct
  simp only [PeelNew.news, List.nodup_cons, List.mem_cons, List.not_mem_nil, or_false, not_or] at nd
  obtain ⟨⟨d12, d13, d14, d15, d16, d17, d18⟩, ⟨d23, d24, d25, d26, d27, d28⟩, ⟨d34, d35, d36, d37, d38⟩,
    ⟨d45, d46, d47, d48⟩, ⟨d56, d57, d58⟩, ⟨d67, d68⟩, d78, -⟩ := nd
  -- the nodes that stand for nodes
  have cases3 : ∀ x, (∃ a ∈ nodes, x = μ a) ∨ ∀ a ∈ nodes, x ≠ μ a := by
    intro x
    by_cases hx : ∃ a ∈ nodes, x = μ a
    · exact .inl hx
    · exact .inr fun a ha e => hx ⟨a, ha, e⟩
  have mapid : ∀ x, (h.children x).map (original nodes μ) = h.children x := by
    intro x
    rw [List.map_congr_left (g := id)]
    · simp
    · intro c hc; exact z.orig_live (z.live_child hc)
  have mapmap : ∀ x, (∀ c ∈ h.children x, c ∈ nodes) → ((h.children x).map μ).map (original nodes μ) = h.children x := by
    intro x hx
    rw [List.map_map, List.map_congr_left (g := id)]
    · simp
    · intro c hc; exact z.orig_new (hx c hc)
  have body_c : P.body (original nodes μ) P.copy = P.n := if_pos rfl
  have body_T : ∀ {x}, x ∉ P.news → P.body (original nodes μ) x = original nodes μ x := fun {x} hx =>
    if_neg fun e : x = P.copy => hx (e ▸ c1)
  have dstd : ∀ {x}, x ∈ P.news → ∀ l ∈ g.links, l.dst = x →
      (∃ p, p < (jo ++ rest).length ∧ l = ⟨P.o, p, P.out, p⟩) ∨ (∃ p, p < (jo ++ rest).length ∧ l = ⟨P.stopIn, p, P.stopOut, p⟩) ∨
      (∃ p, p < (jo ++ rest).length ∧ l = ⟨P.copy, p, P.againOut, p⟩) ∨ (∃ p, p < (ji ++ rest).length ∧ l = ⟨P.againIn, p, P.copy, p⟩) := by
    intro x hx l hl e
    rcases z.links hl with h1 | ⟨s, d, h1, hd, e1, e2⟩ | h1
    · exact absurd (e ▸ hx) (z.not_new (z.live_link h1).2)
    · exact absurd (e ▸ hx) (e2 ▸ (hp.fresh d hd).2)
    · exact h1
  have defnD : ∀ f, IsDefn g f → f ∉ P.news ∧ original nodes μ f = f := by
    rintro f ⟨s, t, e⟩
    have hn : f ∉ P.news := by
      intro hm
      obtain ⟨q1, q2, q3, q4⟩ := hp.opAgain
      obtain ⟨q5, q6, q7⟩ := hp.opStop
      have q8 := hp.opOut
      simp only [PeelNew.news, List.mem_cons, List.not_mem_nil, or_false] at hm
      rcases hm with rfl | rfl | rfl | rfl | rfl | rfl | rfl | rfl <;> simp_all
    refine ⟨hn, ?_⟩
    rcases cases3 f with ⟨a, ha, rfl⟩ | hx
    · rw [z.ops_new ha] at e
      exact absurd (.inl ⟨s, t, e⟩) (z.not_defn ha)
    · exact CallAt.orig_old hx
  constructor
  · exact z.treeG
  · exact z.tree
  · exact z.loop
  · rw [z.op_o, num_output]; simp
  · rw [z.op_o]; simp [numOuts, Op.ports]
  · exact hp.opN
  · exact hp.opO
  · exact hp.opAgain.2.2.2
  · exact ⟨hp.opOut, hp.opAgain.2.1, hp.opAgain.2.2.1, hp.opStop.2.1, hp.opStop.2.2⟩
  · exact hp.kidsN
  · exact hp.kidsO
  · exact hp.kidsAgain
  · exact hp.kidsStop
  · -- old
    intro x hx
    have hl : h.live x = true := by
      rcases hx with rfl | hx
      · exact z.live_n
      · exact z.live_child hx
    exact ⟨z.not_new hl, z.orig_live hl⟩
  · -- onlyN
    intro x _ e
    rcases cases3 x with ⟨a, ha, rfl⟩ | hx
    · rw [z.orig_new ha] at e
      exact absurd (e ▸ ha) z.n_out
    · rw [CallAt.orig_old hx] at e; exact e
  · exact fun x hx hn => hn hx
  · -- kids
    rintro x (⟨hT, ho, hn⟩ | rfl)
    · rw [body_T hT]
      rcases cases3 x with ⟨a, ha, rfl⟩ | hx
      · rw [z.orig_new ha, z.kids_new ha]
        exact mapmap a fun c hc => z.child_mem ha hc
      · rw [CallAt.orig_old hx, z.kids_old hx hT hn ho]
        exact mapid x
    · rw [body_c, hp.kidsCopy]
      exact mapmap _ fun c hc => z.kid_mem hc
  · -- kidsT
    have hμ : ∀ c ∈ nodes, μ c ∉ P.news ∧ μ c ≠ P.o := fun c hc => ⟨(hp.fresh c hc).2, z.μ_ne_o (z.live_mem hc)⟩
    rintro x c (⟨hT, ho, hn⟩ | rfl) hc
    · rcases cases3 x with ⟨a, ha, rfl⟩ | hx
      · rw [z.kids_new ha] at hc
        obtain ⟨b, hb, rfl⟩ := List.mem_map.1 hc
        exact hμ b (z.child_mem ha hb)
      · rw [z.kids_old hx hT hn ho] at hc
        refine ⟨z.not_new (z.live_child hc), ?_⟩
        rintro rfl
        have h1 := (z.tree.child_iff _ _).1 hc
        rw [(z.tree.child_iff _ _).1 z.o_kid] at h1
        cases h1
        exact hn rfl
    · rw [hp.kidsCopy] at hc
      obtain ⟨b, hb, rfl⟩ := List.mem_map.1 hc
      exact hμ b (z.kid_mem hb)
  · -- inj
    rintro x a b (⟨hT, ho, hn⟩ | rfl) ha hb e
    · rcases cases3 x with ⟨y, hy, rfl⟩ | hx
      · rw [z.kids_new hy] at ha hb
        obtain ⟨a, ha', rfl⟩ := List.mem_map.1 ha
        obtain ⟨b, hb', rfl⟩ := List.mem_map.1 hb
        rw [z.orig_new (z.child_mem hy ha'), z.orig_new (z.child_mem hy hb')] at e
        rw [e]
      · rw [z.kids_old hx hT hn ho] at ha hb
        rw [z.orig_live (z.live_child ha), z.orig_live (z.live_child hb)] at e
        exact e
    · rw [hp.kidsCopy] at ha hb
      obtain ⟨a, ha', rfl⟩ := List.mem_map.1 ha
      obtain ⟨b, hb', rfl⟩ := List.mem_map.1 hb
      rw [z.orig_new (z.kid_mem ha'), z.orig_new (z.kid_mem hb')] at e
      rw [e]
  · -- same
    intro x hT hn ho
    rcases cases3 x with ⟨a, ha, rfl⟩ | hx
    · rw [z.orig_new ha, z.ops_new ha]
    · rw [CallAt.orig_old hx, z.ops_old hx hT hn ho]
  · -- link
    intro l hl hT
    rcases z.link_T hl hT with h1 | ⟨s, d, h1, hd, e1, e2⟩
    · obtain ⟨a, b⟩ := z.live_link h1
      refine ⟨⟨z.not_new a, z.src_ne_o h1⟩, ?_⟩
      rw [z.orig_live a, z.orig_live b]
      exact h1
    · obtain ⟨a, b⟩ := z.live_link h1
      rw [e1, e2, z.orig_copy a, z.orig_copy b]
      exact ⟨⟨z.μ_new s a, z.μ_ne_o a⟩, h1⟩
  · -- lift
    intro x port s sp hT hl
    rcases cases3 x with ⟨a, ha, rfl⟩ | hx
    · rw [z.orig_new ha] at hl
      exact ⟨μ s, z.link_new hl ha, z.orig_copy (z.live_link hl).1⟩
    · rw [CallAt.orig_old hx] at hl
      exact ⟨s, z.link_old hl, z.orig_live (z.live_link hl).1⟩
  · -- scope
    intro x q l hl hB hq hT hvl hi hc
    rcases hB with ⟨hxT, ho, hn⟩ | rfl
    · rw [body_T hxT] at hc
      rcases cases3 x with ⟨a, ha, rfl⟩ | hx
      · rw [z.orig_new ha] at hc
        have hq' : q = P.copy ∨ ∃ a ∈ nodes, q = μ a := by
          rcases hq with hq | ⟨hq, _⟩
          · exact .inr ⟨a, ha, hq⟩
          · obtain ⟨w, hw, hwf⟩ := (z.mem a).1 ha
            have h2 := (z.treeG.child_iff _ _).1 hq
            have haw := (z.tree.child_iff _ _).2 hw
            by_cases e : w = P.n
            · subst e
              have h3 : μ a ∈ g.children P.copy := by rw [hp.kidsCopy]; exact List.mem_map_of_mem haw
              have h3 := (z.treeG.child_iff _ _).1 h3
              rw [h2] at h3; cases h3
              exact .inl rfl
            · have hwm := z.mem_parent ha hw e
              have h3 : μ a ∈ g.children (μ w) := by rw [z.kids_new hwm]; exact List.mem_map_of_mem haw
              have h3 := (z.treeG.child_iff _ _).1 h3
              rw [h2] at h3; cases h3
              exact .inr ⟨w, hwm, rfl⟩
        obtain ⟨b, hb, e⟩ := z.inside_copy hq' hi
        rcases z.link_T hl hT with h1 | ⟨s, d, h1, hd, e1, e2⟩
        · exact absurd e (z.old (z.live_link h1).2 b hb)
        · rw [e1, z.orig_copy (z.live_link h1).1] at hc
          rw [e1, z.kids_new ha]
          exact List.mem_map_of_mem hc
      · rw [CallAt.orig_old hx] at hc
        rw [z.kids_old hx hxT hn ho]
        rcases z.link_T hl hT with h1 | ⟨s, d, h1, hd, e1, e2⟩
        · rwa [z.orig_live (z.live_link h1).1] at hc
        · rw [e1, z.orig_copy (z.live_link h1).1] at hc
          by_cases hs : s ∈ nodes
          · exfalso
            have hxm := z.mem_parent hs ((z.tree.child_iff _ _).1 hc) hn
            have hqm : q ∈ nodes ∧ q ≠ P.o := by
              rcases hq with rfl | ⟨hq, x1, x2, x3, hb⟩
              · exact ⟨hxm, ho⟩
              · obtain ⟨w, hw, _⟩ := (z.mem x).1 hxm
                rw [z.ops_old hx hxT hn ho] at hb
                obtain ⟨sg, hcfg⟩ := block_parent z.valid hb hw
                have hwn : w ≠ P.n := by rintro rfl; rw [z.loop] at hcfg; cases hcfg
                have hwo : w ≠ P.o := by rintro rfl; rw [z.op_o] at hcfg; cases hcfg
                have hwm := z.mem_parent hxm hw hwn
                have h3 : x ∈ g.children w := by
                  rw [z.kids_mem hwm hwo]; exact (z.tree.child_iff _ _).2 hw
                have h3 := (z.treeG.child_iff _ _).1 h3
                rw [(z.treeG.child_iff _ _).1 hq] at h3; cases h3
                exact ⟨hwm, hwo⟩
            have := (z.inside_body hqm.1 hqm.2 hi).1
            rw [e2] at this
            exact z.old (z.live_mem this) d hd rfl
          · rw [e1, hp.keep s hs]; exact hc
    · rw [body_c] at hc
      have hq' : q = P.copy := by
        rcases hq with hq | ⟨_, _, _, _, hq⟩
        · exact hq
        · rw [hp.opAgain.2.2.2] at hq; cases hq
      subst hq'
      obtain ⟨b, hb, e⟩ := z.inside_copy (.inl rfl) hi
      rcases z.link_T hl hT with h1 | ⟨s, d, h1, hd, e1, e2⟩
      · exact absurd e (z.old (z.live_link h1).2 b hb)
      · rw [e1, z.orig_copy (z.live_link h1).1] at hc
        rw [e1, hp.kidsCopy]
        exact List.mem_map_of_mem hc
  · -- scopeN
    intro c hc l hl hT hd hs
    have hdm : l.dst ∈ nodes := by
      rcases hd with e | ⟨ho, hi⟩
      · rw [e]; exact z.kid_mem hc
      · exact (z.inside_body (z.kid_mem hc) ho hi).1
    rcases z.link_T hl hT with h1 | ⟨s, d, h1, hd', e1, e2⟩
    · rwa [z.orig_live (z.live_link h1).1] at hs
    · exact absurd e2 (z.old (z.live_mem hdm) d hd')
  · -- scopeO
    intro l hl hT _ hi hk
    obtain ⟨cs, k1, k2⟩ := hp.kidsN
    have hk' : l.src = P.out ∨ l.src ∈ h.children P.n := by
      rw [k2] at hk
      rw [k1]
      simp only [List.mem_cons] at hk ⊢
      tauto
    obtain ⟨b, hb, e⟩ := (z.inside_o hi).resolve_left hT
    rcases z.link_T hl hT with h1 | ⟨s, d, h1, hd, e1, e2⟩
    · exact z.old (z.live_link h1).2 b hb e
    · rw [e1] at hk'
      rcases hk' with hk' | hk'
      · exact z.μ_new s (z.live_link h1).1 (hk' ▸ c2)
      · by_cases hs : s ∈ nodes
        · exact z.old (z.live_child hk') s hs rfl
        · rw [hp.keep s hs] at hk'
          exact hs (z.kid_mem hk')
  · -- feedOut
    constructor
    · intro p hlt
      rw [hp.opOut, num_output] at hlt
      rw [hp.links.mem_iff]
      simp only [List.mem_append, mem_straight]
      exact .inl (.inl (.inl (.inr ⟨p, by simpa using hlt, rfl⟩)))
    · intro l hl e _
      rcases dstd c2 l hl e with ⟨p, _, rfl⟩ | ⟨p, _, rfl⟩ | ⟨p, _, rfl⟩ | ⟨p, _, rfl⟩
      · exact ⟨rfl, rfl⟩
      · exact absurd e.symm d28
      · exact absurd e.symm d25
      · exact absurd e d12
  · -- feedAgain
    constructor
    · intro p hlt
      rw [hp.opAgain.2.2.2, (num_loop ..).1] at hlt
      rw [hp.links.mem_iff]
      simp only [List.mem_append, mem_straight]
      exact .inr ⟨p, by simpa using hlt, rfl⟩
    · intro l hl e _
      rcases dstd c1 l hl e with ⟨p, _, rfl⟩ | ⟨p, _, rfl⟩ | ⟨p, _, rfl⟩ | ⟨p, _, rfl⟩
      · exact absurd e.symm d12
      · exact absurd e.symm d18
      · exact absurd e.symm d15
      · exact ⟨rfl, rfl⟩
  · -- feedAgain'
    constructor
    · intro p hlt
      rw [hp.opAgain.2.2.1, num_output] at hlt
      rw [hp.links.mem_iff]
      simp only [List.mem_append, mem_straight]
      exact .inl (.inr ⟨p, by simpa using hlt, rfl⟩)
    · intro l hl e _
      rcases dstd c5 l hl e with ⟨p, _, rfl⟩ | ⟨p, _, rfl⟩ | ⟨p, _, rfl⟩ | ⟨p, _, rfl⟩
      · exact absurd e d25
      · exact absurd e.symm d58
      · exact ⟨rfl, rfl⟩
      · exact absurd e d15
  · -- feedStop
    constructor
    · intro p hlt
      rw [hp.opStop.2.2, num_output] at hlt
      rw [hp.links.mem_iff]
      simp only [List.mem_append, mem_straight]
      exact .inl (.inl (.inr ⟨p, by simpa using hlt, rfl⟩))
    · intro l hl e _
      rcases dstd c8 l hl e with ⟨p, _, rfl⟩ | ⟨p, _, rfl⟩ | ⟨p, _, rfl⟩ | ⟨p, _, rfl⟩
      · exact absurd e d28
      · exact ⟨rfl, rfl⟩
      · exact absurd e d58
      · exact absurd e d18
  · -- defn
    intro f
    constructor
    · intro hf
      obtain ⟨hn, e⟩ := defnD f hf
      obtain ⟨s, t, hop⟩ := hf
      rcases cases3 f with ⟨a, ha, rfl⟩ | hx
      · rw [z.ops_new ha] at hop
        exact absurd (.inl ⟨s, t, hop⟩) (z.not_defn ha)
      · refine ⟨s, t, ?_⟩
        rw [← z.ops_old hx hn (fun e => by rw [e, hp.opN] at hop; cases hop) (fun e => by rw [e, hp.opO] at hop; cases hop)]
        exact hop
    · intro hf
      have hn : f ∉ P.news := fun hm => z.vacant f (.inl hm) hf
      have hx : ∀ a ∈ nodes, f ≠ μ a := fun a ha e => z.vacant f (.inr ⟨a, ha, e⟩) hf
      obtain ⟨s, t, hop⟩ := hf
      refine ⟨s, t, ?_⟩
      rw [z.ops_old hx hn (fun e => by rw [e, z.loop] at hop; cases hop) (fun e => by rw [e, z.op_o] at hop; cases hop)]
      exact hop
  · exact defnD
  · -- fixed
    intro l hl hT hop hport
    rcases z.link_T hl hT with h1 | ⟨s, d, h1, hd, e1, e2⟩
    · exact z.orig_live (z.live_link h1).1
    · by_cases hs : s ∈ nodes
      · exfalso
        rw [e2, z.ops_new hd] at hop hport
        obtain ⟨kind, k1, k2⟩ := link_kinds z.valid h1
        have hk : ∃ sig, kind = .function sig := by
          rcases hop with ⟨sig, targs, inst, e⟩ | ⟨sig, targs, inst, e⟩
          · rw [e, numIns_call] at hport
            simp only [] at k2
            rw [e, hport, call_ports] at k2
            exact ⟨sig, by simpa using k2.symm⟩
          · rw [e, numIns_loadFunction] at hport
            simp only [] at k2
            rw [e, hport] at k2
            exact ⟨sig, by simpa [Op.ports] using k2.symm⟩
        obtain ⟨sig, rfl⟩ := hk
        unfold srcKind at k1
        have k1 := List.mem_of_getElem? k1
        refine z.not_defn hs ?_
        simp only [] at k1
        cases hops : h.ops s <;> rw [hops] at k1 <;> simp [Op.ports] at k1
        · exact .inl ⟨_, _, rfl⟩
        · exact .inr ⟨_, _, rfl⟩
      · rw [e1, hp.keep s hs]; exact z.orig_live (z.live_link h1).1
  · -- arms
    rintro x c hT ⟨x1, x2, x3, hop⟩ hc rfl
    rcases cases3 x with ⟨a, ha, rfl⟩ | hx
    · rw [z.kids_new ha] at hc
      obtain ⟨b, hb, e⟩ := List.mem_map.1 hc
      exact z.μ_ne (z.child_mem ha hb) z.live_n e
    · by_cases ho : x = P.o
      · rw [ho, hp.kidsO] at hc
        refine z.not_new z.live_n ?_
        simp only [List.mem_cons, List.not_mem_nil, or_false] at hc
        rcases hc with e | e <;> rw [e] <;> simp [PeelNew.news]
      · have hn : x ≠ P.n := fun e => by rw [e, hp.opN] at hop; cases hop
        rw [z.kids_old hx hT hn ho] at hc
        rw [z.ops_old hx hT hn ho] at hop
        have := z.valid.contains _ _ ((z.tree.child_iff _ _).1 hc)
        rw [hop, z.loop] at this
        exact this.elim
  · -- flow
    intro l hl hb
    have par : ∀ {x q}, h.hier.parent x = some q → q ≠ P.n → q ≠ P.o → g.hier.parent x = some q := by
      intro x q hx hn ho
      have hq := (z.tree.parent_live _ _ hx).2
      refine (z.treeG.child_iff _ _).1 ?_
      have : x ∈ h.children q := (z.tree.child_iff _ _).2 hx
      rw [← z.kids_old (z.old hq) (z.not_new hq) hn ho] at this
      exact this
    rcases z.links hl with h1 | ⟨s, d, h1, hd, e1, e2⟩ | h1 | h1 | h1 | h1
    · obtain ⟨x1, x2, x3, hb⟩ := hb
      obtain ⟨la, lb⟩ := z.live_link h1
      rw [z.ops_old (z.old la) (z.not_new la) (fun e => by rw [e, hp.opN] at hb; cases hb) (z.src_ne_o h1)] at hb
      obtain ⟨q, p1, p2⟩ := CallAt.block_flow z.valid h1 ⟨x1, x2, x3, hb⟩
      obtain ⟨sg, hcfg⟩ := block_parent z.valid hb p1
      have hn : q ≠ P.n := by rintro rfl; rw [z.loop] at hcfg; cases hcfg
      have ho : q ≠ P.o := by rintro rfl; rw [z.op_o] at hcfg; cases hcfg
      exact ⟨q, par p1 hn ho, par p2 hn ho⟩
    · obtain ⟨x1, x2, x3, hb⟩ := hb
      have la : h.live s = true := (z.live_link h1).1
      have hb' : h.ops s = .dataflowBlock x1 x2 x3 := by
        rw [e1] at hb
        by_cases hs : s ∈ nodes
        · rw [z.ops_new hs] at hb; exact hb
        · rw [hp.keep s hs] at hb
          rw [z.ops_old (z.old la) (z.not_new la) (fun e => by rw [e, hp.opN] at hb; cases hb) (fun e : s = P.o => hs (e ▸ z.o_mem))] at hb
          exact hb
      obtain ⟨q, p1, p2⟩ := CallAt.block_flow z.valid h1 ⟨x1, x2, x3, hb'⟩
      obtain ⟨sg, hcfg⟩ := block_parent z.valid hb' p1
      have hn : q ≠ P.n := by rintro rfl; rw [z.loop] at hcfg; cases hcfg
      have hqm := z.mem_parent hd p2 hn
      have hs := z.child_mem hqm ((z.tree.child_iff _ _).2 p1)
      refine ⟨μ q, ?_, ?_⟩
      · rw [e1]
        refine (z.treeG.child_iff _ _).1 ?_
        change _ ∈ g.children (μ q)
        rw [z.kids_new hqm]; exact List.mem_map_of_mem ((z.tree.child_iff _ _).2 p1)
      · rw [e2]
        refine (z.treeG.child_iff _ _).1 ?_
        change _ ∈ g.children (μ q)
        rw [z.kids_new hqm]; exact List.mem_map_of_mem ((z.tree.child_iff _ _).2 p2)
    · obtain ⟨p, _, rfl⟩ := h1
      obtain ⟨_, _, _, hb⟩ := hb
      rw [hp.opO] at hb; cases hb
    · obtain ⟨p, _, rfl⟩ := h1
      obtain ⟨_, _, _, hb⟩ := hb
      rw [hp.opStop.2.1] at hb; cases hb
    · obtain ⟨p, _, rfl⟩ := h1
      obtain ⟨_, _, _, hb⟩ := hb
      rw [hp.opAgain.2.2.2] at hb; cases hb
    · obtain ⟨p, _, rfl⟩ := h1
      obtain ⟨_, _, _, hb⟩ := hb
      rw [hp.opAgain.2.1] at hb; cases hb
  · exact fun l hl hb => CallAt.block_flow z.valid hl hb

end PeelAt

end Verif.Patch
