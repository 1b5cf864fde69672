import Verif.Patch.InlineCallLemmas
import Verif.Patch.Cover
import Verif.Patch.InlineDfgSim

/-!
# A Hugr and the Hugr with a call inlined look alike
-/
namespace Verif.Patch

open Verif.Graph Verif.Ops Verif.Validate Verif.Passes Verif.Dataflow

variable {Meta : Type} {C : Validate.Context} {h h0 g : Hugr Ops.Op Meta}

/-- A call of a function that is not around it, and the Hugr where it is inlined. -/
structure CallAt (C : Validate.Context) (h h0 g : Hugr Ops.Op Meta) (n f r : Nat) (name : String)
    (sig : Types.PolyFunc) (targs : List Types.Term) (inst : Types.Signature) (nodes : List Nat) (μ : Nat → Nat) : Prop where
  tree : IsTree h
  valid : Valid C h
  treeG : IsTree g
  live : h.live n = true
  call : h.ops n = .call sig targs inst
  defn : h.ops f = .funcDefn name sig
  parent : h.hier.parent f = some r
  lens : sig.body.input.length = inst.input.length ∧ sig.body.output.length = inst.output.length
  link : ∃ l ∈ h.links, l.dst = n ∧ l.dstPort = inst.input.length ∧ l.src = f
  only : ∀ l ∈ h.links, l.dst = n → l.dstPort = inst.input.length → l.src = f
  out : ¬ Inside h f n
  emptied : Emptied h n inst.input.length sig.body h0
  copied : Copied some h0 f n nodes μ g
  vacant : ∀ a ∈ nodes, ¬ IsDefn h (μ a)

/-- What a node stands for. -/
def original (nodes : List Nat) (μ : Nat → Nat) (x : Nat) : Nat :=
  match nodes.find? (fun a => μ a = x) with
  | some a => a
  | none => x

/-- The node whose children the children stand for. -/
def originalBody (nodes : List Nat) (μ : Nat → Nat) (n f x : Nat) : Nat :=
  if x = n then f else original nodes μ x

namespace CallAt

variable {n f r : Nat} {name : String} {sig : Types.PolyFunc} {targs : List Types.Term} {inst : Types.Signature}
  {nodes : List Nat} {μ : Nat → Nat} (z : CallAt C h h0 g n f r name sig targs inst nodes μ)
include z

theorem mem (a : Nat) : a ∈ nodes ↔ Inside h f a := (z.copied.mem a).trans (z.emptied.inside f a)

theorem n_out : n ∉ nodes := fun hn => z.out ((z.mem n).1 hn)

theorem f_out : f ∉ nodes := fun hn => inside_irrefl z.tree f ((z.mem f).1 hn)

theorem n_ne_f : n ≠ f := by
  rintro rfl
  have := z.call
  rw [z.defn] at this; cases this

theorem fresh {a : Nat} (ha : a ∈ nodes) : h.live (μ a) = false := by
  have := z.copied.fresh a ha
  rwa [z.emptied.live] at this

theorem live_mem {a : Nat} (ha : a ∈ nodes) : h.live a = true := by
  obtain ⟨q, hq, _⟩ := (z.mem a).1 ha
  exact (z.tree.parent_live _ _ hq).1

theorem old {x : Nat} (hx : h.live x = true) : ∀ a ∈ nodes, x ≠ μ a := by
  rintro a ha rfl
  rw [z.fresh ha] at hx; cases hx

theorem liveG (x : Nat) : g.live x = true ↔ h.live x = true ∨ ∃ a ∈ nodes, x = μ a := by
  have := z.copied.live x
  rwa [z.emptied.live] at this

theorem orig_new {a : Nat} (ha : a ∈ nodes) : original nodes μ (μ a) = a := by
  unfold original
  cases hf : nodes.find? (fun b => μ b = μ a) with
  | none => exact absurd (List.find?_eq_none.1 hf a ha) (by simp)
  | some b =>
    have h1 := List.mem_of_find?_eq_some hf
    have h2 := List.find?_some hf
    simp only [decide_eq_true_eq] at h2
    exact z.copied.inj b h1 a ha h2

omit z in
theorem orig_old {x : Nat} (hx : ∀ a ∈ nodes, x ≠ μ a) : original nodes μ x = x := by
  unfold original
  have : nodes.find? (fun b => μ b = x) = none := by
    rw [List.find?_eq_none]
    intro a ha
    simp only [decide_eq_true_eq]
    exact fun e => hx a ha e.symm
  rw [this]

/-- The node that stands for a live node stands for it. -/
theorem orig_copy {s : Nat} (hs : h.live s = true) : original nodes μ (μ s) = s := by
  by_cases hm : s ∈ nodes
  · exact z.orig_new hm
  · rw [z.copied.keep s hm]; exact orig_old (z.old hs)

theorem ops_new {a : Nat} (ha : a ∈ nodes) : g.ops (μ a) = h.ops a := by
  have h1 := (z.copied.new a ha).1
  rw [z.emptied.ops a (fun e => z.n_out (e ▸ ha))] at h1
  exact (Option.some.inj h1).symm

theorem ops_n : g.ops n = .dfg sig.body := by
  rw [(z.copied.old n (z.old z.live)).1, z.emptied.op]

theorem ops_old {x : Nat} (hx : ∀ a ∈ nodes, x ≠ μ a) (hn : x ≠ n) : g.ops x = h.ops x := by
  rw [(z.copied.old x hx).1, z.emptied.ops x hn]

theorem kids_new {a : Nat} (ha : a ∈ nodes) : g.children (μ a) = (h.children a).map μ := by
  rw [(z.copied.new a ha).2.2.2.2]
  congr 1
  change h0.hier.children a = h.hier.children a
  rw [z.emptied.hier]

theorem kids_n : g.children n = (h.children f).map μ := by
  have h1 := z.valid.children n z.live
  unfold ChildrenOk at h1
  rw [z.call] at h1
  have h2 : h0.children n = [] := by
    change h0.hier.children n = []
    rw [z.emptied.hier]; exact h1
  rw [z.copied.inside, h2, List.nil_append]
  congr 1
  change h0.hier.children f = h.hier.children f
  rw [z.emptied.hier]

theorem kids_old {x : Nat} (hx : ∀ a ∈ nodes, x ≠ μ a) (hn : x ≠ n) : g.children x = h.children x := by
  rw [(z.copied.old x hx).2.2.2.2.2 hn]
  change h0.hier.children x = h.hier.children x
  rw [z.emptied.hier]

theorem child_mem {a c : Nat} (ha : a ∈ nodes ∨ a = f) (hc : c ∈ h.children a) : c ∈ nodes := by
  rw [z.mem]
  have hp := (z.tree.child_iff _ _).1 hc
  rcases ha with ha | rfl
  · obtain ⟨q, hq, hqr⟩ := (z.mem a).1 ha
    exact ⟨a, hp, .step hq hqr⟩
  · exact .child hp

theorem parent_old {x : Nat} (hx : ∀ a ∈ nodes, x ≠ μ a) : g.hier.parent x = h.hier.parent x := by
  rw [(z.copied.old x hx).2.2.2.2.1, z.emptied.hier]

theorem parent_new {a q : Nat} (ha : a ∈ nodes) (hq : h.hier.parent a = some q) :
    g.hier.parent (μ a) = some (if q = f then n else μ q) := by
  rw [z.copied.parent a ha q (by rw [z.emptied.hier]; exact hq)]

/-- What is inside the copy is a copy. -/
theorem inside_copy {p x : Nat} (hp : p = n ∨ ∃ a ∈ nodes, p = μ a) (hi : Inside g p x) :
    ∃ b ∈ nodes, x = μ b := by
  obtain ⟨q, hq, ha⟩ := hi
  have key : ∀ y, Above g.hier.parent y p → ∀ x, g.hier.parent x = some y → ∃ b ∈ nodes, x = μ b := by
    intro y hy
    have hbase : ∀ x, g.hier.parent x = some p → ∃ b ∈ nodes, x = μ b := by
      intro x hx
      have hx := (z.treeG.child_iff _ _).2 hx
      change x ∈ g.children p at hx
      rcases hp with rfl | ⟨a, ham, rfl⟩
      · rw [z.kids_n] at hx
        obtain ⟨b, hb, rfl⟩ := List.mem_map.1 hx
        exact ⟨b, z.child_mem (.inr rfl) hb, rfl⟩
      · rw [z.kids_new ham] at hx
        obtain ⟨b, hb, rfl⟩ := List.mem_map.1 hx
        exact ⟨b, z.child_mem (.inl ham) hb, rfl⟩
    clear ha hp
    induction hy with
    | refl => exact hbase
    | @step y w p hw _ ih =>
      intro x hx
      obtain ⟨b, hb, rfl⟩ := ih hbase y hw
      have hx := (z.treeG.child_iff _ _).2 hx
      change x ∈ g.children _ at hx
      rw [z.kids_new hb] at hx
      obtain ⟨c, hc, rfl⟩ := List.mem_map.1 hx
      exact ⟨c, z.child_mem (.inl hb) hc, rfl⟩
  exact key q ha x hq

/-- Copies are inside the node that was the call. -/
theorem copy_inside {a : Nat} (ha : a ∈ nodes) : Inside g n (μ a) := by
  obtain ⟨q, hq, hqf⟩ := (z.mem a).1 ha
  have key : ∀ q, Above h.hier.parent q f → ∀ a ∈ nodes, h.hier.parent a = some q → Inside g n (μ a) := by
    intro q hqf
    generalize hr : f = f' at hqf
    induction hqf with
    | refl q =>
      intro a ha hq
      have := z.parent_new ha hq
      rw [if_pos hr.symm] at this
      exact .child this
    | @step q w f'' hw h1 ih =>
      intro a ha hq
      have h2 := z.parent_new ha hq
      by_cases e : q = f
      · rw [if_pos e] at h2
        exact .child h2
      · rw [if_neg e] at h2
        subst hr
        have hqm : q ∈ nodes := (z.mem q).2 ⟨w, hw, h1⟩
        exact (ih rfl q hqm hw).trans (.child h2)
  exact key q hqf a ha hq

/-- Above copies there are copies, and what is above the call. -/
theorem above_copy {x q : Nat} (ha : Above g.hier.parent x q) :
    ∀ b ∈ nodes, x = μ b → (∀ a ∈ nodes, q ≠ μ a) → Above h.hier.parent n q := by
  have hold : ∀ {x q}, Above g.hier.parent x q → h.live x = true → Above h.hier.parent x q := by
    intro x q ha
    induction ha with
    | refl => exact fun _ => .refl _
    | step hp _ ih =>
      intro hx
      rw [z.parent_old (z.old hx)] at hp
      exact .step hp (ih (z.tree.parent_live _ _ hp).2)
  induction ha with
  | refl => rintro b hb rfl hq; exact absurd rfl (hq b hb)
  | @step x p q hp hpq ih =>
    rintro b hb rfl hq
    obtain ⟨w, hw, hwf⟩ := (z.mem b).1 hb
    have h1 := z.parent_new hb hw
    rw [hp] at h1
    by_cases e : w = f
    · rw [if_pos e] at h1; cases h1
      exact hold hpq z.live
    · rw [if_neg e] at h1; cases h1
      refine ih w ?_ rfl hq
      rcases above_cases hwf with e' | ⟨y, hy, hyf⟩
      · exact absurd e' e
      · exact (z.mem w).2 ⟨y, hy, hyf⟩

/-- A link of the result. -/
theorem links {l : Link} (hl : l ∈ g.links) :
    (l ∈ h.links ∧ (l.dst = n → l.dstPort < inst.input.length)) ∨
    (l.dst = n ∧ l.dstPort = inst.input.length ∧ ⟨l.src, l.srcPort, n, inst.input.length + 1⟩ ∈ h.links) ∨
    ∃ s d, ⟨s, l.srcPort, d, l.dstPort⟩ ∈ h.links ∧ d ∈ nodes ∧ l.src = μ s ∧ l.dst = μ d := by
  have h0l : ∀ l ∈ h0.links, (l ∈ h.links ∧ (l.dst = n → l.dstPort < inst.input.length)) ∨
      (l.dst = n ∧ l.dstPort = inst.input.length ∧ ⟨l.src, l.srcPort, n, inst.input.length + 1⟩ ∈ h.links) := by
    intro l hl
    rw [z.emptied.links, List.mem_append] at hl
    rcases hl with hl | hl
    · rw [List.mem_filter] at hl
      refine .inl ⟨hl.1, fun e => ?_⟩
      have := hl.2
      simp only [e, ne_eq, not_true_eq_false, decide_false, Bool.false_or, decide_eq_true_eq] at this
      exact this
    · simp only [List.mem_map, List.mem_filter, Bool.and_eq_true, decide_eq_true_eq] at hl
      obtain ⟨k, ⟨hk, e1, e2⟩, rfl⟩ := hl
      refine .inr ⟨rfl, rfl, ?_⟩
      rw [← e1, ← e2]; exact hk
  rw [z.copied.links, List.mem_append] at hl
  rcases hl with hl | hl
  · rcases h0l l hl with h1 | h1
    · exact .inl h1
    · exact .inr (.inl h1)
  · simp only [List.mem_map, List.mem_filter, Bool.or_eq_true, decide_eq_true_eq] at hl
    obtain ⟨k, ⟨hk, hor⟩, rfl⟩ := hl
    right; right
    rcases h0l k hk with ⟨h1, _⟩ | ⟨h1, h2, h3⟩
    · refine ⟨k.src, k.dst, h1, ?_, rfl, rfl⟩
      rcases hor with hs | hd
      · exact (z.mem _).2 (link_leave z.valid z.defn z.parent h1 ((z.mem _).1 hs))
      · exact hd
    · exfalso
      rcases hor with hs | hd
      · exact z.out (link_leave z.valid z.defn z.parent h3 ((z.mem _).1 hs))
      · rw [h1] at hd; exact z.n_out hd

theorem link_old {l : Link} (hl : l ∈ h.links) (hn : l.dst = n → l.dstPort < inst.input.length) : l ∈ g.links := by
  rw [z.copied.links, List.mem_append, z.emptied.links, List.mem_append, List.mem_filter]
  refine .inl (.inl ⟨hl, ?_⟩)
  by_cases e : l.dst = n
  · simp [hn e]
  · simp [e]

theorem link_new {s sp d dp : Nat} (hl : ⟨s, sp, d, dp⟩ ∈ h.links) (hd : d ∈ nodes) :
    ⟨μ s, sp, μ d, dp⟩ ∈ g.links := by
  rw [z.copied.links, List.mem_append]
  right
  simp only [List.mem_map, List.mem_filter, Bool.or_eq_true, decide_eq_true_eq]
  refine ⟨⟨s, sp, d, dp⟩, ⟨?_, .inr hd⟩, rfl⟩
  rw [z.emptied.links, List.mem_append, List.mem_filter]
  refine .inl ⟨hl, ?_⟩
  have : d ≠ n := fun e => z.n_out (e ▸ hd)
  simp [this]

theorem enter {s sp d dp : Nat} (hl : ⟨s, sp, d, dp⟩ ∈ h.links) (hd : d ∈ nodes) :
    s ∈ nodes ∨ h.hier.parent s = some r ∧
      ∃ kind, ((h.ops d).ports .incoming)[dp]? = some kind ∧ kind.isStatic = true := by
  rcases link_enter z.valid z.defn z.parent hl ((z.mem d).1 hd) with h1 | h1
  · exact .inl ((z.mem s).2 h1)
  · exact .inr h1

/-- Functions are not inside functions. -/
theorem not_defn {a : Nat} (ha : a ∈ nodes) : (∀ s t, h.ops a ≠ .funcDefn s t) ∧ ∀ s t, h.ops a ≠ .funcDecl s t := by
  obtain ⟨q, hq, hqf⟩ := (z.mem a).1 ha
  have hmod := func_parent z.valid z.defn z.parent
  have hne : h.ops q ≠ .module := by
    intro e
    rcases above_cases hqf with e' | ⟨y, hy, _⟩
    · rw [e', z.defn] at e; cases e
    · rw [module_top z.valid e] at hy; cases hy
  have := z.valid.contains a q hq
  unfold MayContain at this
  constructor
  all_goals
    intro s t e
    rw [e] at this
    cases hop : h.ops q <;> rw [hop] at this <;> simp [DataflowChild] at this
    exact hne hop

omit z in
theorem block_flow (hv : Valid C h) {l : Link} (hl : l ∈ h.links)
    (hb : ∃ x y z, h.ops l.src = .dataflowBlock x y z) :
    ∃ q, h.hier.parent l.src = some q ∧ h.hier.parent l.dst = some q := by
  obtain ⟨x, y, w, hb⟩ := hb
  obtain ⟨kind, hs, _, p, hp, hor⟩ := hv.kinds l hl
  unfold srcKind at hs
  rw [hb] at hs
  have hk : kind = .controlFlow := by
    have := List.mem_of_getElem? hs
    simp [Op.ports] at this
    exact this.2
  subst hk
  rcases hor with hd | ⟨_, _, _, _, ⟨hst, _⟩ | ⟨⟨_, e, _⟩, _⟩⟩
  · exact ⟨p, hp, hd⟩
  · cases hst
  · cases e

theorem same_old {x : Nat} (hx : ∀ a ∈ nodes, x ≠ μ a) (hn : x ≠ n) :
    Same h g (original nodes μ) (originalBody nodes μ n f) x := by
  unfold Same originalBody
  rw [if_neg hn, orig_old hx]
  exact ⟨rfl, z.ops_old hx hn⟩

theorem ne_n {a : Nat} (ha : a ∈ nodes) : μ a ≠ n := fun e => z.old z.live a ha e.symm

theorem same_new {a : Nat} (ha : a ∈ nodes) :
    Same h g (original nodes μ) (originalBody nodes μ n f) (μ a) := by
  unfold Same originalBody
  rw [if_neg (z.ne_n ha), z.orig_new ha]
  exact ⟨rfl, z.ops_new ha⟩

theorem body_n : originalBody nodes μ n f n = f := if_pos rfl

theorem body_new {a : Nat} (ha : a ∈ nodes) : originalBody nodes μ n f (μ a) = a := by
  have := (z.same_new ha).1
  rw [this, z.orig_new ha]

theorem body_old {x : Nat} (hx : ∀ a ∈ nodes, x ≠ μ a) (hn : x ≠ n) : originalBody nodes μ n f x = x := by
  rw [(z.same_old hx hn).1, orig_old hx]

theorem live_link {l : Link} (hl : l ∈ h.links) : h.live l.src = true ∧ h.live l.dst = true :=
  ⟨(live_of_link z.tree z.valid hl).1.1, (live_of_link z.tree z.valid hl).2.1⟩

theorem unfolded_n {x : Nat}
    (hu : Unfolded h g (original nodes μ) (originalBody nodes μ n f) x) : x = n := by
  by_contra hn
  obtain ⟨_, _, _, _, e1, e2, _⟩ := hu
  have hs : Same h g (original nodes μ) (originalBody nodes μ n f) x := by
    by_cases hx : ∃ a ∈ nodes, x = μ a
    · obtain ⟨a, ha, rfl⟩ := hx
      exact z.same_new ha
    · exact z.same_old (fun a ha e => hx ⟨a, ha, e⟩) hn
  rw [hs.2, e1] at e2; cases e2

/-- The Hugrs look alike. -/
theorem cover : Cover h g (fun _ => True) (original nodes μ) (originalBody nodes μ n f) := by
  have nkids : numIns (g.ops n) = inst.input.length := by rw [z.ops_n, (num_dfg _).1, z.lens.1]
  have orig_n : original nodes μ n = n := orig_old (z.old z.live)
  have cases3 : ∀ x, x = n ∨ ((∀ a ∈ nodes, x ≠ μ a) ∧ x ≠ n) ∨ ∃ a ∈ nodes, x = μ a := by
    intro x
    by_cases e : x = n
    · exact .inl e
    · by_cases hx : ∃ a ∈ nodes, x = μ a
      · exact .inr (.inr hx)
      · exact .inr (.inl ⟨fun a ha e => hx ⟨a, ha, e⟩, e⟩)
  have hchild : ∀ p c, c ∈ g.children p → g.hier.parent c = some p := fun p c hc => (z.treeG.child_iff _ _).1 hc
  have mapid : ∀ x, (h.children x).map (original nodes μ) = h.children x := by
    intro x
    rw [List.map_congr_left (g := id)]
    · simp
    · intro c hc
      exact orig_old (z.old (z.tree.parent_live _ _ ((z.tree.child_iff _ _).1 hc)).1)
  have mapmap : ∀ x, (x ∈ nodes ∨ x = f) → ((h.children x).map μ).map (original nodes μ) = h.children x := by
    intro x hx
    rw [List.map_map, List.map_congr_left (g := id)]
    · simp
    · intro c hc
      exact z.orig_new (z.child_mem hx hc)
  have used_n : ∀ {port}, Used h g (original nodes μ) n port → port < inst.input.length := by
    intro port hu
    rcases hu with hu | hu
    · rwa [nkids] at hu
    · rw [z.ops_n, orig_n, z.call] at hu; cases hu
  refine ⟨z.treeG, z.tree, ?_, fun _ _ _ _ => trivial, ?_, ?_, ?_, ?_, ?_, ?_, ?_, ?_, ?_, ?_, ?_,
    fun l hl hb => block_flow z.valid hl hb⟩
  · -- kids
    intro x _
    rcases cases3 x with rfl | ⟨hl, hn⟩ | ⟨a, ha, rfl⟩
    · rw [z.body_n, z.kids_n]; exact mapmap f (.inr rfl)
    · rw [z.body_old hl hn, z.kids_old hl hn]; exact mapid x
    · rw [z.body_new ha, z.kids_new ha]; exact mapmap a (.inl ha)
  · -- inj
    intro x a b _ ha hb e
    rcases cases3 x with rfl | ⟨hl, hn⟩ | ⟨y, hy, rfl⟩
    · rw [z.kids_n] at ha hb
      obtain ⟨a, ha', rfl⟩ := List.mem_map.1 ha
      obtain ⟨b, hb', rfl⟩ := List.mem_map.1 hb
      rw [z.orig_new (z.child_mem (.inr rfl) ha'), z.orig_new (z.child_mem (.inr rfl) hb')] at e
      rw [e]
    · rw [z.kids_old hl hn] at ha hb
      rw [orig_old (z.old (z.tree.parent_live _ _ ((z.tree.child_iff _ _).1 ha)).1),
        orig_old (z.old (z.tree.parent_live _ _ ((z.tree.child_iff _ _).1 hb)).1)] at e
      exact e
    · rw [z.kids_new hy] at ha hb
      obtain ⟨a, ha', rfl⟩ := List.mem_map.1 ha
      obtain ⟨b, hb', rfl⟩ := List.mem_map.1 hb
      rw [z.orig_new (z.child_mem (.inl hy) ha'), z.orig_new (z.child_mem (.inl hy) hb')] at e
      rw [e]
  · -- node
    intro x _
    rcases cases3 x with rfl | ⟨hl, hn⟩ | ⟨a, ha, rfl⟩
    · right
      refine ⟨sig, targs, inst, sig.body, by rw [orig_n]; exact z.call, z.ops_n, z.lens.1, z.lens.2, ?_, ?_, ?_⟩
      · rw [z.body_n]; exact ⟨_, _, z.defn⟩
      · rw [z.body_n, orig_n]; exact z.link
      · rw [z.body_n, orig_n]; exact z.only
    · exact .inl (z.same_old hl hn)
    · exact .inl (z.same_new ha)
  · -- link
    intro l hl _ hu
    refine ⟨trivial, ?_⟩
    rcases z.links hl with ⟨h1, _⟩ | ⟨e1, e2, _⟩ | ⟨s, d, h1, hd, e1, e2⟩
    · obtain ⟨a, b⟩ := z.live_link h1
      rw [orig_old (z.old a), orig_old (z.old b)]
      exact h1
    · rw [e1] at hu
      have := used_n hu
      omega
    · obtain ⟨a, b⟩ := z.live_link h1
      rw [e1, e2, z.orig_copy a, z.orig_copy b]
      exact h1
  · -- lift
    intro x port s sp _ hu hl
    rcases cases3 x with rfl | ⟨hl', hn⟩ | ⟨a, ha, rfl⟩
    · rw [orig_n] at hl
      exact ⟨s, z.link_old hl (fun _ => used_n hu), orig_old (z.old (z.live_link hl).1)⟩
    · rw [orig_old hl'] at hl
      exact ⟨s, z.link_old hl (fun e => absurd e hn), orig_old (z.old (z.live_link hl).1)⟩
    · rw [z.orig_new ha] at hl
      exact ⟨μ s, z.link_new hl ha, z.orig_copy (z.live_link hl).1⟩
  · -- scope
    intro x q l hl _ hq hvl hi hc
    rcases z.links hl with ⟨h1, _⟩ | ⟨e1, e2, _⟩ | ⟨s, d, h1, hd, e1, e2⟩
    · obtain ⟨a, b⟩ := z.live_link h1
      rw [orig_old (z.old a)] at hc
      rcases cases3 x with rfl | ⟨hl', hn⟩ | ⟨y, hy, rfl⟩
      · exfalso
        have hq' : q = x := by
          rcases hq with hq | ⟨_, _, _, _, hq⟩
          · exact hq
          · rw [z.ops_n] at hq; cases hq
        subst hq'
        obtain ⟨b', hb', e⟩ := z.inside_copy (.inl rfl) hi
        exact z.old b b' hb' e
      · rw [z.body_old hl' hn] at hc
        rw [z.kids_old hl' hn]; exact hc
      · exfalso
        have hq' : q = n ∨ ∃ a ∈ nodes, q = μ a := by
          rcases hq with hq | ⟨hq, _⟩
          · exact .inr ⟨y, hy, hq⟩
          · obtain ⟨w, hw, hwf⟩ := (z.mem y).1 hy
            have h2 := z.parent_new hy hw
            rw [hchild _ _ hq] at h2
            by_cases e : w = f
            · rw [if_pos e] at h2; exact .inl (Option.some.inj h2)
            · rw [if_neg e] at h2
              rcases above_cases hwf with e' | ⟨v, hv, hvf⟩
              · exact absurd e' e
              · exact .inr ⟨w, (z.mem w).2 ⟨v, hv, hvf⟩, Option.some.inj h2⟩
        obtain ⟨b', hb', e⟩ := z.inside_copy hq' hi
        exact z.old b b' hb' e
    · unfold VLink at hvl
      rw [e1, nkids] at hvl
      omega
    · obtain ⟨a, b⟩ := z.live_link h1
      rw [e1, z.orig_copy a] at hc
      rw [e1]
      rcases cases3 x with rfl | ⟨hl', hn⟩ | ⟨y, hy, rfl⟩
      · rw [z.body_n] at hc
        rw [z.kids_n]; exact List.mem_map_of_mem hc
      · rw [z.body_old hl' hn] at hc
        rw [z.kids_old hl' hn]
        by_cases hs : s ∈ nodes
        · exfalso
          -- `x` is around the source, and around the call
          have hxf : Above h.hier.parent x f := by
            obtain ⟨w, hw, hwf⟩ := (z.mem s).1 hs
            have := (z.tree.child_iff _ _).1 hc
            rw [hw] at this; cases this
            exact hwf
          have hqold : (∀ a ∈ nodes, q ≠ μ a) ∧ Above h.hier.parent q f := by
            rcases hq with rfl | ⟨hq, _, _, _, hb⟩
            · exact ⟨hl', hxf⟩
            · have h2 := hchild _ _ hq
              rw [z.parent_old hl'] at h2
              refine ⟨z.old (z.tree.parent_live _ _ h2).2, ?_⟩
              rcases above_cases hxf with e | ⟨v, hv, hvf⟩
              · rw [z.ops_old hl' hn, e, z.defn] at hb; cases hb
              · rw [h2] at hv; cases hv; exact hvf
          have h3 := z.above_copy hi.above d hd e2 hqold.1
          have h4 := h3.trans hqold.2
          exact z.out ((inside_iff z.tree).2 ⟨h4, z.n_ne_f⟩)
        · rw [z.copied.keep s hs]; exact hc
      · rw [z.body_new hy] at hc
        rw [z.kids_new hy]; exact List.mem_map_of_mem hc
  · -- closed
    intro x _ hu l hl hvl hi
    have := z.unfolded_n hu
    subst this
    obtain ⟨b', hb', e⟩ := z.inside_copy (.inl rfl) hi
    rcases z.links hl with ⟨h1, _⟩ | ⟨e1, e2, _⟩ | ⟨s, d, h1, hd, e1, e2⟩
    · exact absurd e (z.old (z.live_link h1).2 b' hb')
    · unfold VLink at hvl
      rw [e1, nkids] at hvl
      omega
    · rcases z.enter h1 hd with hs | ⟨_, kind, hk, hst⟩
      · rw [e1]; exact z.copy_inside hs
      · exfalso
        unfold VLink at hvl
        rw [e2, z.ops_new hd] at hvl
        obtain ⟨t, ht⟩ := in_kind (z.valid.tags d (z.live_mem hd)) hvl
        rw [hk] at ht
        rw [Option.some.inj ht] at hst
        cases hst
  · -- defn
    intro x
    unfold IsDefn
    rcases cases3 x with rfl | ⟨hl, hn⟩ | ⟨a, ha, rfl⟩
    · rw [z.ops_n, z.call]; simp
    · rw [z.ops_old hl hn]
    · constructor
      · rintro ⟨s, t, e⟩
        rw [z.ops_new ha] at e
        exact absurd e ((z.not_defn ha).1 s t)
      · exact fun hd => absurd hd (z.vacant a ha)
  · -- defnD
    intro x hx
    refine ⟨trivial, ?_⟩
    rcases cases3 x with rfl | ⟨hl, hn⟩ | ⟨a, ha, rfl⟩
    · obtain ⟨_, _, e⟩ := hx
      rw [z.ops_n] at e; cases e
    · exact ⟨orig_old hl, z.body_old hl hn⟩
    · obtain ⟨s, t, e⟩ := hx
      rw [z.ops_new ha] at e
      exact absurd e ((z.not_defn ha).1 s t)
  · -- fixed
    intro l hl _ hop hp
    rcases z.links hl with ⟨h1, _⟩ | ⟨e1, e2, _⟩ | ⟨s, d, h1, hd, e1, e2⟩
    · exact orig_old (z.old (z.live_link h1).1)
    · rw [e1, z.ops_n] at hop
      rcases hop with ⟨_, _, _, e⟩ | ⟨_, _, _, e⟩ <;> cases e
    · have hs : s ∉ nodes := by
        intro hs
        rw [e2, z.ops_new hd] at hop hp
        obtain ⟨kind, k1, k2⟩ := link_kinds z.valid h1
        simp only [] at k1 k2
        have hk : ∃ sg, kind = .function sg := by
          rcases hop with ⟨sg, ta, is, e⟩ | ⟨sg, ta, is, e⟩
          · rw [e, numIns_call] at hp
            rw [e, hp, call_ports] at k2
            exact ⟨sg, by simpa using k2.symm⟩
          · rw [e, numIns_loadFunction] at hp
            rw [e, hp] at k2
            exact ⟨sg, by simpa [Op.ports] using k2.symm⟩
        obtain ⟨sg, rfl⟩ := hk
        have hm := List.mem_of_getElem? k1
        obtain ⟨n1, n2⟩ := z.not_defn hs
        simp only [] at hm
        cases ho : h.ops s <;> rw [ho] at hm <;> simp [Op.ports] at hm
        · exact n1 _ _ ho
        · exact n2 _ _ ho
      rw [e1, z.orig_copy (z.live_link h1).1, z.copied.keep s hs]
  · -- arms
    rintro x c _ ⟨x1, x2, x3, hop⟩ hc
    rcases cases3 x with rfl | ⟨hl, hn⟩ | ⟨a, ha, rfl⟩
    · rw [z.ops_n] at hop; cases hop
    · rw [z.kids_old hl hn] at hc
      have hp := (z.tree.child_iff _ _).1 hc
      refine z.same_old (z.old (z.tree.parent_live _ _ hp).1) ?_
      rintro rfl
      have := z.valid.contains c x hp
      rw [← z.ops_old hl hn, hop, z.call] at this
      exact this
    · rw [z.kids_new ha] at hc
      obtain ⟨c, hc', rfl⟩ := List.mem_map.1 hc
      exact z.same_new (z.child_mem (.inl ha) hc')
  · -- flow
    rintro l hl ⟨x1, x2, x3, hop⟩
    rcases z.links hl with ⟨h1, _⟩ | ⟨e1, e2, h1⟩ | ⟨s, d, h1, hd, e1, e2⟩
    · obtain ⟨a, b⟩ := z.live_link h1
      rw [z.parent_old (z.old a), z.parent_old (z.old b)]
      by_cases hn : l.src = n
      · rw [hn, z.ops_n] at hop; cases hop
      · rw [z.ops_old (z.old a) hn] at hop
        exact block_flow z.valid h1 ⟨_, _, _, hop⟩
    · exfalso
      obtain ⟨kind, k1, k2⟩ := link_kinds z.valid h1
      have a := (z.live_link h1).1
      simp only [] at k1 k2 a
      by_cases hn : l.src = n
      · rw [hn, z.ops_n] at hop; cases hop
      · rw [z.ops_old (z.old a) hn] at hop
        unfold srcKind at k1
        simp only [] at k1
        rw [hop] at k1
        have hm := List.mem_of_getElem? k1
        rw [z.call, call_ports] at k2
        have : kind = .stateOrder := by simpa using k2.symm
        rw [this] at hm
        simp [Op.ports] at hm
    · obtain ⟨a, b⟩ := z.live_link h1
      by_cases hs : s ∈ nodes
      · rw [e1, z.ops_new hs] at hop
        obtain ⟨q, q1, q2⟩ := block_flow z.valid h1 ⟨_, _, _, hop⟩
        refine ⟨_, by rw [e1]; exact z.parent_new hs q1, by rw [e2]; exact z.parent_new hd q2⟩
      · exfalso
        rcases z.enter h1 hd with hs' | ⟨hp, kind, hk, hst⟩
        · exact hs hs'
        · have hn : s ≠ n := by
            rintro rfl
            rw [e1, z.copied.keep s hs, z.ops_n] at hop; cases hop
          rw [e1, z.copied.keep s hs, z.ops_old (z.old a) hn] at hop
          have := z.valid.contains s r hp
          rw [hop, func_parent z.valid z.defn z.parent] at this
          exact this

end CallAt
end Verif.Patch
