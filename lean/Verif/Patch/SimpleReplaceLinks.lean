import Verif.Patch.SimpleReplaceValid

/-!
# Replacing a subgraph keeps a Hugr valid: cycles, links
-/
namespace Verif.Patch

open Verif.Graph Verif.Ops Verif.Passes Verif.Validate Verif.Dataflow Relation

variable {Meta : Type} {C C' : Validate.Context} {h r g : Hugr Ops.Op Meta} {s : Subgraph} {i o p : Nat}
  {f : Nat → Nat}

namespace SwapAt

/-- A way into the subgraph, out of it, through the region without the subgraph. -/
def Into (h : Hugr Ops.Op Meta) (p : Nat) (s : Subgraph) (x : Nat) : Prop :=
  ∃ n ∈ s.nodes, TransGen (RegionEdge h p) x n
def OutOf (h : Hugr Ops.Op Meta) (p : Nat) (s : Subgraph) (x : Nat) : Prop :=
  ∃ n ∈ s.nodes, TransGen (RegionEdge h p) n x
def Kept (h : Hugr Ops.Op Meta) (s : Subgraph) (x : Nat) : Prop := h.live x = true ∧ x ∉ s.nodes

/-- What ways in the region of the result were. -/
inductive Way (h r : Hugr Ops.Op Meta) (p i o : Nat) (s : Subgraph) (f : Nat → Nat) : Nat → Nat → Prop
  | host {x y : Nat} : Kept h s x → Kept h s y → TransGen (RegionEdge h p) x y → Way h r p i o s f x y
  | past {x y : Nat} : Kept h s x → Kept h s y → Into h p s x → OutOf h p s y → Way h r p i o s f x y
  | into {x b : Nat} : Kept h s x → Fresh r i o b → Into h p s x → Way h r p i o s f x (f b)
  | out {a y : Nat} : Fresh r i o a → Kept h s y → OutOf h p s y → Way h r p i o s f (f a) y
  | inner {a b : Nat} : Fresh r i o a → Fresh r i o b → TransGen (RegionEdge r r.entrypoint) a b →
      Way h r p i o s f (f a) (f b)

variable (z : SwapAt C C' h r g p i o s f)
include z

theorem not_both {x : Nat} (hk : Kept h s x) (h1 : Into h p s x) (h2 : OutOf h p s x) : False := by
  obtain ⟨n, hn, h1⟩ := h1
  obtain ⟨m, hm, h2⟩ := h2
  exact z.sep.convex m x n hm hk.2 hn h2 h1

theorem kept_new {x : Nat} (hk : Kept h s x) {a : Nat} (ha : Fresh r i o a) : x ≠ f a := z.old hk.1 ha

theorem way_trans {x y w : Nat} (h1 : Way h r p i o s f x y) (h2 : Way h r p i o s f y w) : Way h r p i o s f x w := by
  have into_trans : ∀ {x y}, TransGen (RegionEdge h p) x y → Into h p s y → Into h p s x := by
    rintro x y hxy ⟨n, hn, hh⟩; exact ⟨n, hn, hxy.trans hh⟩
  have out_trans : ∀ {x y}, OutOf h p s x → TransGen (RegionEdge h p) x y → OutOf h p s y := by
    rintro x y ⟨n, hn, hh⟩ hxy; exact ⟨n, hn, hh.trans hxy⟩
  cases h1 with
  | host k1 k2 t1 =>
    cases h2 with
    | host _ k3 t2 => exact .host k1 k3 (t1.trans t2)
    | past _ k3 i1 o1 => exact .past k1 k3 (into_trans t1 i1) o1
    | into _ k3 i1 => exact .into k1 k3 (into_trans t1 i1)
    | out k3 _ _ => exact absurd rfl (z.kept_new k2 k3)
    | inner k3 _ _ => exact absurd rfl (z.kept_new k2 k3)
  | past k1 k2 i1 o1 =>
    cases h2 with
    | host _ k3 t2 => exact .past k1 k3 i1 (out_trans o1 t2)
    | past _ k3 i2 o2 => exact .past k1 k3 i1 o2
    | into _ k3 i2 => exact .into k1 k3 i1
    | out k3 _ _ => exact absurd rfl (z.kept_new k2 k3)
    | inner k3 _ _ => exact absurd rfl (z.kept_new k2 k3)
  | into k1 k2 i1 =>
    generalize hy : f _ = y at h2
    cases h2 with
    | host k3 _ _ => exact absurd hy.symm (z.kept_new k3 k2)
    | past k3 _ _ _ => exact absurd hy.symm (z.kept_new k3 k2)
    | into k3 _ _ => exact absurd hy.symm (z.kept_new k3 k2)
    | out k3 k4 o2 => exact .past k1 k4 i1 o2
    | inner k3 k4 t2 => exact .into k1 k4 i1
  | out k1 k2 o1 =>
    cases h2 with
    | host _ k3 t2 => exact .out k1 k3 (out_trans o1 t2)
    | past _ k3 i2 o2 => exact .out k1 k3 o2
    | into _ k3 i2 => exact (z.not_both k2 i2 o1).elim
    | out k3 _ _ => exact absurd rfl (z.kept_new k2 k3)
    | inner k3 _ _ => exact absurd rfl (z.kept_new k2 k3)
  | inner k1 k2 t1 =>
    generalize hy : f _ = y at h2
    cases h2 with
    | host k3 _ _ => exact absurd hy.symm (z.kept_new k3 k2)
    | past k3 _ _ _ => exact absurd hy.symm (z.kept_new k3 k2)
    | into k3 _ _ => exact absurd hy.symm (z.kept_new k3 k2)
    | out k3 k4 o2 => exact .out k1 k4 o2
    | inner k3 k4 t2 =>
      cases z.replaced.injective _ _ k2 k3 hy
      exact .inner k1 k4 (t1.trans t2)

theorem feeds_into {k a ap : Nat} (hf : Feeds h s k a ap) (ha : h.hier.parent a = some p) : Into h p s a := by
  obtain ⟨n, np, rest, h1, h2, h3, h4⟩ := z.feeds_link hf
  exact ⟨n, h2, .single ⟨(z.tree.child_iff _ _).2 ha, (z.tree.child_iff _ _).2 (z.removable.parent n h2), _, h3, rfl, rfl⟩⟩

theorem uses_out {j b bp : Nat} (hu : Uses h s j b bp) : OutOf h p s b := by
  obtain ⟨n, np, h1, h2, h3, h4⟩ := z.uses_link hu
  exact ⟨n, h2, .single ⟨(z.tree.child_iff _ _).2 (z.removable.parent n h2), (z.tree.child_iff _ _).2 (z.uses_parent hu),
    _, h3, rfl, rfl⟩⟩

/-- A child of the region. -/
theorem child_p {x : Nat} (hx : x ∈ g.children p) : (Kept h s x ∧ h.hier.parent x = some p) ∨
    ∃ a, Fresh r i o a ∧ r.hier.parent a = some r.entrypoint ∧ x = f a := by
  have hp := (z.treeG.child_iff _ _).1 hx
  rcases z.cases2 (z.treeG.parent_live _ _ hp).1 with ⟨h1, h2⟩ | ⟨a, ha, rfl⟩
  · rw [z.parent_old h1 h2] at hp
    exact .inl ⟨⟨h1, h2⟩, hp⟩
  · obtain ⟨q, hq⟩ := z.has_parent ha
    rcases z.parent_new ha hq with ⟨rfl, _⟩ | ⟨h1, _, h2⟩
    · exact .inr ⟨a, ha, hq, rfl⟩
    · rw [h2] at hp
      exact absurd (Option.some.inj hp).symm (z.old z.p_live h1)

theorem way_edge {x y : Nat} (he : RegionEdge g p x y) : Way h r p i o s f x y := by
  obtain ⟨hx, hy, l, hl, rfl, rfl⟩ := he
  rcases z.child_p hx with ⟨k1, p1⟩ | ⟨a, ha, pa, e1⟩
  · rcases z.child_p hy with ⟨k2, p2⟩ | ⟨b, hb, pb, e2⟩
    · rcases z.links_old k1.1 k2.1 hl with ⟨h1, _⟩ | ⟨k, j, _, hf, hu⟩
      · exact .host k1 k2 (.single ⟨(z.tree.child_iff _ _).2 p1, (z.tree.child_iff _ _).2 p2, l, h1, rfl, rfl⟩)
      · exact .past k1 k2 (z.feeds_into hf p1) (z.uses_out hu)
    · rw [e2]
      refine .into k1 hb ?_
      rcases (z.replaced.links _).1 hl with ⟨h1, _⟩ | hn
      · exact absurd e2 (z.old (z.live_link h1).2 hb)
      · cases hn with
        | inner _ h2 _ => exact absurd rfl (z.kept_new k1 h2)
        | incoming h1 _ _ => exact z.feeds_into h1 p1
        | outgoing h1 h2 _ => exact absurd rfl (z.kept_new k1 (z.wired.stop _ _ _ h1 h2))
        | through _ h1 _ => exact z.feeds_into h1 p1
  · rcases z.child_p hy with ⟨k2, p2⟩ | ⟨b, hb, pb, e2⟩
    · rw [e1]
      refine .out ha k2 ?_
      rcases (z.replaced.links _).1 hl with ⟨h1, _⟩ | hn
      · exact absurd e1 (z.old (z.live_link h1).1 ha)
      · cases hn with
        | inner _ _ h2 => exact absurd rfl (z.kept_new k2 h2)
        | incoming _ h2 h3 => exact absurd rfl (z.kept_new k2 (z.wired.start _ _ _ h2 h3))
        | outgoing _ _ h1 => exact z.uses_out h1
        | through _ _ h1 => exact z.uses_out h1
    · obtain ⟨x, xp, y, yp⟩ := l
      simp only [] at e1 e2 ⊢
      subst e1; subst e2
      exact .inner ha hb (.single ⟨(z.treeR.child_iff _ _).2 pa, (z.treeR.child_iff _ _).2 pb, _, z.links_new ha hb hl, rfl, rfl⟩)

theorem v_acyclic {q : Nat} (hq : g.live q = true) (hb : (Validate.body (g.ops q)).isSome = true) (x : Nat) :
    ¬ TransGen (RegionEdge g q) x x := by
  intro hc
  by_cases e : q = p
  · subst e
    have hw : Way h r q i o s f x x := by
      have : ∀ {a b}, TransGen (RegionEdge g q) a b → Way h r q i o s f a b := by
        intro a b hab
        induction hab with
        | single he => exact z.way_edge he
        | tail _ he ih => exact z.way_trans ih (z.way_edge he)
      exact this hc
    have key : ∀ y, x = y → Way h r q i o s f x y → False := by
     intro y hy hw'
     cases hw' with
     | host k1 k2 t =>
       subst hy
       exact z.valid.acyclic q z.p_live z.removable.region _ t
     | past k1 k2 i1 o1 =>
       subst hy
       exact z.not_both k1 i1 o1
     | into k1 k2 _ => exact absurd hy (z.kept_new k1 k2)
     | out k1 k2 _ => exact absurd hy.symm (z.kept_new k2 k1)
     | inner k1 k2 t =>
       cases z.replaced.injective _ _ k1 k2 hy
       exact z.validR.acyclic _ z.treeR.entry_live z.body.region _ t
    exact key x rfl hw
  · rcases z.cases2 hq with ⟨h1, h2⟩ | ⟨a, ha, rfl⟩
    · rw [z.ops_old h1 h2] at hb
      refine z.valid.acyclic q h1 hb x (TransGen.lift id ?_ x x hc)
      rintro a b ⟨ha, hb', l, hl, rfl, rfl⟩
      rw [z.replaced.host_children q h1 h2 e] at ha hb'
      have la := (z.tree.parent_live _ _ ((z.tree.child_iff _ _).1 ha)).1
      have lb := (z.tree.parent_live _ _ ((z.tree.child_iff _ _).1 hb')).1
      rcases z.links_old la lb hl with ⟨h3, _⟩ | ⟨_, _, _, _, hu⟩
      · exact ⟨ha, hb', l, h3, rfl, rfl⟩
      · have := z.uses_parent hu
        rw [(z.tree.child_iff _ _).1 hb'] at this
        exact absurd (Option.some.inj this) e
    · rw [z.ops_new ha] at hb
      have hal : r.live a = true := by
        obtain ⟨q, hq⟩ := z.has_parent ha
        exact (z.treeR.parent_live _ _ hq).1
      have hx : ∃ y, Fresh r i o y ∧ x = f y := by
        obtain ⟨w, hw, _⟩ := TransGen.head'_iff.1 hc
        have := hw.1
        rw [z.replaced.node_children a ha] at this
        obtain ⟨y, hy, rfl⟩ := List.mem_map.1 this
        exact ⟨y, z.child_fresh' ((z.treeR.child_iff _ _).1 hy) ha, rfl⟩
      obtain ⟨y, hy, rfl⟩ := hx
      have key : ∀ {u w}, TransGen (RegionEdge g (f a)) u w → ∀ y, Fresh r i o y → u = f y →
          ∃ v, Fresh r i o v ∧ w = f v ∧ TransGen (RegionEdge r a) y v := by
        intro u w huw
        induction huw with
        | single he =>
          rintro y hy rfl
          obtain ⟨v, rfl, hv, hr⟩ := (z.region_new ha).2 _ _ hy he
          exact ⟨v, hv, rfl, .single hr⟩
        | tail _ he ih =>
          rintro y hy rfl
          obtain ⟨v, hv, rfl, hr⟩ := ih y hy rfl
          obtain ⟨v', rfl, hv', hr'⟩ := (z.region_new ha).2 _ _ hv he
          exact ⟨v', hv', rfl, hr.tail hr'⟩
      obtain ⟨v, hv, e', hr⟩ := key hc y hy rfl
      cases z.replaced.injective _ _ hy hv e'
      exact z.validR.acyclic a hal hb _ hr

/-! ## Kinds -/

theorem sig : ∃ sg : Types.Signature, Validate.body (r.ops r.entrypoint) = some (sg.input, sg.output) ∧
    r.ops i = .input sg.input ∧ r.ops o = .output sg.output ∧
    (s.inputs.length = sg.input.length ∧ ∀ (k : Nat) (part : List (Nat × Nat)), s.inputs[k]? = some part → partType h part = sg.input[k]?) ∧
    s.outputs.length = sg.output.length ∧
      ∀ (j : Nat) (np : Nat × Nat), s.outputs[j]? = some np → portType h np.1 .outgoing np.2 = sg.output[j]? := by
  obtain ⟨sg, hs, hbody⟩ := tryNew_ok z.new
  obtain ⟨ti, t2, rest, hbo, hch, hi, ho, _⟩ := z.children
  rw [hbody] at hbo; cases hbo
  exact ⟨sg, hbody, hi, ho, signature_parts hs⟩

theorem feeds_kind {k a ap : Nat} (hf : Feeds h s k a ap) : ∃ t n np, n ∈ s.nodes ∧ ⟨a, ap, n, np⟩ ∈ h.links ∧
    ((h.ops a).ports .outgoing)[ap]? = some (.value t) ∧ EdgeOk h ⟨a, ap, n, np⟩ (.value t) ∧
    ((r.ops i).ports .outgoing)[k]? = some (.value t) := by
  obtain ⟨n, np, rest, h1, h2, h3, h4⟩ := z.feeds_link hf
  obtain ⟨sg, _, hi, ho, ⟨hl1, hi1⟩, _⟩ := z.sig
  obtain ⟨kind, k1, k2, k3⟩ := z.valid.kinds _ h3
  have ht := hi1 k _ h1
  have hlt := (List.getElem?_eq_some_iff.1 h1).1
  rw [List.getElem?_eq_getElem (by omega)] at ht
  have := portType_ports (dir := .incoming) ht
  rw [this] at k2
  cases k2
  refine ⟨_, n, np, h2, h3, k1, k3, ?_⟩
  rw [hi]
  exact values_at (List.getElem?_eq_getElem (by omega))

theorem output_kind {j n np : Nat} (hj : s.outputs[j]? = some (n, np)) : ∃ t,
    ((h.ops n).ports .outgoing)[np]? = some (.value t) ∧ ((r.ops o).ports .incoming)[j]? = some (.value t) := by
  obtain ⟨sg, _, hi, ho, _, hl1, ho1⟩ := z.sig
  have ht := ho1 j _ hj
  have hlt := (List.getElem?_eq_some_iff.1 hj).1
  rw [List.getElem?_eq_getElem (by omega)] at ht
  refine ⟨_, portType_ports (dir := .outgoing) ht, ?_⟩
  rw [ho]
  exact values_at (List.getElem?_eq_getElem (by omega))

theorem uses_kind {j b bp : Nat} (hu : Uses h s j b bp) : ∃ t, ((h.ops b).ports .incoming)[bp]? = some (.value t) ∧
    ((r.ops o).ports .incoming)[j]? = some (.value t) := by
  obtain ⟨n, np, h1, h2, h3, h4⟩ := z.uses_link hu
  obtain ⟨kind, k1, k2, k3⟩ := z.valid.kinds _ h3
  obtain ⟨t, t1, t2⟩ := z.output_kind h1
  simp only [srcKind] at k1 k2
  rw [t1] at k1
  cases k1
  exact ⟨t, k2, t2⟩

/-- A link from a kept node to any node of the same region as before. -/
theorem edge_old {a ap n np d dp : Nat} {kind : Kind} (ha : h.live a = true) (hk : a ∉ s.nodes)
    (hd : g.hier.parent d = h.hier.parent n) (he : EdgeOk h ⟨a, ap, n, np⟩ kind) : EdgeOk g ⟨a, ap, d, dp⟩ kind := by
  obtain ⟨q, hq, hor⟩ := he
  simp only [] at hq hor
  refine ⟨q, by simp only []; rw [z.parent_old ha hk]; exact hq, ?_⟩
  simp only []
  rw [hd]
  rcases hor with hx | ⟨q', b, hq', hqb, hor⟩
  · exact .inl hx
  · right
    have hbk : b ∉ s.nodes := by
      by_cases e : q' = b
      · subst e; exact z.parent_kept hq'
      · exact z.above_kept hqb e
    have hpb : ∀ {x}, h.hier.parent b = some x → g.hier.parent b = some x := by
      intro x hx
      rw [z.parent_old (z.tree.parent_live _ _ hx).1 hbk]; exact hx
    refine ⟨q', b, hq', z.above_old hqb (z.parent_kept hq'), ?_⟩
    rcases hor with ⟨hst, hb⟩ | ⟨ht, ⟨hb, ol, hol, o1, o2, o3⟩ | ⟨c, sg, entry, rest, hne, hpc, hbc, hcfg, hch, hdom⟩⟩
    · exact .inl ⟨hst, hpb hb⟩
    · refine .inr ⟨ht, .inl ⟨hpb hb, ol, z.link_old hol (by rw [o1]; exact hk) (by rw [o2]; exact hbk), o1, o2, ?_⟩⟩
      unfold srcKind at o3 ⊢
      rw [o1] at o3 ⊢
      rw [z.ops_old ha hk]; exact o3
    · have hcl := (z.tree.parent_live _ _ hpc).2
      have hck := z.parent_kept hpc
      refine .inr ⟨ht, .inr ⟨c, sg, entry, rest, hne, ?_, hpb hbc, ?_, ?_, ?_⟩⟩
      · rw [z.parent_old (z.tree.parent_live _ _ hpc).1 (z.parent_kept hq)]; exact hpc
      · rw [z.ops_old hcl hck]; exact hcfg
      · rw [z.replaced.host_children c hcl hck (z.cfg_ne hcfg)]; exact hch
      · have : RegionEdge g c = RegionEdge h c := by
          funext x y; exact propext (z.cfg_old hcfg hcl hck)
        rw [this]; exact hdom

/-- A link between new nodes. -/
theorem edge_new {a ap d dp : Nat} (ha : Fresh r i o a) (hd : Fresh r i o d) {kind : Kind}
    (he : EdgeOk r ⟨a, ap, d, dp⟩ kind) : EdgeOk g ⟨f a, ap, f d, dp⟩ kind := by
  obtain ⟨q, hq, hor⟩ := he
  simp only [] at hq hor
  -- the new region
  obtain ⟨Q, hQ, hreg⟩ : ∃ Q, g.hier.parent (f a) = some Q ∧
      ∀ {x}, Fresh r i o x → r.hier.parent x = some q → g.hier.parent (f x) = some Q := by
    rcases z.parent_new ha hq with ⟨rfl, h1⟩ | ⟨h2, hne, h1⟩
    · refine ⟨p, h1, fun hx hxp => ?_⟩
      rcases z.parent_new hx hxp with ⟨_, h1⟩ | ⟨_, hne, _⟩
      · exact h1
      · exact absurd rfl hne
    · refine ⟨f q, h1, fun hx hxp => ?_⟩
      rcases z.parent_new hx hxp with ⟨e, _⟩ | ⟨_, _, h3⟩
      · exact absurd e hne
      · exact h3
  refine ⟨Q, hQ, ?_⟩
  simp only []
  rcases hor with hx | ⟨q', b, hq', hqb, hor⟩
  · exact .inl (hreg hd hx)
  · right
    have hsib : r.hier.parent b = some q → Fresh r i o b := by
      intro hb
      refine z.child_fresh hb ?_ ?_ ?_
      · rcases z.parent_new ha hq with ⟨rfl, _⟩ | ⟨h2, _⟩
        · exact .inl rfl
        · exact .inr h2
      · rintro rfl
        rcases above_cases hqb with e | ⟨w, hw, hw'⟩
        · rw [e] at hq'; exact z.not_parent.1 hq'
        · by_cases e : q' = b
          · rw [e] at hq'; exact z.not_parent.1 hq'
          · obtain ⟨c, _, hc⟩ := hqb.last e; exact z.not_parent.1 hc
      · rintro rfl
        by_cases e : q' = b
        · rw [e] at hq'; exact z.not_parent.2 hq'
        · obtain ⟨c, _, hc⟩ := hqb.last e; exact z.not_parent.2 hc
    have fin : Fresh r i o b → ∃ q2, g.hier.parent (f d) = some q2 ∧ Above g.hier.parent q2 (f b) := by
      intro hb
      obtain ⟨h1, h2⟩ := z.above_new hqb hb
      rcases z.parent_new hd hq' with ⟨rfl, _⟩ | ⟨_, _, h3⟩
      · exact absurd h1 z.entry_not_fresh
      · exact ⟨f q', h3, h2⟩
    rcases hor with ⟨hst, hb⟩ | ⟨ht, ⟨hb, ol, hol, o1, o2, o3⟩ | ⟨c, sg, entry, rest, hne, hpc, hbc, hcfg, hch, hdom⟩⟩
    · obtain ⟨q2, h1, h2⟩ := fin (hsib hb)
      exact ⟨q2, f b, h1, h2, .inl ⟨hst, hreg (hsib hb) hb⟩⟩
    · obtain ⟨q2, h1, h2⟩ := fin (hsib hb)
      obtain ⟨os, osp, od, odp⟩ := ol
      simp only [] at o1 o2
      subst o1; subst o2
      refine ⟨q2, _, h1, h2, .inr ⟨ht, .inl ⟨hreg (hsib hb) hb, _, z.link_new hol ha (hsib hb), rfl, rfl, ?_⟩⟩⟩
      unfold srcKind at o3 ⊢
      simp only [] at o3 ⊢
      rw [z.ops_new ha]; exact o3
    · have hqe : q ≠ r.entrypoint := by
        rintro rfl
        obtain ⟨q2, hq2, hab⟩ := hd.1
        rw [hq'] at hq2; cases hq2
        rcases hqb.total hab with h1 | h1
        · rcases above_cases h1 with e | ⟨w, hw, hw'⟩
          · exact hne e
          · rw [hbc] at hw; cases hw
            exact z.treeR.acyclic _ _ hpc hw'
        · rcases above_cases h1 with e | ⟨w, hw, hw'⟩
          · exact hne e.symm
          · rw [hpc] at hw; cases hw
            exact z.treeR.acyclic _ _ hbc hw'
      have hqf : Fresh r i o q := by
        rcases z.parent_new ha hq with ⟨e, _⟩ | ⟨h2, _⟩
        · exact absurd e hqe
        · exact h2
      have hcf : Fresh r i o c := by
        rcases z.parent_new hqf hpc with ⟨rfl, _⟩ | ⟨h2, _⟩
        · have := z.body.region
          rw [hcfg] at this; cases this
        · exact h2
      have hbf := z.child_fresh' hbc hcf
      have hem : Fresh r i o entry := z.child_fresh' ((z.treeR.child_iff _ _).1 (by
        change entry ∈ r.children c; rw [hch]; simp)) hcf
      have hQq : Q = f q := by
        rcases z.parent_new ha hq with ⟨e, _⟩ | ⟨_, _, h3⟩
        · exact absurd e hqe
        · rw [hQ] at h3; exact Option.some.inj h3
      subst hQq
      have par : ∀ {x}, Fresh r i o x → r.hier.parent x = some c → g.hier.parent (f x) = some (f c) := by
        intro x hx hxc
        rcases z.parent_new hx hxc with ⟨e, _⟩ | ⟨_, _, h3⟩
        · exact absurd (e ▸ hcf) z.entry_not_fresh
        · exact h3
      obtain ⟨q2, h1, h2⟩ := fin hbf
      refine ⟨q2, _, h1, h2, .inr ⟨ht, .inr ⟨f c, sg, f entry, rest.map f, ?_, par hqf hpc, par hbf hbc, ?_, ?_, ?_⟩⟩⟩
      · exact fun e => hne (z.replaced.injective _ _ hbf hqf e)
      · rw [z.ops_new hcf]; exact hcfg
      · rw [z.replaced.node_children c hcf, hch]; rfl
      · exact dominates_map (K := fun x => Fresh r i o x) (z.region_new hcf).1 (z.region_new hcf).2
          (fun x y hx hy => z.replaced.injective x y hx hy) hem hbf hdom

theorem v_kinds {l : Link} (hl : l ∈ g.links) : ∃ kind, srcKind g l = some kind ∧
    ((g.ops l.dst).ports .incoming)[l.dstPort]? = some kind ∧ EdgeOk g l kind := by
  have top : ∀ {x}, Fresh r i o x → r.hier.parent x = some r.entrypoint → g.hier.parent (f x) = some p := by
    intro x hx hp
    rcases z.parent_new hx hp with ⟨_, h1⟩ | ⟨_, hne, _⟩
    · exact h1
    · exact absurd rfl hne
  rcases (z.replaced.links _).1 hl with ⟨h1, h2, h3⟩ | hn
  · obtain ⟨kind, k1, k2, k3⟩ := z.valid.kinds l h1
    obtain ⟨l1, l2⟩ := z.live_link h1
    refine ⟨kind, ?_, ?_, ?_⟩
    · unfold srcKind at k1 ⊢; rw [z.ops_old l1 h2]; exact k1
    · rw [z.ops_old l2 h3]; exact k2
    · exact z.edge_old l1 h2 (z.parent_old l2 h3) k3
  · cases hn with
    | inner h1 h2 h3 =>
      obtain ⟨kind, k1, k2, k3⟩ := z.validR.kinds _ h1
      refine ⟨kind, ?_, ?_, z.edge_new h2 h3 k3⟩
      · unfold srcKind at k1 ⊢; simp only [] at k1 ⊢; rw [z.ops_new h2]; exact k1
      · simp only [] at k2 ⊢; rw [z.ops_new h3]; exact k2
    | incoming h1 h2 h3 =>
      obtain ⟨t, n, np, hn, hln, k1, k2, k3⟩ := z.feeds_kind h1
      obtain ⟨kind, j1, j2, _⟩ := z.validR.kinds _ h2
      simp only [srcKind] at j1 j2
      rw [k3] at j1; cases j1
      have hxf := z.wired.start _ _ _ h2 h3
      obtain ⟨_, _, _, _, _, _, hak⟩ := z.feeds_link h1
      refine ⟨.value t, ?_, ?_, ?_⟩
      · simp only [srcKind]; rw [z.ops_old (z.live_link hln).1 hak]; exact k1
      · simp only []; rw [z.ops_new hxf]; exact j2
      · refine z.edge_old (z.live_link hln).1 hak ?_ k2
        rw [top hxf (z.from_input h2), z.removable.parent n hn]
    | outgoing h1 h2 h3 =>
      obtain ⟨t, k1, k2⟩ := z.uses_kind h3
      obtain ⟨kind, j1, j2, _⟩ := z.validR.kinds _ h1
      simp only [srcKind] at j1 j2
      rw [k2] at j2; cases j2
      have hxf := z.wired.stop _ _ _ h1 h2
      obtain ⟨_, _, _, _, hlb, hbk⟩ := z.uses_link h3
      have hbl := (z.live_link hlb).2
      refine ⟨.value t, ?_, ?_, p, top hxf (z.to_output h1), .inl ?_⟩
      · simp only [srcKind]; rw [z.ops_new hxf]; exact j1
      · simp only []; rw [z.ops_old hbl hbk]; exact k1
      · simp only []; rw [z.parent_old hbl hbk]; exact z.uses_parent h3
    | through h1 h2 h3 =>
      obtain ⟨t, n, np, hn, hln, k1, k2, k3⟩ := z.feeds_kind h2
      obtain ⟨t', q1, q2⟩ := z.uses_kind h3
      obtain ⟨kind, j1, j2, _⟩ := z.validR.kinds _ h1
      simp only [srcKind] at j1 j2
      rw [k3] at j1; cases j1
      rw [q2] at j2; cases j2
      obtain ⟨_, _, _, _, _, _, hak⟩ := z.feeds_link h2
      obtain ⟨_, _, _, _, hlb, hbk⟩ := z.uses_link h3
      have hbl := (z.live_link hlb).2
      refine ⟨.value t, ?_, ?_, ?_⟩
      · simp only [srcKind]; rw [z.ops_old (z.live_link hln).1 hak]; exact k1
      · simp only []; rw [z.ops_old hbl hbk]; exact q1
      · refine z.edge_old (z.live_link hln).1 hak ?_ k2
        rw [z.parent_old hbl hbk, z.uses_parent h3, z.removable.parent n hn]

end SwapAt

end Verif.Patch
