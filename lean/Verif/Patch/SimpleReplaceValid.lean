import Verif.Patch.SimpleReplaceProps
import Verif.Patch.InlineCallValid

/-!
# Replacing a subgraph keeps a Hugr valid: hierarchy, cycles, types
-/
namespace Verif.Patch

open Verif.Graph Verif.Ops Verif.Passes Verif.Validate Verif.Dataflow

variable {Meta : Type} {C C' : Validate.Context} {h r g : Hugr Ops.Op Meta} {s : Subgraph} {i o p : Nat}
  {f : Nat → Nat}

/-- Where the subgraph `s` of `h` has been replaced. -/
structure SwapAt (C C' : Validate.Context) (h r g : Hugr Ops.Op Meta) (p i o : Nat) (s : Subgraph)
    (f : Nat → Nat) : Prop where
  tree : IsTree h
  valid : Valid C h
  treeR : IsTree r
  validR : Valid C' r
  removable : Removable h p s
  body : HasBody r i o
  new : tryNew s h r = .ok
  treeG : IsTree g
  replaced : Replaced h r p i o s f g
  sep : Separable h p s
  plain : Unordered r i o

namespace SwapAt

variable (z : SwapAt C C' h r g p i o s f)
include z

theorem wired : Wired h r s i o := wired_of z.tree z.valid z.treeR z.validR z.removable z.body z.new

theorem first : ∃ n, n ∈ s.nodes := by
  cases hs : s.nodes with
  | nil => exact absurd hs z.removable.nonempty
  | cons a _ => exact ⟨a, by simp⟩

theorem p_live : h.live p = true := by
  obtain ⟨n, hn⟩ := z.first
  exact (z.tree.parent_live _ _ (z.removable.parent n hn)).2

theorem p_kept : p ∉ s.nodes := fun hp => z.tree.acyclic _ _ (z.removable.parent p hp) (.refl _)

theorem node_live {n : Nat} (hn : n ∈ s.nodes) : h.live n = true :=
  (z.tree.parent_live _ _ (z.removable.parent n hn)).1

theorem old {x : Nat} (hx : h.live x = true) {a : Nat} (ha : Fresh r i o a) : x ≠ f a := by
  rintro rfl
  rw [z.replaced.fresh a ha] at hx; cases hx

theorem fresh_kept {a : Nat} (ha : Fresh r i o a) : f a ∉ s.nodes := fun hn => z.old (z.node_live hn) ha rfl

theorem cases2 {x : Nat} (hx : g.live x = true) : (h.live x = true ∧ x ∉ s.nodes) ∨ ∃ a, Fresh r i o a ∧ x = f a :=
  (z.replaced.live x).1 hx

theorem ops_old {x : Nat} (hx : h.live x = true) (hk : x ∉ s.nodes) : g.ops x = h.ops x := (z.replaced.host x hx hk).1
theorem parent_old {x : Nat} (hx : h.live x = true) (hk : x ∉ s.nodes) : g.hier.parent x = h.hier.parent x :=
  (z.replaced.host x hx hk).2.2.2.2
theorem ops_new {a : Nat} (ha : Fresh r i o a) : g.ops (f a) = r.ops a := (z.replaced.node a ha).1

/-- Parents are not in the subgraph. -/
theorem parent_kept {x q : Nat} (hq : h.hier.parent x = some q) : q ∉ s.nodes := by
  intro hn
  have := (z.tree.child_iff _ _).2 hq
  have he := z.removable.leaf q hn
  change x ∈ h.children q at this
  rw [he] at this; cases this

theorem above_kept {x q : Nat} (ha : Above h.hier.parent x q) (hne : x ≠ q) : q ∉ s.nodes := by
  obtain ⟨c, _, hc⟩ := ha.last hne
  exact z.parent_kept hc

theorem above_old {x q : Nat} (ha : Above h.hier.parent x q) (hk : x ∉ s.nodes) : Above g.hier.parent x q := by
  induction ha with
  | refl => exact .refl _
  | @step x w q hw _ ih =>
    exact .step ((z.parent_old (z.tree.parent_live _ _ hw).1 hk).trans hw) (ih (z.parent_kept hw))

theorem children : ∃ ti t2 rest, Validate.body (r.ops r.entrypoint) = some (ti, t2) ∧ r.children r.entrypoint = i :: o :: rest ∧
      r.ops i = .input ti ∧ r.ops o = .output t2 ∧ r.children i = [] ∧ r.children o = [] ∧
      r.live i = true ∧ r.live o = true := z.body.children z.treeR z.validR

theorem not_parent {x : Nat} : r.hier.parent x ≠ some i ∧ r.hier.parent x ≠ some o := by
  obtain ⟨_, _, _, _, _, _, _, h1, h2, _⟩ := z.children
  constructor
  · intro hp
    have := (z.treeR.child_iff _ _).2 hp
    change x ∈ r.children i at this
    rw [h1] at this; cases this
  · intro hp
    have := (z.treeR.child_iff _ _).2 hp
    change x ∈ r.children o at this
    rw [h2] at this; cases this

/-- The parent of a new node. -/
theorem parent_new {a q : Nat} (ha : Fresh r i o a) (hq : r.hier.parent a = some q) :
    (q = r.entrypoint ∧ g.hier.parent (f a) = some p) ∨
    (Fresh r i o q ∧ q ≠ r.entrypoint ∧ g.hier.parent (f a) = some (f q)) := by
  have hp := (z.replaced.node a ha).2.2.2.2
  rw [hq] at hp
  by_cases he : q = r.entrypoint
  · subst he
    rw [if_pos rfl] at hp
    exact .inl ⟨rfl, hp⟩
  · rw [if_neg (fun e => he (Option.some.inj e))] at hp
    refine .inr ⟨⟨?_, ?_, ?_⟩, he, hp⟩
    · obtain ⟨q', hq', hab⟩ := ha.1
      rw [hq] at hq'; cases hq'
      exact (inside_iff z.treeR).2 ⟨hab, he⟩
    · rintro rfl; exact z.not_parent.1 hq
    · rintro rfl; exact z.not_parent.2 hq

theorem has_parent {a : Nat} (ha : Fresh r i o a) : ∃ q, r.hier.parent a = some q := by
  obtain ⟨q, hq, _⟩ := ha.1
  exact ⟨q, hq⟩

theorem child_fresh {a q : Nat} (hq : r.hier.parent a = some q) (h1 : q = r.entrypoint ∨ Fresh r i o q)
    (h2 : a ≠ i) (h3 : a ≠ o) : Fresh r i o a := by
  refine ⟨?_, h2, h3⟩
  rcases h1 with rfl | h1
  · exact .child hq
  · exact ⟨q, hq, h1.1.above⟩

theorem io_parent : r.hier.parent i = some r.entrypoint ∧ r.hier.parent o = some r.entrypoint := by
  obtain ⟨_, _, _, _, hch, _⟩ := z.children
  exact ⟨(z.treeR.child_iff _ _).1 (by change i ∈ r.children r.entrypoint; rw [hch]; simp),
    (z.treeR.child_iff _ _).1 (by change o ∈ r.children r.entrypoint; rw [hch]; simp)⟩

theorem entry_not_fresh : ¬ Fresh r i o r.entrypoint := fun hf => inside_irrefl z.treeR _ hf.1

theorem child_fresh' {a q : Nat} (hq : r.hier.parent a = some q) (h1 : Fresh r i o q) : Fresh r i o a := by
  refine z.child_fresh hq (.inr h1) ?_ ?_
  · rintro rfl
    rw [z.io_parent.1] at hq; cases hq
    exact z.entry_not_fresh h1
  · rintro rfl
    rw [z.io_parent.2] at hq; cases hq
    exact z.entry_not_fresh h1

/-- Above a new node, up to the entrypoint. -/
theorem above_new {x q : Nat} (ha : Above r.hier.parent x q) (hq : Fresh r i o q) :
    Fresh r i o x ∧ Above g.hier.parent (f x) (f q) := by
  induction ha with
  | refl => exact ⟨hq, .refl _⟩
  | @step x w q hw _ ih =>
    obtain ⟨h1, h2⟩ := ih hq
    have hx := z.child_fresh' hw h1
    refine ⟨hx, ?_⟩
    rcases z.parent_new hx hw with ⟨rfl, _⟩ | ⟨_, _, h3⟩
    · exact absurd h1 z.entry_not_fresh
    · exact .step h3 h2

/-! ## Links -/

theorem live_link {l : Link} (hl : l ∈ h.links) : h.live l.src = true ∧ h.live l.dst = true := by
  obtain ⟨h1, _, h3, _⟩ := valid_linksOk z.tree z.valid l hl
  exact ⟨h1, h3⟩

theorem feeds_link {k a ap : Nat} (hf : Feeds h s k a ap) : ∃ n np rest, s.inputs[k]? = some ((n, np) :: rest) ∧
    n ∈ s.nodes ∧ ⟨a, ap, n, np⟩ ∈ h.links ∧ a ∉ s.nodes := by
  obtain ⟨n, np, rest, h1, h2, h3⟩ := hf
  exact ⟨n, np, rest, h1, z.removable.inputs _ (List.mem_of_getElem? h1) (n, np) (by simp), h2, h3⟩

theorem uses_link {j b bp : Nat} (hu : Uses h s j b bp) : ∃ n np, s.outputs[j]? = some (n, np) ∧
    n ∈ s.nodes ∧ ⟨n, np, b, bp⟩ ∈ h.links ∧ b ∉ s.nodes := by
  obtain ⟨n, np, h1, h2, h3⟩ := hu
  exact ⟨n, np, h1, z.removable.outputs _ (List.mem_of_getElem? h1), h2, h3⟩

/-- Uses stay in the region. -/
theorem uses_parent {j b bp : Nat} (hu : Uses h s j b bp) : h.hier.parent b = some p := by
  obtain ⟨n, np, h1, h2, h3, h4⟩ := z.uses_link hu
  obtain ⟨kind, k1, k2, k3⟩ := z.valid.kinds _ h3
  refine (z.sep.leaves _ h3 h2 h4 ?_).2
  obtain ⟨sig, hs, _⟩ := tryNew_ok z.new
  obtain ⟨_, hlen, ho⟩ := signature_parts hs
  have hlt := (List.getElem?_eq_some_iff.1 h1).1
  have ht := ho j _ h1
  rw [List.getElem?_eq_getElem (by omega)] at ht
  have := portType_ports (dir := .outgoing) ht
  simp only [srcKind] at k1 ⊢
  simp only at this
  rw [this]
  simp

/-- What the input of the replacement is linked to is a child of its entrypoint. -/
theorem from_input {k x xp : Nat} (hl : ⟨i, k, x, xp⟩ ∈ r.links) : r.hier.parent x = some r.entrypoint := by
  obtain ⟨ti, t2, rest, hbo, hch, hi, ho, _⟩ := z.children
  obtain ⟨kind, k1, k2, q, hq, hor⟩ := z.validR.kinds _ hl
  simp only [] at hq hor k1
  rw [z.io_parent.1] at hq; cases hq
  rcases hor with hx | ⟨q, a, hq, hqa, ⟨hst, _⟩ | ⟨_, ⟨_, ol, hol, o1, _, o3⟩ | ⟨c, sig, entry, rest, hne, hpc, hac, hcfg, _⟩⟩⟩
  · exact hx
  · simp only [srcKind] at k1
    rw [hi] at k1
    have := List.mem_of_getElem? k1
    simp only [Op.ports, List.mem_append, List.mem_map, List.mem_singleton] at this
    rcases this with ⟨_, _, rfl⟩ | rfl <;> cases hst
  · exact absurd o1 (z.plain ol hol o3).1
  · exfalso
    have hin := (z.body.closed _ hl).1 (.child z.io_parent.1)
    simp only [] at hin
    obtain ⟨q', hq', hab⟩ := hin
    rw [hq] at hq'; cases hq'
    rcases hqa.total hab with h1 | h1
    · rcases above_cases h1 with e | ⟨w, hw, hw'⟩
      · exact hne e
      · rw [hac] at hw; cases hw
        exact z.treeR.acyclic _ _ hpc hw'
    · rcases above_cases h1 with e | ⟨w, hw, hw'⟩
      · exact hne e.symm
      · rw [hpc] at hw; cases hw
        exact z.treeR.acyclic _ _ hac hw'

/-- What is linked to the output of the replacement is a child of its entrypoint. -/
theorem to_output {x xp j : Nat} (hl : ⟨x, xp, o, j⟩ ∈ r.links) : r.hier.parent x = some r.entrypoint := by
  obtain ⟨kind, k1, k2, q, hq, hor⟩ := z.validR.kinds _ hl
  simp only [] at hq hor
  have hin := (z.body.closed _ hl).2 (.child z.io_parent.2)
  simp only [] at hin
  obtain ⟨q', hq', hab⟩ := hin
  rw [hq] at hq'; cases hq'
  rcases hor with hx | ⟨q', a, hq', hqa, ⟨_, ha⟩ | ⟨_, ⟨ha, _⟩ | ⟨c, sig, entry, rest, hne, hpc, hac, hcfg, _⟩⟩⟩
  · rw [z.io_parent.2] at hx; cases hx; exact hq
  · rw [z.io_parent.2] at hq'; cases hq'
    exact absurd (hqa.trans (.step ha hab)) (fun hc => by
      rcases above_cases hqa with e | ⟨w, hw, hw'⟩
      · rw [← e] at ha; exact z.treeR.acyclic _ _ ha hab
      · exact z.treeR.acyclic _ _ hw (hw'.trans (.step ha hab)))
  · rw [z.io_parent.2] at hq'; cases hq'
    exfalso
    rcases above_cases hqa with e | ⟨w, hw, hw'⟩
    · rw [← e] at ha; exact z.treeR.acyclic _ _ ha hab
    · exact z.treeR.acyclic _ _ hw (hw'.trans (.step ha hab))
  · rw [z.io_parent.2] at hq'; cases hq'
    exfalso
    have h1 := hab.trans hqa
    rcases above_cases h1 with e | ⟨w, hw, hw'⟩
    · exact hne e.symm
    · rw [hpc] at hw; cases hw
      exact z.treeR.acyclic _ _ hac hw'

theorem link_old {l : Link} (hl : l ∈ h.links) (h1 : l.src ∉ s.nodes) (h2 : l.dst ∉ s.nodes) : l ∈ g.links :=
  (z.replaced.links l).2 (.inl ⟨hl, h1, h2⟩)

theorem link_new {l : Link} (hl : l ∈ r.links) (h1 : Fresh r i o l.src) (h2 : Fresh r i o l.dst) :
    (⟨f l.src, l.srcPort, f l.dst, l.dstPort⟩ : Link) ∈ g.links :=
  (z.replaced.links _).2 (.inr (.inner hl h1 h2))

/-- A link between new nodes. -/
theorem links_new {x xp y yp : Nat} (hx : Fresh r i o x) (hy : Fresh r i o y)
    (hl : (⟨f x, xp, f y, yp⟩ : Link) ∈ g.links) : ⟨x, xp, y, yp⟩ ∈ r.links := by
  rcases (z.replaced.links _).1 hl with ⟨h1, _⟩ | hn
  · exact absurd rfl (z.old (z.live_link h1).1 hx)
  · generalize hL : (⟨f x, xp, f y, yp⟩ : Link) = L at hn
    cases hn with
    | inner h1 h2 h3 =>
      simp only [Link.mk.injEq] at hL
      obtain ⟨e1, rfl, e2, rfl⟩ := hL
      cases z.replaced.injective _ _ hx h2 e1
      cases z.replaced.injective _ _ hy h3 e2
      exact h1
    | incoming h1 _ _ =>
      simp only [Link.mk.injEq] at hL
      obtain ⟨_, _, _, _, _, h3, _⟩ := z.feeds_link h1
      exact absurd hL.1.symm (z.old (z.live_link h3).1 hx)
    | outgoing _ _ h1 =>
      simp only [Link.mk.injEq] at hL
      obtain ⟨_, _, _, _, h3, _⟩ := z.uses_link h1
      exact absurd hL.2.2.1.symm (z.old (z.live_link h3).2 hy)
    | through _ h1 _ =>
      simp only [Link.mk.injEq] at hL
      obtain ⟨_, _, _, _, _, h3, _⟩ := z.feeds_link h1
      exact absurd hL.1.symm (z.old (z.live_link h3).1 hx)

/-- A link between nodes that were there. -/
theorem links_old {l : Link} (hs : h.live l.src = true) (hd : h.live l.dst = true) (hl : l ∈ g.links) :
    (l ∈ h.links ∧ l.src ∉ s.nodes ∧ l.dst ∉ s.nodes) ∨
    ∃ k j, ⟨i, k, o, j⟩ ∈ r.links ∧ Feeds h s k l.src l.srcPort ∧ Uses h s j l.dst l.dstPort := by
  rcases (z.replaced.links _).1 hl with h1 | hn
  · exact .inl h1
  · cases hn with
    | inner _ h2 _ => exact absurd rfl (z.old hs h2)
    | incoming _ h2 h3 => exact absurd rfl (z.old hd (z.wired.start _ _ _ h2 h3))
    | outgoing h1 h2 _ => exact absurd rfl (z.old hs (z.wired.stop _ _ _ h1 h2))
    | through h1 h2 h3 => exact .inr ⟨_, _, h1, h2, h3⟩

/-! ## The hierarchy -/

theorem ops_p : g.ops p = h.ops p := z.ops_old z.p_live z.p_kept

theorem contained {a : Nat} (ha : Fresh r i o a) (hq : r.hier.parent a = some r.entrypoint) :
    DataflowChild (r.ops a) := by
  have hc := z.validR.contains _ _ hq
  have hb := z.body.region
  unfold MayContain at hc
  cases hop : r.ops r.entrypoint <;> rw [hop] at hb hc <;> simp [Validate.body] at hb <;> exact hc.2

theorem v_contains {x q : Nat} (hp : g.hier.parent x = some q) : MayContain (g.ops q) (g.ops x) := by
  rcases z.cases2 (z.treeG.parent_live _ _ hp).1 with ⟨hx, hk⟩ | ⟨a, ha, rfl⟩
  · rw [z.parent_old hx hk] at hp
    rw [z.ops_old (z.tree.parent_live _ _ hp).2 (z.parent_kept hp), z.ops_old hx hk]
    exact z.valid.contains _ _ hp
  · obtain ⟨q', hq'⟩ := z.has_parent ha
    rw [z.ops_new ha]
    rcases z.parent_new ha hq' with ⟨rfl, h1⟩ | ⟨h2, _, h1⟩
    · rw [h1] at hp; cases hp
      rw [z.ops_p]
      have hb := z.removable.region
      have hd := z.contained ha hq'
      unfold MayContain
      cases hop : h.ops p <;> rw [hop] at hb <;> simp [Validate.body] at hb <;> exact ⟨rfl, hd⟩
    · rw [h1] at hp; cases hp
      rw [z.ops_new h2]
      exact z.validR.contains _ _ hq'

theorem child_kept {x c : Nat} (hx : x ≠ p) (hc : c ∈ h.children x) : c ∉ s.nodes := by
  intro hn
  have h1 := z.removable.parent c hn
  rw [(z.tree.child_iff _ _).1 hc] at h1
  cases h1
  exact hx rfl

theorem v_children {x : Nat} (hx : g.live x = true) : ChildrenOk g x := by
  rcases z.cases2 hx with ⟨hx, hk⟩ | ⟨a, ha, rfl⟩
  · by_cases e : x = p
    · subst e
      obtain ⟨ti, tj, hb⟩ : ∃ ti tj, Validate.body (h.ops x) = some (ti, tj) := by
        have := z.removable.region
        cases hh : Validate.body (h.ops x) with
        | none => rw [hh] at this; cases this
        | some y => exact ⟨y.1, y.2, rfl⟩
      obtain ⟨inp, out, rest, e1, e2, e3, e4⟩ := (childrenOk_body hb).1 (z.valid.children x hx)
      refine (childrenOk_body (by rw [z.ops_p]; exact hb)).2 ?_
      have hin : inp ∉ s.nodes := fun hn => z.sep.noIO _ hn (.inl ⟨_, e2⟩)
      have hout : out ∉ s.nodes := fun hn => z.sep.noIO _ hn (.inr ⟨_, e3⟩)
      have hlive : ∀ c ∈ h.children x, h.live c = true := fun c hc =>
        (z.tree.parent_live _ _ ((z.tree.child_iff _ _).1 hc)).1
      have hreg := z.replaced.region
      rw [e1] at hreg hlive
      rw [List.filter_cons_of_pos (by simpa using hin), List.filter_cons_of_pos (by simpa using hout)] at hreg
      refine ⟨inp, out, rest.filter (· ∉ s.nodes) ++ ((r.children r.entrypoint).drop 2).map f, hreg, ?_, ?_, ?_⟩
      · rw [z.ops_old (hlive _ (by simp)) hin, e2]
      · rw [z.ops_old (hlive _ (by simp)) hout, e3]
      · intro c hc
        rcases List.mem_append.1 hc with hc | hc
        · obtain ⟨h1, h2⟩ := List.mem_filter.1 hc
          rw [z.ops_old (hlive _ (by simp [h1])) (by simpa using h2)]
          exact e4 c h1
        · obtain ⟨y, hy, rfl⟩ := List.mem_map.1 hc
          obtain ⟨ti', t2', rest', hbo, hch, hi, ho, _⟩ := z.children
          obtain ⟨i', o', r', f1, f2, f3, f4⟩ := (childrenOk_body hbo).1 (z.validR.children _ z.treeR.entry_live)
          rw [hch] at f1
          simp only [List.cons.injEq] at f1
          obtain ⟨rfl, rfl, rfl⟩ := f1
          rw [hch] at hy
          simp only [List.drop_succ_cons, List.drop_zero] at hy
          have hyf : Fresh r i o y := by
            refine z.child_fresh ((z.treeR.child_iff _ _).1 (by change y ∈ r.children r.entrypoint; rw [hch]; simp [hy]))
              (.inl rfl) ?_ ?_
            · rintro rfl; exact f4 _ hy (.inl ⟨_, hi⟩)
            · rintro rfl; exact f4 _ hy (.inr ⟨_, ho⟩)
          rw [z.ops_new hyf]
          exact f4 y hy
    · refine childrenOk_map (ν := id) (z.ops_old hx hk) (by rw [z.replaced.host_children x hx hk e]; simp) ?_
        (z.valid.children x hx)
      intro c hc
      exact .inl (z.ops_old (z.tree.parent_live _ _ ((z.tree.child_iff _ _).1 hc)).1 (z.child_kept e hc))
  · refine childrenOk_map (ν := f) (z.ops_new ha) (z.replaced.node_children a ha) ?_
      (z.validR.children a (by
        obtain ⟨q, hq⟩ := z.has_parent ha
        exact (z.treeR.parent_live _ _ hq).1))
    intro c hc
    exact .inl (z.ops_new (z.child_fresh' ((z.treeR.child_iff _ _).1 hc) ha))

theorem v_entrypoint : Container (g.ops g.entrypoint) := by
  rw [z.replaced.entrypoint, z.ops_old z.tree.entry_live (entry_kept z.tree z.valid z.removable)]
  exact z.valid.entrypoint

theorem root_kept : h.moduleRoot ∉ s.nodes := by
  intro hr
  have := z.removable.parent _ hr
  rw [z.tree.root_top] at this; cases this

theorem v_exports {a : Nat} {nm : String} {sg : Types.PolyFunc} {b : Bool} (he : Exports C g a nm sg b) :
    Exports C h a nm sg b := by
  obtain ⟨h1, h2, h3⟩ := he
  have hne : h.moduleRoot ≠ p := by
    intro e
    have hc := z.v_contains ((z.treeG.child_iff _ _).1 h1)
    rw [z.replaced.moduleRoot, e, z.ops_p] at hc
    have hb := z.removable.region
    unfold MayContain at hc
    rcases h3 with ⟨_, h3⟩ | ⟨_, h3⟩ <;> rw [h3] at hc <;>
      cases hop : h.ops p <;> rw [hop] at hb hc <;> simp [Validate.body, DataflowChild] at hb hc
  rw [z.replaced.moduleRoot, z.replaced.host_children _ z.tree.root_live z.root_kept hne] at h1
  rw [z.ops_old (z.tree.parent_live _ _ ((z.tree.child_iff _ _).1 h1)).1 (z.child_kept hne h1)] at h3
  exact ⟨h1, h2, h3⟩

/-! ## Control-flow graphs -/

theorem cfg_ne {c : Nat} {sg : Types.Signature} (hc : h.ops c = .cfg sg) : c ≠ p := by
  rintro rfl
  have := z.removable.region
  rw [hc] at this; cases this

theorem cfg_old {c : Nat} {sg : Types.Signature} (hc : h.ops c = .cfg sg) (hl : h.live c = true) (hk : c ∉ s.nodes)
    {x y : Nat} : RegionEdge g c x y ↔ RegionEdge h c x y := by
  have hch := z.replaced.host_children c hl hk (z.cfg_ne hc)
  constructor
  · rintro ⟨hx, hy, l, hl', rfl, rfl⟩
    rw [hch] at hx hy
    have lx := (z.tree.parent_live _ _ ((z.tree.child_iff _ _).1 hx)).1
    have ly := (z.tree.parent_live _ _ ((z.tree.child_iff _ _).1 hy)).1
    rcases z.links_old lx ly hl' with ⟨h1, _⟩ | ⟨k, j, _, _, hu⟩
    · exact ⟨hx, hy, l, h1, rfl, rfl⟩
    · have := z.uses_parent hu
      rw [(z.tree.child_iff _ _).1 hy] at this
      exact absurd (Option.some.inj this) (z.cfg_ne hc)
  · rintro ⟨hx, hy, l, hl', rfl, rfl⟩
    refine ⟨by rw [hch]; exact hx, by rw [hch]; exact hy, l, ?_, rfl, rfl⟩
    exact z.link_old hl' (z.child_kept (z.cfg_ne hc) hx) (z.child_kept (z.cfg_ne hc) hy)

theorem region_new {c : Nat} (hm : Fresh r i o c) :
    (∀ x y, RegionEdge r c x y → RegionEdge g (f c) (f x) (f y)) ∧
    ∀ x y', Fresh r i o x → RegionEdge g (f c) (f x) y' → ∃ y, y' = f y ∧ Fresh r i o y ∧ RegionEdge r c x y := by
  have hk := z.replaced.node_children c hm
  have hch : ∀ y ∈ r.children c, Fresh r i o y := fun y hy => z.child_fresh' ((z.treeR.child_iff _ _).1 hy) hm
  constructor
  · rintro x y ⟨hx, hy, l, hl, rfl, rfl⟩
    exact ⟨by rw [hk]; exact List.mem_map.2 ⟨_, hx, rfl⟩, by rw [hk]; exact List.mem_map.2 ⟨_, hy, rfl⟩,
      _, z.link_new hl (hch _ hx) (hch _ hy), rfl, rfl⟩
  · rintro x y' hx ⟨hx', hy', l, hl, e1, e2⟩
    rw [hk] at hx' hy'
    obtain ⟨x', hx', ex⟩ := List.mem_map.1 hx'
    obtain ⟨y, hy, rfl⟩ := List.mem_map.1 hy'
    cases z.replaced.injective _ _ (hch _ hx') hx ex
    refine ⟨y, rfl, hch _ hy, hx', hy, ?_⟩
    obtain ⟨a, ap, b, bp⟩ := l
    simp only [] at e1 e2
    subst e1; subst e2
    exact ⟨_, z.links_new hx (hch _ hy) hl, rfl, rfl⟩

theorem v_blocks {l : Link} (hl : l ∈ g.links) {q : Nat} {sg : Types.Signature} (hs : g.ops q = .cfg sg)
    (h1 : l.src ∈ g.children q) (h2 : l.dst ∈ g.children q) : BlockLinkOk g l := by
  have hql := (z.treeG.parent_live _ _ ((z.treeG.child_iff _ _).1 h1)).2
  rcases z.cases2 hql with ⟨hq, hk⟩ | ⟨a, ha, rfl⟩
  · rw [z.ops_old hq hk] at hs
    have hne := z.cfg_ne hs
    rw [z.replaced.host_children q hq hk hne] at h1 h2
    have l1 := (z.tree.parent_live _ _ ((z.tree.child_iff _ _).1 h1)).1
    have l2 := (z.tree.parent_live _ _ ((z.tree.child_iff _ _).1 h2)).1
    rcases z.links_old l1 l2 hl with ⟨hl', _⟩ | ⟨k, j, _, _, hu⟩
    · obtain ⟨ins, other, rows, row, b1, b2, b3⟩ := z.valid.blocks l hl' q sg hs h1 h2
      refine ⟨ins, other, rows, row, by rw [z.ops_old l1 (z.child_kept hne h1)]; exact b1, b2, ?_⟩
      rw [z.ops_old l2 (z.child_kept hne h2)]; exact b3
    · have := z.uses_parent hu
      rw [(z.tree.child_iff _ _).1 h2] at this
      exact absurd (Option.some.inj this) hne
  · rw [z.ops_new ha] at hs
    rw [z.replaced.node_children a ha] at h1 h2
    obtain ⟨x, hx, ex⟩ := List.mem_map.1 h1
    obtain ⟨y, hy, ey⟩ := List.mem_map.1 h2
    have hxm := z.child_fresh' ((z.treeR.child_iff _ _).1 hx) ha
    have hym := z.child_fresh' ((z.treeR.child_iff _ _).1 hy) ha
    obtain ⟨a', ap, b, bp⟩ := l
    simp only [] at ex ey
    subst ex; subst ey
    obtain ⟨ins, other, rows, row, b1, b2, b3⟩ := z.validR.blocks _ (z.links_new hxm hym hl) a sg hs hx hy
    refine ⟨ins, other, rows, row, by rw [z.ops_new hxm]; exact b1, b2, ?_⟩
    rw [z.ops_new hym]; exact b3

/-! ## Types -/

theorem decls {y : Nat} {d : List Types.Term} (hd : DeclsAt g y d) :
    (h.live y = true → y ∉ s.nodes → DeclsAt h y d) ∧
    ∀ x n, Fresh r i o x → y = f x → n ∈ s.nodes → DeclsAt h n d := by
  induction hd with
  | root =>
    constructor
    · intro _ _; rw [z.replaced.moduleRoot]; exact .root
    · intro x n hx e _
      rw [z.replaced.moduleRoot] at e
      exact absurd e (z.old z.tree.root_live hx)
  | @inside y q nm sg hp hop =>
    constructor
    · intro hy hk
      rw [z.parent_old hy hk] at hp
      rw [z.ops_old (z.tree.parent_live _ _ hp).2 (z.parent_kept hp)] at hop
      exact .inside hp hop
    · rintro x n hx rfl hn
      obtain ⟨q', hq'⟩ := z.has_parent hx
      rcases z.parent_new hx hq' with ⟨rfl, h1⟩ | ⟨h2, _, h1⟩
      · rw [h1] at hp; cases hp
        rw [z.ops_p] at hop
        exact .inside (z.removable.parent n hn) hop
      · rw [h1] at hp; cases hp
        rw [z.ops_new h2] at hop
        obtain ⟨q2, hq2⟩ := z.has_parent h2
        have hm := func_parent z.validR hop hq2
        obtain ⟨q3, hq3, hab⟩ := h2.1
        rw [hq2] at hq3; cases hq3
        exfalso
        have hb := z.body.region
        rcases above_cases hab with e | ⟨w, hw, hw'⟩
        · rw [← e, hm] at hb; cases hb
        · have := z.validR.contains _ _ hw
          rw [hm] at this
          unfold MayContain at this
          cases hop2 : r.ops w <;> rw [hop2] at this <;> first | exact this | exact this.2
  | @inherited y q d hp hop _ ih =>
    constructor
    · intro hy hk
      rw [z.parent_old hy hk] at hp
      have hpl := (z.tree.parent_live _ _ hp).2
      rw [z.ops_old hpl (z.parent_kept hp)] at hop
      exact .inherited hp hop (ih.1 hpl (z.parent_kept hp))
    · rintro x n hx rfl hn
      obtain ⟨q', hq'⟩ := z.has_parent hx
      rcases z.parent_new hx hq' with ⟨rfl, h1⟩ | ⟨h2, _, h1⟩
      · rw [h1] at hp; cases hp
        rw [z.ops_p] at hop
        exact .inherited (z.removable.parent n hn) hop (ih.1 z.p_live z.p_kept)
      · rw [h1] at hp; cases hp
        exact ih.2 q' n h2 rfl hn

/-- There are no functions inside a dataflow region. -/
theorem not_defn {a : Nat} (ha : Fresh r i o a) : (∀ nm sg, r.ops a ≠ .funcDefn nm sg) ∧ r.ops a ≠ .module := by
  obtain ⟨q, hq, hab⟩ := ha.1
  have hc := z.validR.contains _ _ hq
  have hb := z.body.region
  constructor
  · intro nm sg hop
    have hm := func_parent z.validR hop hq
    rcases above_cases hab with e | ⟨w, hw, hw'⟩
    · rw [← e, hm] at hb; cases hb
    · have := z.validR.contains _ _ hw
      rw [hm] at this
      unfold MayContain at this
      cases hop2 : r.ops w <;> rw [hop2] at this <;> first | exact this | exact this.2
  · intro hop
    rw [hop] at hc
    unfold MayContain at hc
    cases hop2 : r.ops q <;> rw [hop2] at hc <;> first | exact hc | exact hc.2

theorem decls_new {a : Nat} (ha : Fresh r i o a) {d : List Types.Term} (hd : DeclsAt r i d) : DeclsAt r a d := by
  obtain ⟨q, hq, hab⟩ := ha.1
  have key : ∀ {q e}, Above r.hier.parent q e → e = r.entrypoint → ∀ a, Fresh r i o a → r.hier.parent a = some q →
      DeclsAt r a d := by
    intro q e hab
    induction hab with
    | refl =>
      rintro rfl a ha hq
      have hip := z.io_parent.1
      cases hd with
      | root => rw [z.treeR.root_top] at hip; cases hip
      | inside h1 h2 => rw [hip] at h1; cases h1; exact .inside hq h2
      | inherited h1 h2 h3 => rw [hip] at h1; cases h1; exact .inherited hq h2 h3
    | @step q w e hw h1 ih =>
      rintro rfl a ha hq
      have hqf : Fresh r i o q := by
        rcases z.parent_new ha hq with ⟨rfl, _⟩ | ⟨h2, _, _⟩
        · exact absurd h1 (fun h1 => z.treeR.acyclic _ _ hw h1)
        · exact h2
      exact .inherited hq (z.not_defn hqf).1 (ih rfl q hqf hw)
  exact key hab rfl a ha hq

theorem v_types (hC : C'.types = C.types) (hD : C'.defs = C.defs)
    (hd : ∀ n d, n ∈ s.nodes → DeclsAt h n d → DeclsAt r i d ∨ DeclsAt r i []) {x : Nat} {d : List Types.Term}
    (hx : g.live x = true) (hdx : DeclsAt g x d) :
    ArgsOk C d (g.ops x) ∧ ∀ kind ∈ (g.ops x).ports .outgoing, KindOk C d kind := by
  rcases z.cases2 hx with ⟨hx, hk⟩ | ⟨a, ha, rfl⟩
  · rw [z.ops_old hx hk]
    exact z.valid.types x d hx ((z.decls hdx).1 hx hk)
  · rw [z.ops_new ha]
    obtain ⟨n, hn⟩ := z.first
    have hal : r.live a = true := by
      obtain ⟨q, hq⟩ := z.has_parent ha
      exact (z.treeR.parent_live _ _ hq).1
    have hA : ∀ d op, ArgsOk C' d op → ArgsOk C d op := by
      intro d op; unfold ArgsOk; rw [hC, hD]; exact id
    have hK : ∀ d k, KindOk C' d k → KindOk C d k := by
      intro d k; unfold KindOk; rw [hC]; exact id
    rcases hd n d hn ((z.decls hdx).2 a n ha rfl hn) with h1 | h1
    · obtain ⟨t1, t2⟩ := z.validR.types a _ hal (z.decls_new ha h1)
      exact ⟨hA _ _ t1, fun k hk => hK _ _ (t2 k hk)⟩
    · obtain ⟨t1, t2⟩ := z.validR.types a _ hal (z.decls_new ha h1)
      exact ⟨argsOk_weaken (hA _ _ t1), fun k hk => kindOk_weaken (hK _ _ (t2 k hk))⟩

end SwapAt

end Verif.Patch
