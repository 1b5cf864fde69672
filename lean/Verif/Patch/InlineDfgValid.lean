import Verif.Patch.InlineDfgRuns

/-!
# Inlining a DFG node: validity of the result
-/
namespace Verif.Patch

open Verif.Graph Verif.Ops Verif.Passes Verif.Validate Verif.Dataflow

variable {Meta : Type} {C : Validate.Context} {h g : Hugr Ops.Op Meta}

theorem mayContain_body {op c : Ops.Op} (hb : (body op).isSome = true) (hc : DataflowChild c) :
    MayContain op c := by
  cases op <;> simp only [body, Option.isSome_some, Option.isSome_none, Bool.false_eq_true] at hb <;>
    exact ⟨rfl, hc⟩

theorem childrenOk_body {n : Nat} {ti tj : List Types.Ty} (hb : body (h.ops n) = some (ti, tj)) :
    ChildrenOk h n ↔ ∃ inp out rest, h.children n = inp :: out :: rest ∧
        h.ops inp = .input ti ∧ h.ops out = .output tj ∧ ∀ c ∈ rest, ¬ IsIO (h.ops c) := by
  unfold ChildrenOk
  cases hop : h.ops n <;> rw [hop] at hb <;> simp only [body, Option.some.injEq, reduceCtorEq,
    Prod.mk.injEq] at hb <;> (obtain ⟨rfl, rfl⟩ := hb; simp only [body])

theorem childrenOk_congr {n : Nat} (h1 : g.ops n = h.ops n) (h2 : g.children n = h.children n)
    (h3 : ∀ c ∈ h.children n, g.ops c = h.ops c) (hc : ChildrenOk h n) : ChildrenOk g n := by
  unfold ChildrenOk at hc ⊢
  rw [h1, h2]
  have io : ∀ (ti tj : List Types.Ty), (∃ inp out rest, h.children n = inp :: out :: rest ∧
        h.ops inp = .input ti ∧ h.ops out = .output tj ∧ ∀ c ∈ rest, ¬ IsIO (h.ops c)) →
      ∃ inp out rest, h.children n = inp :: out :: rest ∧
        g.ops inp = .input ti ∧ g.ops out = .output tj ∧ ∀ c ∈ rest, ¬ IsIO (g.ops c) := by
    rintro ti tj ⟨inp, out, rest, e, a1, a2, a3⟩
    rw [e] at h3
    refine ⟨inp, out, rest, e, ?_, ?_, fun c hc => ?_⟩
    · rw [h3 _ (by simp)]; exact a1
    · rw [h3 _ (by simp)]; exact a2
    · rw [h3 _ (by simp [hc])]; exact a3 c hc
  cases hop : h.ops n <;> rw [hop] at hc <;> simp only [body] at hc ⊢
  case conditional =>
    refine ⟨hc.1, ?_⟩
    rw [← hc.2]
    exact List.map_congr_left h3
  case cfg =>
    obtain ⟨entry, exit, rest, x, r, e, a1, a2, a3⟩ := hc
    rw [e] at h3
    refine ⟨entry, exit, rest, x, r, e, ?_, ?_, fun c hc => ?_⟩
    · rw [h3 _ (by simp)]; exact a1
    · rw [h3 _ (by simp)]; exact a2
    · rw [h3 _ (by simp [hc])]; exact a3 c hc
  all_goals first
    | exact io _ _ hc
    | exact hc

/-- A value of `s` may be used in the region `q`. -/
def UseOk (h : Hugr Ops.Op Meta) (s q : Nat) (t : Types.Ty) : Prop :=
  ∃ p, h.hier.parent s = some p ∧ (q = p ∨ ∃ a, Above h.hier.parent q a ∧ t.copyable = true ∧
    ((h.hier.parent a = some p ∧ ∃ o ∈ h.links, o.src = s ∧ o.dst = a ∧ srcKind h o = some .stateOrder) ∨
     SDom h p a))

theorem edgeOk_value {l : Link} {t : Types.Ty} :
    EdgeOk h l (.value t) ↔ ∃ q, h.hier.parent l.dst = some q ∧ UseOk h l.src q t := by
  unfold EdgeOk UseOk SDom
  constructor
  · rintro ⟨p, hp, hd | ⟨q, a, hq, hqa, ⟨hs, _⟩ | ⟨⟨t', e, hc⟩, hor⟩⟩⟩
    · exact ⟨p, hd, p, hp, .inl rfl⟩
    · simp [Kind.isStatic] at hs
    · cases e
      refine ⟨q, hq, p, hp, .inr ⟨a, hqa, hc, ?_⟩⟩
      rcases hor with h1 | ⟨g, sig, entry, rest, h1, h2, h3, h4, h5, h6⟩
      · exact .inl h1
      · exact .inr ⟨h1, g, sig, entry, rest, h2, h3, h4, h5, h6⟩
  · rintro ⟨q, hq, p, hp, rfl | ⟨a, hqa, hc, hor⟩⟩
    · exact ⟨q, hp, .inl hq⟩
    · refine ⟨p, hp, .inr ⟨q, a, hq, hqa, .inr ⟨⟨t, rfl, hc⟩, ?_⟩⟩⟩
      rcases hor with h1 | ⟨h1, g, sig, entry, rest, h2, h3, h4, h5, h6⟩
      · exact .inl h1
      · exact .inr ⟨g, sig, entry, rest, h1, h2, h3, h4, h5, h6⟩

theorem same_child (ht : IsTree h) {q a b r : Nat} (ha : Above h.hier.parent q a)
    (hb : Above h.hier.parent q b) (h1 : h.hier.parent a = some r) (h2 : h.hier.parent b = some r) : a = b := by
  have key : ∀ {a b}, Above h.hier.parent a b → h.hier.parent a = some r → h.hier.parent b = some r → a = b := by
    intro a b hab h1 h2
    rcases above_cases hab with e | ⟨x, hx, hxb⟩
    · exact e
    · rw [h1] at hx; cases hx
      exact absurd hxb (ht.acyclic _ _ h2)
  rcases ha.total hb with h3 | h3
  · exact key h3 h1 h2
  · exact (key h3 h2 h1).symm

theorem edgeOk_order {l : Link} (he : EdgeOk h l .stateOrder) :
    ∃ q, h.hier.parent l.src = some q ∧ h.hier.parent l.dst = some q := by
  obtain ⟨p, hp, hd | ⟨q, a, hq, hqa, ⟨hs, _⟩ | ⟨⟨t', e, hc⟩, hor⟩⟩⟩ := he
  · exact ⟨p, hp, hd⟩
  · simp [Kind.isStatic] at hs
  · cases e

/-- Links of values and order come from what the region can use. -/
theorem link_see' (ht : IsTree h) (hv : Valid C h) {l : Link} (hl : l ∈ h.links) {kind : Kind}
    (hs : srcKind h l = some kind) (hk : kind.isValue = true ∨ kind = .stateOrder) :
    ∃ A Q, h.hier.parent l.src = some A ∧ h.hier.parent l.dst = some Q ∧ (A = Q ∨ See h Q A) := by
  rcases hk with hk | rfl
  · cases kind <;> simp [Kind.isValue] at hk
    exact link_see ht hv hl hs
  · obtain ⟨k', k1, _, he⟩ := hv.kinds l hl
    rw [hs] at k1; cases k1
    obtain ⟨q, h1, h2⟩ := edgeOk_order he
    exact ⟨q, q, h1, h2, .inl rfl⟩

variable {p d i o : Nat} {sig : Types.Signature} {rest : List Nat}

namespace Dissolved
variable (z : Dissolved C h g p d i o sig rest)
include z

theorem live3 {n : Nat} (hn : g.live n = true) : h.live n = true ∧ n ≠ d ∧ n ≠ i ∧ n ≠ o :=
  (z.inl.live n).1 hn

theorem op {n : Nat} (hn : n ≠ d ∧ n ≠ i ∧ n ≠ o) : g.ops n = h.ops n := z.inl.ops n hn.1 hn.2.1 hn.2.2

theorem up {n : Nat} (hn : n ≠ d ∧ n ≠ i ∧ n ≠ o) : g.hier.parent n = regionAfter h p d n :=
  z.inl.parent n hn.1 hn.2.1 hn.2.2

/-- Nothing is inside the input and the output. -/
theorem not_in_io {n q : Nat} (hq : h.hier.parent n = some q) : q ≠ i ∧ q ≠ o := by
  have hc := z.valid.contains n q hq
  constructor <;> rintro rfl
  · rw [z.dfg.opI] at hc; simp [MayContain, body] at hc
  · rw [z.dfg.opO] at hc; simp [MayContain, body] at hc

theorem p3 : p ≠ d ∧ p ≠ i ∧ p ≠ o := ⟨z.pd, z.not_in_io z.dfg.parent⟩

theorem up_cases {n q : Nat} (hq : g.hier.parent n = some q) : (n ≠ d ∧ n ≠ i ∧ n ≠ o) ∧
    (q ≠ d ∧ q ≠ i ∧ q ≠ o) ∧ (h.hier.parent n = some d ∧ q = p ∨ h.hier.parent n = some q) := by
  obtain ⟨h1, h2⟩ := z.treeG.parent_live n q hq
  refine ⟨(z.live3 h1).2, (z.live3 h2).2, ?_⟩
  rw [z.up (z.live3 h1).2, regionAfter] at hq
  by_cases hd : h.hier.parent n = some d
  · rw [if_pos hd] at hq; cases hq; exact .inl ⟨hd, rfl⟩
  · rw [if_neg hd] at hq; exact .inr hq

theorem up_of {n q : Nat} (hn : n ≠ d ∧ n ≠ i ∧ n ≠ o) (hq : h.hier.parent n = some q) :
    g.hier.parent n = some (if q = d then p else q) := by
  rw [z.up hn, regionAfter, hq]
  by_cases hd : q = d
  · rw [if_pos (by rw [hd]), if_pos hd]
  · rw [if_neg (by simpa using hd), if_neg hd]

theorem v_contains {n q : Nat} (hq : g.hier.parent n = some q) : MayContain (g.ops q) (g.ops n) := by
  obtain ⟨h1, h2, ⟨h3, rfl⟩ | h3⟩ := z.up_cases hq
  · rw [z.op h1, z.op h2]
    have hc := z.valid.contains _ _ h3
    rw [z.dfg.op] at hc
    exact mayContain_body z.body_p hc.2
  · rw [z.op h1, z.op h2]
    exact z.valid.contains _ _ h3

theorem v_children {n : Nat} (hn : g.live n = true) : ChildrenOk g n := by
  obtain ⟨h1, h2⟩ := z.live3 hn
  by_cases hnp : n = p
  · subst hnp
    obtain ⟨⟨ti, tj⟩, hb⟩ := Option.isSome_iff_exists.1 z.body_p
    rw [childrenOk_body (by rw [z.op h2]; exact hb)]
    obtain ⟨inp, out, r, e, a1, a2, a3⟩ := (childrenOk_body hb).1 (z.valid.children n h1)
    have hch : ∀ c ∈ h.children n, c ≠ d → c ≠ d ∧ c ≠ i ∧ c ≠ o := fun c hc hd =>
      z.ne3_p ((z.tree.child_iff n c).1 hc) hd
    have n1 : inp ≠ d := by rintro rfl; rw [z.dfg.op] at a1; cases a1
    have n2 : out ≠ d := by rintro rfl; rw [z.dfg.op] at a2; cases a2
    refine ⟨inp, out, r.filter (· ≠ d) ++ (h.children d).drop 2, ?_, ?_, ?_, ?_⟩
    · rw [z.inl.inside, e]; simp [n1, n2]
    · rw [z.op (hch _ (by rw [e]; simp) n1)]; exact a1
    · rw [z.op (hch _ (by rw [e]; simp) n2)]; exact a2
    · intro c hc
      rw [z.dfg.children, List.mem_append, List.mem_filter] at hc
      simp only [ne_eq, decide_not, Bool.not_eq_eq_eq_not, Bool.not_true, decide_eq_false_iff_not,
        List.drop_succ_cons, List.drop_zero] at hc
      rcases hc with ⟨hc, hcd⟩ | hc
      · rw [z.op (hch c (by rw [e]; simp [hc]) hcd)]; exact a3 c hc
      · rw [z.op (z.ne3_rest hc)]
        have hd := z.valid.children d z.K.liveD
        rw [childrenOk_body (by rw [z.dfg.op]; rfl)] at hd
        obtain ⟨inp', out', r', e', _, _, a3'⟩ := hd
        rw [z.dfg.children] at e'
        simp only [List.cons.injEq] at e'
        exact a3' c (by rw [← e'.2.2]; exact hc)
  · refine childrenOk_congr (z.op h2) (z.inl.others n hnp h2.1) (fun c hc => ?_) (z.valid.children n h1)
    exact z.op (z.ne3 ((z.tree.child_iff n c).1 hc) hnp h2.1)

theorem v_entrypoint : Container (g.ops g.entrypoint) := by
  have h1 := (z.live3 z.treeG.entry_live).2
  rw [z.op h1, z.inl.entrypoint]
  exact z.valid.entrypoint

/-- The children of a control-flow graph. -/
theorem cfg_child {q n : Nat} {s : Types.Signature} (hs : h.ops q = .cfg s) (hn : h.hier.parent n = some q) :
    (n ≠ d ∧ n ≠ i ∧ n ≠ o) ∧ ∀ k ∈ (h.ops n).ports .incoming, k = .controlFlow := by
  have hc := z.valid.contains n q hn
  rw [hs] at hc
  refine ⟨z.ne3 hn (fun e => z.p_not_cfg s (e ▸ hs)) (by rintro rfl; rw [z.dfg.op] at hs; cases hs), ?_⟩
  intro k hk
  cases hop : h.ops n <;> rw [hop] at hc hk <;> simp [MayContain] at hc <;> simp [Op.ports] at hk
  · exact hk
  · exact hk

theorem cfg_edge {q : Nat} {s : Types.Signature} (hs : h.ops q = .cfg s) {a b : Nat} :
    RegionEdge g q a b ↔ RegionEdge h q a b := by
  have hqp : q ≠ p := fun e => z.p_not_cfg s (e ▸ hs)
  have hqd : q ≠ d := by rintro rfl; rw [z.dfg.op] at hs; cases hs
  unfold RegionEdge
  rw [z.inl.others q hqp hqd]
  constructor
  · rintro ⟨h1, h2, l, hl, rfl, rfl⟩
    obtain ⟨c1, c2⟩ := z.cfg_child hs ((z.tree.child_iff q _).1 h2)
    exact ⟨h1, h2, l, z.block_link_g hl c1 c2, rfl, rfl⟩
  · rintro ⟨h1, h2, l, hl, rfl, rfl⟩
    obtain ⟨c1, c2⟩ := z.cfg_child hs ((z.tree.child_iff q _).1 h2)
    exact ⟨h1, h2, l, z.block_link_h hl c1 c2, rfl, rfl⟩

theorem v_blocks {l : Link} (hl : l ∈ g.links) {q : Nat} {s : Types.Signature} (hs : g.ops q = .cfg s)
    (h1 : l.src ∈ g.children q) (h2 : l.dst ∈ g.children q) : BlockLinkOk g l := by
  have hq := (z.live3 (z.treeG.parent_live _ _ ((z.treeG.child_iff q _).1 h1)).2).2
  rw [z.op hq] at hs
  have hqp : q ≠ p := fun e => z.p_not_cfg s (e ▸ hs)
  rw [z.inl.others q hqp hq.1] at h1 h2
  obtain ⟨c1, c2⟩ := z.cfg_child hs ((z.tree.child_iff q _).1 h2)
  have c3 := (z.cfg_child hs ((z.tree.child_iff q _).1 h1)).1
  have := z.valid.blocks l (z.block_link_g hl c1 c2) q s hs h1 h2
  unfold BlockLinkOk at this ⊢
  rw [z.op c1, z.op c3]
  exact this

theorem v_decls {n : Nat} {decls : List Types.Term} (hd : DeclsAt g n decls) : DeclsAt h n decls := by
  have hdfg : ∀ name s, h.ops d ≠ .funcDefn name s := by
    intro name s hs; rw [z.dfg.op] at hs; cases hs
  induction hd with
  | root => rw [z.inl.moduleRoot]; exact .root
  | inside hp hop =>
    obtain ⟨h1, h2, ⟨h3, rfl⟩ | h3⟩ := z.up_cases hp
    · rw [z.op h2] at hop
      exact .inherited h3 hdfg (.inside z.dfg.parent hop)
    · rw [z.op h2] at hop
      exact .inside h3 hop
  | inherited hp hop _ ih =>
    obtain ⟨h1, h2, ⟨h3, rfl⟩ | h3⟩ := z.up_cases hp
    · rw [z.op h2] at hop
      exact .inherited h3 hdfg (.inherited z.dfg.parent hop ih)
    · rw [z.op h2] at hop
      exact .inherited h3 hop ih

theorem v_exports {n : Nat} {name : String} {s : Types.PolyFunc} {b : Bool} (he : Exports C g n name s b) :
    Exports C h n name s b := by
  obtain ⟨h1, h2, h3⟩ := he
  have hn := (z.live3 (z.treeG.parent_live _ _ ((z.treeG.child_iff _ _).1 h1)).1).2
  rw [z.op hn] at h3
  refine ⟨?_, h2, h3⟩
  rw [z.inl.moduleRoot] at h1
  obtain ⟨_, _, ⟨h4, h5⟩ | h4⟩ := z.up_cases ((z.treeG.child_iff _ _).1 h1)
  · have hc := z.valid.contains _ _ h4
    rw [z.dfg.op] at hc
    rcases h3 with ⟨_, h3⟩ | ⟨_, h3⟩ <;> rw [h3] at hc <;> simp [MayContain, DataflowChild] at hc
  · exact (z.tree.child_iff _ _).2 h4

/-! ## Where links go -/

theorem above_io {q a : Nat} (ha : Above h.hier.parent q a) (hi : q ≠ i) (ho : q ≠ o) : a ≠ i ∧ a ≠ o := by
  by_cases hqa : q = a
  · subst hqa; exact ⟨hi, ho⟩
  · obtain ⟨c, _, hc⟩ := ha.last hqa
    exact z.not_in_io hc

theorem above_g {q a : Nat} (ha : Above h.hier.parent q a) (hi : q ≠ i) (ho : q ≠ o) (had : a ≠ d) :
    Above g.hier.parent (if q = d then p else q) a := by
  induction ha with
  | refl => rw [if_neg had]; exact .refl _
  | @step q q' a hq _ ih =>
    have ih := ih (z.not_in_io hq).1 (z.not_in_io hq).2 had
    by_cases hqd : q = d
    · subst hqd
      rw [z.dfg.parent] at hq; cases hq
      rw [if_neg z.pd] at ih
      rw [if_pos rfl]; exact ih
    · rw [if_neg hqd]
      exact .step (z.up_of ⟨hqd, hi, ho⟩ hq) ih

theorem sdom_g {b a : Nat} (hs : SDom h b a) : SDom g b a ∧ b ≠ d ∧ a ≠ d := by
  obtain ⟨hne, c, s, entry, r, h1, h2, h3, h4, h5⟩ := hs
  have b3 := (z.cfg_child h3 h1).1
  have a3 := (z.cfg_child h3 h2).1
  have hcp : c ≠ p := fun e => z.p_not_cfg s (e ▸ h3)
  have hcd : c ≠ d := by rintro rfl; rw [z.dfg.op] at h3; cases h3
  have hc3 := z.not_in_io h1
  refine ⟨⟨hne, c, s, entry, r, ?_, ?_, ?_, ?_, ?_⟩, b3.1, a3.1⟩
  · rw [z.up_of b3 h1, if_neg hcd]
  · rw [z.up_of a3 h2, if_neg hcd]
  · rw [z.op ⟨hcd, hc3⟩]; exact h3
  · rw [z.inl.others c hcp hcd]; exact h4
  · have : RegionEdge g c = RegionEdge h c := by
      funext x y; exact propext (z.cfg_edge h3)
    rw [this]; exact h5

theorem link_self {l : Link} (hl : l ∈ h.links) (h1 : l.src ≠ d ∧ l.src ≠ i ∧ l.src ≠ o)
    (h2 : l.dst ≠ d ∧ l.dst ≠ i ∧ l.dst ≠ o) : l ∈ g.links :=
  (z.inl.links l).2 ⟨h1, h2, .inl ⟨l.src, l.srcPort, hl, .self h1.1 h1.2.1⟩⟩

theorem srcKind_g {l : Link} (h1 : l.src ≠ d ∧ l.src ≠ i ∧ l.src ≠ o) : srcKind g l = srcKind h l := by
  unfold srcKind; rw [z.op h1]

/-- There is a link of order between two nodes of the result. -/
def Ord (g : Hugr Ops.Op Meta) (x y : Nat) : Prop :=
  ∃ l ∈ g.links, l.src = x ∧ l.dst = y ∧ srcKind g l = some .stateOrder

theorem exists_order {x y : Nat} (hx : x ≠ d ∧ x ≠ i ∧ x ≠ o) (hy : y ≠ d ∧ y ≠ i ∧ y ≠ o)
    (h1 : ∃ l ∈ h.links, l.src = x ∧ (l.dst = d ∨ l.dst = o))
    (h2 : ∃ l ∈ h.links, l.dst = y ∧ (l.src = d ∨ l.src = i))
    (hor : OrderedIn h d i x y ∨ OrderedOut h d i o x y) : Ord g x y := by
  obtain ⟨l1, hl1, rfl, e1⟩ := h1
  obtain ⟨l2, hl2, rfl, e2⟩ := h2
  have k1 := (z.dfg.ends z.tree z.valid hl1 (by tauto)).1
  have k2 := (z.dfg.ends z.tree z.valid hl2 (by tauto)).2
  have hk : IsOrderLink h (ordLink h l1.src l2.dst) := ⟨(k1 _).2 rfl, (k2 _).2 rfl⟩
  refine ⟨ordLink h l1.src l2.dst, (z.inl.links _).2 ⟨hx, hy, .inr ⟨hk, hor⟩⟩, rfl, rfl, ?_⟩
  exact (z.srcKind_g (l := ordLink h l1.src l2.dst) hx).trans hk.1

theorem ordered_src {x y : Nat} (ho : OrderedIn h d i x y ∨ OrderedOut h d i o x y) :
    ∃ l ∈ h.links, l.src = x ∧ (l.dst = d ∨ l.dst = o) := by
  rcases ho with ⟨l1, hl1, _, _, f1, f2, _⟩ | ⟨_, _, _, _, ⟨l1, hl1, _, _, f1, f2, _⟩ | ⟨l1, hl1, f1, ⟨sp, hc⟩, _⟩⟩
  · exact ⟨l1, hl1, f1, .inl f2⟩
  · exact ⟨l1, hl1, f1, .inl f2⟩
  · obtain ⟨s, sp', t, tp⟩ := l1
    simp only [] at f1 hc
    subst f1
    cases hc with
    | self => exact ⟨_, hl1, rfl, .inr rfl⟩
    | input hl => exact ⟨_, hl, rfl, .inl rfl⟩
    | output => exact absurd rfl (z.K.noDO _ hl1 rfl)

/-- Nodes that were ordered by way of the DFG node are ordered. -/
theorem ordered {x y : Nat} (hx : x ≠ d ∧ x ≠ i ∧ x ≠ o) (hy : y ≠ d ∧ y ≠ i ∧ y ≠ o)
    (ho : OrderedIn h d i x y ∨ OrderedOut h d i o x y) : Ord g x y := by
  refine z.exists_order hx hy (z.ordered_src ho) ?_ ho
  rcases ho with ⟨_, _, l2, hl2, _, _, e3, e4, _⟩ | ⟨l2, hl2, e1, e2, _⟩
  · exact ⟨l2, hl2, e4, .inr e3⟩
  · exact ⟨l2, hl2, e2, .inl e1⟩

theorem comes_kind {n port s sp : Nat} {kind : Kind} (hc : Comes h d i o n port s sp)
    (hk : ((h.ops n).ports .outgoing)[port]? = some kind) : ((h.ops s).ports .outgoing)[sp]? = some kind := by
  induction hc with
  | self => exact hk
  | input hl =>
    obtain ⟨k', k1, k2⟩ := link_kinds z.valid hl
    rw [z.kindI.1 hk] at k2; cases k2
    exact k1
  | output hl _ ih =>
    obtain ⟨k', k1, k2⟩ := link_kinds z.valid hl
    rw [z.kindO.2 hk] at k2; cases k2
    exact ih k1

theorem use_self {s q : Nat} {t : Types.Ty} (hu : UseOk h s q t) (hs : s ≠ d ∧ s ≠ i ∧ s ≠ o) (hi : q ≠ i)
    (ho : q ≠ o) (hk : ∀ c, h.hier.parent c = some d → Above h.hier.parent q c → h.hier.parent s = some p →
      Ord g s c) : UseOk g s (if q = d then p else q) t := by
  obtain ⟨P, hP, rfl | ⟨a, ha, hc, ⟨hap, l, hl, l1, l2, l3⟩ | hd⟩⟩ := hu
  · exact ⟨_, z.up_of hs hP, .inl rfl⟩
  · obtain ⟨ai, ao⟩ := z.above_io ha hi ho
    by_cases had : a = d
    · subst had
      rw [z.dfg.parent] at hap; cases hap
      refine ⟨p, by rw [z.up_of hs hP, if_neg z.pd], ?_⟩
      by_cases hqa : q = a
      · exact .inl (if_pos hqa)
      · obtain ⟨c, hc1, hc2⟩ := ha.last hqa
        have hcd : c ≠ a := by rintro rfl; exact z.tree.acyclic _ _ hc2 (.refl _)
        have hcio := z.above_io hc1 hi ho
        refine .inr ⟨c, z.above_g hc1 hi ho hcd, hc, .inl ⟨?_, ?_⟩⟩
        · rw [z.up_of ⟨hcd, hcio⟩ hc2, if_pos rfl]
        · obtain ⟨o', a1, a2, a3, a4⟩ := hk c hc2 hc1 hP
          exact ⟨o', a1, a2, a3, a4⟩
    · refine ⟨_, z.up_of hs hP, .inr ⟨a, z.above_g ha hi ho had, hc, .inl ⟨z.up_of ⟨had, ai, ao⟩ hap, ?_⟩⟩⟩
      subst l1; subst l2
      exact ⟨l, z.link_self hl hs ⟨had, ai, ao⟩, rfl, rfl, by rw [z.srcKind_g hs]; exact l3⟩
  · obtain ⟨h1, h2, h3⟩ := z.sdom_g hd
    refine ⟨_, z.up_of hs hP, .inr ⟨a, z.above_g ha hi ho h3, hc, .inr ?_⟩⟩
    rw [if_neg h2]; exact h1

theorem use_inner {s n P q : Nat} {t : Types.Ty} (hs : s ≠ d ∧ s ≠ i ∧ s ≠ o) (hu : UseOk g s p t)
    (hP : h.hier.parent n = some P) (hn : P = d ∨ P = p) (hv : UseOk h n q t) (hi : q ≠ i) (ho : q ≠ o)
    (hk : ∀ a ≠ d, a ≠ i → a ≠ o → Ord h n a → Ord g s a) (hnd : ¬ Ord h n d) :
    UseOk g s (if q = d then p else q) t := by
  obtain ⟨P', hP', hor⟩ := hv
  rw [hP] at hP'; cases hP'
  rcases hor with rfl | ⟨a, ha, hc, ⟨hap, hl⟩ | hd⟩
  · rcases hn with rfl | rfl
    · rw [if_pos rfl]; exact hu
    · rw [if_neg z.pd]; exact hu
  · have had : a ≠ d := by rintro rfl; exact hnd hl
    obtain ⟨ai, ao⟩ := z.above_io ha hi ho
    have h1 := z.above_g ha hi ho had
    have h2 : g.hier.parent a = some p := by
      rw [z.up_of ⟨had, ai, ao⟩ hap]
      rcases hn with rfl | rfl
      · rw [if_pos rfl]
      · rw [if_neg z.pd]
    obtain ⟨B, hB, hor⟩ := hu
    refine ⟨B, hB, .inr ?_⟩
    rcases hor with rfl | ⟨a', ha', hc', hor⟩
    · obtain ⟨o', a1, a2, a3, a4⟩ := hk a had ai ao hl
      exact ⟨a, h1, hc, .inl ⟨h2, o', a1, a2, a3, a4⟩⟩
    · exact ⟨a', h1.trans (.step h2 ha'), hc, hor⟩
  · obtain ⟨d1, d2, d3⟩ := z.sdom_g hd
    have hPp : P = p := hn.resolve_left d2
    subst hPp
    have h1 := z.above_g ha hi ho d3
    obtain ⟨B, hB, hor⟩ := hu
    refine ⟨B, hB, .inr ?_⟩
    obtain ⟨hne, c, sg, entry, r, c1, c2, c3, c4, c5⟩ := id d1
    rcases hor with rfl | ⟨a', ha', hc', hor⟩
    · exact ⟨a, h1, hc, .inr d1⟩
    · rcases above_cases ha' with e | ⟨c', hc1, hc2⟩
      · subst e
        rcases hor with ⟨hap, l, hl, l1, l2, l3⟩ | hd'
        · -- a node of a control-flow graph has no order
          exfalso
          rw [c1] at hap; cases hap
          obtain ⟨_, b1, b2⟩ := z.up_cases hB
          rw [z.op b1] at c3
          have hBh : h.hier.parent s = some B := by
            rcases b2 with ⟨_, e⟩ | e
            · subst e; exact absurd c3 (z.p_not_cfg _)
            · exact e
          rw [z.srcKind_g (by rw [l1]; exact hs), srcKind, l1] at l3
          have := body_of_value z.valid hBh (List.mem_of_getElem? l3) (.inr rfl)
          rw [c3] at this
          simp [body] at this
        · exact ⟨a, h1, hc, .inr (hd'.trans d1)⟩
      · rw [c1] at hc1; cases hc1
        exact ⟨a', h1.trans (.step c2 hc2), hc, hor⟩

theorem dfg_static {l : Link} (hl : l ∈ h.links) {kind : Kind} (hk : srcKind h l = some kind)
    (h1 : kind.isValue = false) (h2 : kind ≠ .stateOrder) : l.src ≠ d ∧ l.src ≠ i := by
  constructor <;> intro e
  · obtain ⟨k', k1, k2⟩ := z.dfg.kind z.valid hl (.inl e)
    rw [hk] at k1; cases k1
    rw [h1] at k2; simp [h2] at k2
  · obtain ⟨k', k1, k2⟩ := z.dfg.kind z.valid hl (.inr (.inl e))
    rw [hk] at k1; cases k1
    rw [h1] at k2; simp [h2] at k2

theorem edge_self {l : Link} {kind : Kind} (hk1 : kind.isValue = false) (he : EdgeOk h l kind)
    (hs : l.src ≠ d ∧ l.src ≠ i ∧ l.src ≠ o) (hd : l.dst ≠ d ∧ l.dst ≠ i ∧ l.dst ≠ o) : EdgeOk g l kind := by
  obtain ⟨P, hP, hor⟩ := he
  refine ⟨_, z.up_of hs hP, ?_⟩
  rcases hor with hq | ⟨q, a, hq, hqa, ⟨hst, ha⟩ | ⟨⟨t, e, _⟩, _⟩⟩
  · exact .inl (z.up_of hd hq)
  · have hio := z.not_in_io hq
    by_cases had : a = d
    · subst had
      rw [z.dfg.parent] at ha; cases ha
      rw [if_neg z.pd]
      by_cases hqd : q = a
      · left; rw [z.up_of hd hq, if_pos hqd]
      · right
        obtain ⟨c, hc1, hc2⟩ := hqa.last hqd
        have hcd : c ≠ a := by rintro rfl; exact z.tree.acyclic _ _ hc2 (.refl _)
        have hcio := z.above_io hc1 hio.1 hio.2
        refine ⟨_, c, z.up_of hd hq, z.above_g hc1 hio.1 hio.2 hcd, .inl ⟨hst, ?_⟩⟩
        rw [z.up_of ⟨hcd, hcio⟩ hc2, if_pos rfl]
    · have haio := z.above_io hqa hio.1 hio.2
      exact .inr ⟨_, a, z.up_of hd hq, z.above_g hqa hio.1 hio.2 had, .inl ⟨hst, z.up_of ⟨had, haio⟩ ha⟩⟩
  · subst e; simp [Kind.isValue] at hk1

theorem no_loop {n q : Nat} (hn : h.hier.parent n = some q) (hb : (body (h.ops q)).isSome = true) :
    ¬ Ord h n n := by
  rintro ⟨l, hl, h1, h2, _⟩
  have hm := (z.tree.child_iff q n).2 hn
  exact z.valid.acyclic q (z.tree.parent_live _ _ hn).2 hb n (.single ⟨hm, hm, l, hl, h1, h2⟩)

theorem v_edges (hf : OrderFits h p d i o) {l : Link} (hl : l ∈ g.links) :
    ∃ kind, srcKind g l = some kind ∧ ((g.ops l.dst).ports .incoming)[l.dstPort]? = some kind ∧
      EdgeOk g l kind := by
  obtain ⟨hs, hd, hor⟩ := (z.inl.links l).1 hl
  rw [z.srcKind_g hs, z.op hd]
  rcases hor with ⟨n, port, hl0, hc⟩ | ⟨⟨k1, k2⟩, hor⟩
  swap
  · refine ⟨_, k1, k2, ?_⟩
    have := hf.together _ _ hs.1 hs.2.1 hs.2.2 hd.1 hd.2.1 hd.2.2 hor
    rw [← z.up hs, ← z.up hd] at this
    obtain ⟨l1, m1, e1, _⟩ := z.ordered_src hor
    obtain ⟨_, _, _, q, hq, _⟩ := z.valid.kinds l1 m1
    rw [e1] at hq
    exact ⟨_, z.up_of hs hq, .inl (by rw [← this]; exact z.up_of hs hq)⟩
  · obtain ⟨kind, k1, k2, he⟩ := z.valid.kinds _ hl0
    refine ⟨kind, z.comes_kind hc k1, k2, ?_⟩
    obtain ⟨s, sp, t, tp⟩ := l
    simp only [] at hs hd hc hl0 k2
    by_cases hval : kind.isValue = true
    · obtain ⟨ty, rfl⟩ : ∃ ty, kind = .value ty := by
        cases kind <;> simp [Kind.isValue] at hval
        exact ⟨_, rfl⟩
      rw [edgeOk_value] at he ⊢
      obtain ⟨q, hq, hu⟩ := he
      simp only [] at hq hu
      refine ⟨_, z.up_of hd hq, ?_⟩
      obtain ⟨hqi, hqo⟩ := z.not_in_io hq
      have hin : ∀ {port s sp}, (⟨s, sp, d, port⟩ : Link) ∈ h.links →
          ((h.ops d).ports .incoming)[port]? = some (.value ty) → (s ≠ d ∧ s ≠ i ∧ s ≠ o) → UseOk g s p ty := by
        intro port s sp hl hk hs
        obtain ⟨k', j1, j2, je⟩ := z.valid.kinds _ hl
        simp only [hk, Option.some.injEq] at j2
        subst j2
        rw [edgeOk_value] at je
        obtain ⟨q', hq', hu'⟩ := je
        simp only [z.dfg.parent, Option.some.injEq] at hq' hu'
        subst hq'
        have := z.use_self hu' hs z.p3.2.1 z.p3.2.2 (by
          intro c hc hpc
          exact absurd (hpc.trans (.of_parent hc)) (z.tree.acyclic _ _ z.dfg.parent))
        rwa [if_neg z.pd] at this
      cases hc with
      | self h1 h2 =>
        refine z.use_self hu hs hqi hqo (fun c hc hqc hsp => ?_)
        refine z.ordered hs ⟨?_, z.above_io hqc hqi hqo⟩
          (.inl (hf.kept _ hl0 ty c q k1 hsp hc hq hqc))
        rintro rfl; exact z.tree.acyclic _ _ hc (.refl _)
      | input hl1 =>
        refine z.use_inner hs (hin hl1 (z.kindI.1 k1) hs) (z.dfg.parentI z.tree) (.inl rfl) hu hqi hqo ?_ ?_
        · rintro a a1 a2 a3 ⟨l2, b1, b2, b3, b4⟩
          exact z.ordered hs ⟨a1, a2, a3⟩ (.inl ⟨_, hl1, l2, b1, rfl, rfl, b2, b3, .inr b4⟩)
        · rintro ⟨l2, b1, b2, b3, b4⟩
          exact z.K.noID l2 b1 b2 b3
      | output hl1 hc' =>
        rename_i n' np'
        obtain ⟨k', j1, j2, je⟩ := z.valid.kinds _ hl1
        simp only [z.kindO.2 k1, Option.some.injEq] at j2
        subst j2
        have hu' : UseOk g s p ty := by
          cases hc' with
          | self h1 h2 =>
            rw [edgeOk_value] at je
            obtain ⟨q', hq', hu'⟩ := je
            simp only [z.dfg.parentO z.tree, Option.some.injEq] at hq' hu'
            subst hq'
            have := z.use_self hu' hs (z.dfg.ne z.tree).1 (z.dfg.ne z.tree).2.1 (by
              intro c hc hpc
              exact absurd hpc (z.tree.acyclic _ _ hc))
            rwa [if_pos rfl] at this
          | input hl2 => exact hin hl2 (z.kindI.1 j1) hs
          | output => exact absurd rfl (z.K.noDO _ hl1 rfl)
        refine z.use_inner hs hu' z.dfg.parent (.inr rfl) hu hqi hqo ?_ (z.no_loop z.dfg.parent z.body_p)
        rintro a a1 a2 a3 ⟨l2, b1, b2, b3, b4⟩
        exact z.ordered hs ⟨a1, a2, a3⟩ (.inr ⟨l2, b1, b2, b3, .inr ⟨_, hl1, rfl, ⟨sp, hc'⟩, .inr b4⟩⟩)
    · have hval : kind.isValue = false := by simpa using hval
      by_cases hord : kind = .stateOrder
      · subst hord
        have hlocal : ∀ {l : Link}, l ∈ h.links → srcKind h l = some .stateOrder →
            ∃ q, h.hier.parent l.src = some q ∧ h.hier.parent l.dst = some q := by
          intro l hl hk
          obtain ⟨k', j1, _, je⟩ := z.valid.kinds _ hl
          rw [hk] at j1; cases j1
          exact edgeOk_order je
        have hin : ∀ {port s sp}, (⟨s, sp, d, port⟩ : Link) ∈ h.links →
            ((h.ops d).ports .incoming)[port]? = some .stateOrder → h.hier.parent s = some p := by
          intro port s sp hl hk
          obtain ⟨k', j1, j2⟩ := link_kinds z.valid hl
          simp only [hk, Option.some.injEq] at j2
          subst j2
          obtain ⟨q, q1, q2⟩ := hlocal hl j1
          simp only [z.dfg.parent, Option.some.injEq] at q1 q2
          rw [q1, q2]
        obtain ⟨q, q1, q2⟩ := hlocal hl0 k1
        simp only [] at q1 q2
        have fin : ∀ r, h.hier.parent s = some r → (if r = d then p else r) = (if q = d then p else q) →
            EdgeOk g ⟨s, sp, t, tp⟩ .stateOrder := by
          intro r hr e
          refine ⟨_, z.up_of hs hr, .inl ?_⟩
          rw [e]; exact z.up_of hd q2
        cases hc with
        | self h1 h2 => exact fin q q1 rfl
        | input hl1 =>
          rw [z.dfg.parentI z.tree] at q1; cases q1
          exact fin p (hin hl1 (z.kindI.1 k1)) (by rw [if_neg z.pd, if_pos rfl])
        | output hl1 hc' =>
          rename_i n' np'
          rw [z.dfg.parent] at q1; cases q1
          obtain ⟨k', j1, j2, je⟩ := z.valid.kinds _ hl1
          simp only [z.kindO.2 k1, Option.some.injEq] at j2
          subst j2
          cases hc' with
          | self h1 h2 =>
            obtain ⟨q', q1', q2'⟩ := hlocal hl1 j1
            simp only [z.dfg.parentO z.tree, Option.some.injEq] at q1' q2'
            subst q2'
            exact fin d q1' (by rw [if_neg z.pd, if_pos rfl])
          | input hl2 => exact fin p (hin hl2 (z.kindI.1 j1)) rfl
          | output => exact absurd rfl (z.K.noDO _ hl1 rfl)
      · have hne := z.dfg_static hl0 k1 hval hord
        cases hc with
        | self h1 h2 => exact z.edge_self hval he hs hd
        | input => exact absurd rfl hne.2
        | output => exact absurd rfl hne.1

/-! ## How many links there are -/

theorem v_inDegree {n port : Nat} {kind : Kind} (hn : g.live n = true)
    (hk : ((g.ops n).ports .incoming)[port]? = some kind) : InDegreeOk kind (linksTo g n port).length := by
  obtain ⟨hl, h3⟩ := z.live3 hn
  rw [z.op h3] at hk
  have hdeg := z.valid.inDegree n port kind hl hk
  have hex : kind ≠ .stateOrder → 1 ≤ (linksTo h n port).length → 1 ≤ (linksTo g n port).length := by
    intro hso hpos
    obtain ⟨l, hm⟩ := List.exists_mem_of_length_pos hpos
    simp only [linksTo, List.mem_filter, Bool.and_eq_true, decide_eq_true_eq] at hm
    obtain ⟨hm, rfl, rfl⟩ := hm
    obtain ⟨k', k1, k2⟩ := link_kinds z.valid hm
    rw [hk] at k2; cases k2
    have : ∃ s sp, Comes h d i o l.src l.srcPort s sp := by
      by_cases hval : kind.isValue = true
      · cases kind <;> simp [Kind.isValue] at hval
        exact z.comes_total k1
      · obtain ⟨e1, e2⟩ := z.dfg_static hm k1 (by simpa using hval) hso
        exact ⟨_, _, .self e1 e2⟩
    obtain ⟨s, sp, hc⟩ := this
    have hlg : (⟨s, sp, l.dst, l.dstPort⟩ : Link) ∈ g.links :=
      (z.inl.links _).2 ⟨z.comes_ne hc (z.src_ne_o k1), h3, .inl ⟨_, _, hm, hc⟩⟩
    refine List.length_pos_of_mem (a := ⟨s, sp, l.dst, l.dstPort⟩) ?_
    simp [linksTo, hlg]
  have hle := z.inl.once n port kind h3.1 h3.2.1 h3.2.2 hk
  cases kind with
  | value t =>
    simp only [InDegreeOk] at hdeg ⊢
    have h1 := hex (by simp) (by omega)
    have h2 := hle (by simp)
    omega
  | const t =>
    simp only [InDegreeOk] at hdeg ⊢
    have h1 := hex (by simp) (by omega)
    have h2 := hle (by simp)
    omega
  | function f => exact hex (by simp) hdeg
  | controlFlow => trivial
  | stateOrder => trivial

omit z in
/-- A link that is the only one of its source. -/
theorem only_link {n port : Nat} (hc : (linksFrom h n port).length = 1) :
    ∃ y yp, (⟨n, port, y, yp⟩ : Link) ∈ h.links ∧ ∀ y' yp', (⟨n, port, y', yp'⟩ : Link) ∈ h.links →
      y' = y ∧ yp' = yp := by
  rw [List.length_eq_one_iff] at hc
  obtain ⟨l, hl⟩ := hc
  have hm : ∀ x, (x ∈ h.links ∧ x.src = n ∧ x.srcPort = port) ↔ x = l := by
    intro x
    have : x ∈ linksFrom h n port ↔ x = l := by rw [hl]; simp
    rw [← this]
    simp [linksFrom, List.mem_filter]
  obtain ⟨h1, h2, h3⟩ := (hm l).2 rfl
  refine ⟨l.dst, l.dstPort, by rw [← h2, ← h3]; exact h1, fun y' yp' hl' => ?_⟩
  have := (hm _).1 ⟨hl', rfl, rfl⟩
  rw [← this]; exact ⟨rfl, rfl⟩

omit z in
theorem count_from {ls : List Link} (l : Link) :
    (ls.filter fun x => x.src = l.src && x.srcPort = l.srcPort).count l = ls.count l :=
  List.count_filter (by simp)

omit z in
theorem count_to {ls : List Link} (l : Link) :
    (ls.filter fun x => x.dst = l.dst && x.dstPort = l.dstPort).count l = ls.count l :=
  List.count_filter (by simp)

omit z in
theorem one_of {n port y yp : Nat} (hm : (⟨n, port, y, yp⟩ : Link) ∈ g.links)
    (hu : ∀ y' yp', (⟨n, port, y', yp'⟩ : Link) ∈ g.links → y' = y ∧ yp' = yp)
    (hc : (linksTo g y yp).Nodup) : (linksFrom g n port).length = 1 := by
  have h1 : (linksFrom g n port).count ⟨n, port, y, yp⟩ = (linksFrom g n port).length := by
    rw [List.count_eq_length]
    rintro ⟨a, b, c, e⟩ hb
    simp only [linksFrom, List.mem_filter, Bool.and_eq_true, decide_eq_true_eq] at hb
    obtain ⟨hb, rfl, rfl⟩ := hb
    obtain ⟨rfl, rfl⟩ := hu c e hb
    rfl
  rw [← h1]
  have h2 := count_from (ls := g.links) ⟨n, port, y, yp⟩
  have h3 := count_to (ls := g.links) ⟨n, port, y, yp⟩
  have h4 := List.nodup_iff_count_le_one.1 hc ⟨n, port, y, yp⟩
  have h5 := List.count_pos_iff.2 hm
  unfold linksFrom
  unfold linksTo at h4
  simp only [] at h2 h3
  rw [h2]
  omega

theorem v_outDegree {n port : Nat} {kind : Kind} (hn : g.live n = true)
    (hk : ((g.ops n).ports .outgoing)[port]? = some kind) : OutDegreeOk kind (linksFrom g n port).length := by
  obtain ⟨hl, h3⟩ := z.live3 hn
  rw [z.op h3] at hk
  have hdeg := z.valid.outDegree n port kind hl hk
  -- links of the result
  have hback : ∀ {y yp}, (⟨n, port, y, yp⟩ : Link) ∈ g.links → kind ≠ .stateOrder →
      (y ≠ d ∧ y ≠ i ∧ y ≠ o) ∧ ∃ n0 p0, (⟨n0, p0, y, yp⟩ : Link) ∈ h.links ∧ Comes h d i o n0 p0 n port := by
    intro y yp hm hso
    obtain ⟨_, h2, hor⟩ := (z.inl.links _).1 hm
    refine ⟨h2, ?_⟩
    rcases hor with ⟨n0, p0, a1, a2⟩ | ⟨⟨a1, _⟩, _⟩
    · exact ⟨n0, p0, a1, a2⟩
    · simp only [srcKind, hk, Option.some.injEq] at a1
      exact absurd a1 hso
  cases kind with
  | value t =>
    simp only [OutDegreeOk] at hdeg ⊢
    by_cases hcp : t.copyable = true
    · exact .inl hcp
    refine .inr ?_
    have honly : ∀ {n port}, h.live n = true → ((h.ops n).ports .outgoing)[port]? = some (.value t) →
        ∃ y yp, (⟨n, port, y, yp⟩ : Link) ∈ h.links ∧
          (∀ y' yp', (⟨n, port, y', yp'⟩ : Link) ∈ h.links → y' = y ∧ yp' = yp) ∧
          ((h.ops y).ports .incoming)[yp]? = some (.value t) := by
      intro n port hn hk
      have := z.valid.outDegree n port _ hn hk
      simp only [OutDegreeOk] at this
      obtain ⟨y, yp, a1, a2⟩ := only_link (this.resolve_left hcp)
      obtain ⟨k', k1, k2⟩ := link_kinds z.valid a1
      simp only [srcKind, hk, Option.some.injEq] at k1
      subst k1
      exact ⟨y, yp, a1, a2, k2⟩
    have hfin : ∀ y yp, (⟨n, port, y, yp⟩ : Link) ∈ g.links → ((h.ops y).ports .incoming)[yp]? = some (.value t) →
        (∀ y' yp', (⟨n, port, y', yp'⟩ : Link) ∈ g.links → y' = y ∧ yp' = yp) →
        (linksFrom g n port).length = 1 := by
      intro y yp a1 a2 a3
      refine one_of a1 a3 ?_
      obtain ⟨_, h2, _⟩ := (z.inl.links _).1 a1
      simp only [] at h2
      have hly : g.live y = true := by
        rw [z.inl.live]
        refine ⟨?_, h2⟩
        obtain ⟨_, n0, p0, b1, _⟩ := hback a1 (by simp)
        exact (link_live z.tree z.valid b1).2
      have := z.v_inDegree hly (by rw [z.op h2]; exact a2)
      simp only [InDegreeOk] at this
      obtain ⟨x, hx⟩ := List.length_eq_one_iff.1 this
      rw [hx]; simp
    obtain ⟨y, yp, a1, a2, a3⟩ := honly hl hk
    have hyi : ∀ {y yp : Nat}, ((h.ops y).ports .incoming)[yp]? = some (.value t) → y ≠ i := by
      rintro y yp a3 rfl; rw [z.dfg.opI] at a3; simp [Op.ports] at a3
    obtain ⟨ne1, ne2, ne3⟩ := z.dfg.ne z.tree
    by_cases hyd : y = d
    · subst hyd
      have hki := z.kindI.2 a3
      obtain ⟨y1, yp1, b1, b2, b3⟩ := honly z.K.liveI hki
      have hci : Comes h y i o i yp n port := .input a1
      by_cases hyo : y1 = o
      · subst hyo
        have hkd := z.kindO.1 b3
        obtain ⟨y2, yp2, c1, c2, c3⟩ := honly z.K.liveD hkd
        have hy2 : y2 ≠ y ∧ y2 ≠ i ∧ y2 ≠ y1 := ⟨z.K.noDD _ c1 rfl, hyi c3, z.K.noDO _ c1 rfl⟩
        refine hfin y2 yp2 ((z.inl.links _).2 ⟨h3, hy2, .inl ⟨y, yp1, c1, .output b1 hci⟩⟩) c3 ?_
        intro y' yp' hm
        obtain ⟨q3, n0, p0, e1, e2⟩ := hback hm (by simp)
        cases e2 with
        | self => exact absurd (a2 _ _ e1).1 q3.1
        | input hl1 =>
          have := (a2 _ _ hl1).2; subst this
          exact absurd (b2 _ _ e1).1 q3.2.2
        | output hl1 hc' =>
          cases hc' with
          | self => exact absurd (a2 _ _ hl1).1 ne2.symm
          | input hl2 =>
            have := (a2 _ _ hl2).2; subst this
            have := (b2 _ _ hl1).2; subst this
            exact c2 _ _ e1
          | output => exact absurd rfl (z.K.noDO _ hl1 rfl)
      · have hy1 : y1 ≠ y ∧ y1 ≠ i ∧ y1 ≠ o := ⟨z.K.noID _ b1 rfl, hyi b3, hyo⟩
        refine hfin y1 yp1 ((z.inl.links _).2 ⟨h3, hy1, .inl ⟨i, yp, b1, hci⟩⟩) b3 ?_
        intro y' yp' hm
        obtain ⟨q3, n0, p0, e1, e2⟩ := hback hm (by simp)
        cases e2 with
        | self => exact absurd (a2 _ _ e1).1 q3.1
        | input hl1 =>
          have := (a2 _ _ hl1).2; subst this
          exact b2 _ _ e1
        | output hl1 hc' =>
          cases hc' with
          | self => exact absurd (a2 _ _ hl1).1 ne2.symm
          | input hl2 =>
            have := (a2 _ _ hl2).2; subst this
            exact absurd (b2 _ _ hl1).1.symm hyo
          | output => exact absurd rfl (z.K.noDO _ hl1 rfl)
    · by_cases hyo : y = o
      · subst hyo
        have hkd := z.kindO.1 a3
        obtain ⟨y2, yp2, c1, c2, c3⟩ := honly z.K.liveD hkd
        have hy2 : y2 ≠ d ∧ y2 ≠ i ∧ y2 ≠ y := ⟨z.K.noDD _ c1 rfl, hyi c3, z.K.noDO _ c1 rfl⟩
        refine hfin y2 yp2 ((z.inl.links _).2 ⟨h3, hy2, .inl ⟨d, yp, c1, .output a1 (.self h3.1 h3.2.1)⟩⟩) c3 ?_
        intro y' yp' hm
        obtain ⟨q3, n0, p0, e1, e2⟩ := hback hm (by simp)
        cases e2 with
        | self => exact absurd (a2 _ _ e1).1 q3.2.2
        | input hl1 => exact absurd (a2 _ _ hl1).1 ne2
        | output hl1 hc' =>
          cases hc' with
          | self =>
            have := (a2 _ _ hl1).2; subst this
            exact c2 _ _ e1
          | input hl2 => exact absurd (a2 _ _ hl2).1 ne2
          | output => exact absurd rfl (z.K.noDO _ hl1 rfl)
      · have hy : y ≠ d ∧ y ≠ i ∧ y ≠ o := ⟨hyd, hyi a3, hyo⟩
        refine hfin y yp (z.link_self a1 h3 hy) a3 ?_
        intro y' yp' hm
        obtain ⟨q3, n0, p0, e1, e2⟩ := hback hm (by simp)
        cases e2 with
        | self => exact a2 _ _ e1
        | input hl1 => exact absurd (a2 _ _ hl1).1.symm hyd
        | output hl1 hc' =>
          cases hc' with
          | self => exact absurd (a2 _ _ hl1).1.symm hyo
          | input hl2 => exact absurd (a2 _ _ hl2).1.symm hyd
          | output => exact absurd rfl (z.K.noDO _ hl1 rfl)
  | controlFlow =>
    simp only [OutDegreeOk] at hdeg ⊢
    obtain ⟨y, yp, a1, a2⟩ := only_link hdeg
    obtain ⟨k', k1, k2⟩ := link_kinds z.valid a1
    simp only [srcKind, hk, Option.some.injEq] at k1
    subst k1
    simp only [] at k2
    have hy : y ≠ d ∧ y ≠ i ∧ y ≠ o := by
      refine ⟨?_, ?_, ?_⟩ <;> rintro rfl
      · rw [z.dfg.op] at k2; have := List.mem_of_getElem? k2; simp [Op.ports] at this
      · rw [z.dfg.opI] at k2; have := List.mem_of_getElem? k2; simp [Op.ports] at this
      · rw [z.dfg.opO] at k2; have := List.mem_of_getElem? k2; simp [Op.ports] at this
    refine one_of (z.link_self a1 h3 hy) ?_ ?_
    · intro y' yp' hm
      obtain ⟨_, n0, p0, e1, e2⟩ := hback hm (by simp)
      obtain ⟨k', j1, _⟩ := link_kinds z.valid e1
      have := z.comes_kind e2 j1
      rw [hk] at this; cases this
      have hne := z.dfg_static e1 j1 rfl (by simp)
      cases e2 with
      | self => exact a2 _ _ e1
      | input => exact absurd rfl hne.2
      | output => exact absurd rfl hne.1
    · -- the links to the block are the same
      have hnd : (linksTo h y yp).Nodup := by
        rw [List.nodup_iff_count_le_one]
        intro l
        by_cases hm : l ∈ linksTo h y yp
        · simp only [linksTo, List.mem_filter, Bool.and_eq_true, decide_eq_true_eq] at hm
          obtain ⟨hm, rfl, rfl⟩ := hm
          unfold linksTo
          rw [count_to, ← count_from]
          obtain ⟨k', j1, j2⟩ := link_kinds z.valid hm
          rw [k2] at j2; cases j2
          have := z.valid.outDegree l.src l.srcPort _ (link_live z.tree z.valid hm).1 j1
          simp only [OutDegreeOk, linksFrom] at this
          rw [← this]
          exact List.count_le_length
        · rw [List.count_eq_zero.2 hm]; omega
      have hsub : linksTo h y yp ⊆ linksTo g y yp := by
        intro l hm
        simp only [linksTo, List.mem_filter, Bool.and_eq_true, decide_eq_true_eq] at hm ⊢
        obtain ⟨hm, rfl, rfl⟩ := hm
        obtain ⟨k', j1, j2⟩ := link_kinds z.valid hm
        rw [k2] at j2; cases j2
        have e := z.dfg_static hm j1 rfl (by simp)
        exact ⟨z.link_self hm ⟨e.1, e.2, z.src_ne_o j1⟩ hy, rfl, rfl⟩
      have hperm := (List.subperm_of_subset hnd hsub).perm_of_length_le
        (z.inl.once y yp _ hy.1 hy.2.1 hy.2.2 k2 (by simp))
      exact hperm.nodup_iff.1 hnd
  | const t => trivial
  | function f => trivial
  | stateOrder => trivial

/-! ## Cycles -/

/-- The links of the result are links of the Hugr, or go by way of the DFG node. -/
theorem via {l : Link} (hl : l ∈ g.links) : l ∈ h.links ∨
    (∃ l1 ∈ h.links, ∃ l2 ∈ h.links, l1.src = l.src ∧ l1.dst = d ∧ l2.src = i ∧ l2.dst = l.dst) ∨
    ∃ l1 ∈ h.links, ∃ l2 ∈ h.links, l1.src = l.src ∧ (l1.dst = d ∨ l1.dst = o) ∧ l2.src = d ∧ l2.dst = l.dst := by
  obtain ⟨_, _, ⟨n, port, hl0, hc⟩ | ⟨_, hor⟩⟩ := (z.inl.links l).1 hl
  · obtain ⟨s, sp, t, tp⟩ := l
    simp only [] at hl0 hc
    cases hc with
    | self => exact .inl hl0
    | input hl1 => exact .inr (.inl ⟨_, hl1, _, hl0, rfl, rfl, rfl, rfl⟩)
    | output hl1 hc' =>
      right; right
      cases hc' with
      | self => exact ⟨_, hl1, _, hl0, rfl, .inr rfl, rfl, rfl⟩
      | input hl2 => exact ⟨_, hl2, _, hl0, rfl, .inl rfl, rfl, rfl⟩
      | output => exact absurd rfl (z.K.noDO _ hl1 rfl)
  · right
    rcases hor with hin | hout
    · obtain ⟨l1, m1, l2, m2, e1, e2, e3, e4, _⟩ := hin
      exact .inl ⟨l1, m1, l2, m2, e1, e2, e3, e4⟩
    · obtain ⟨l1, m1, e1, e2⟩ := z.ordered_src (.inr hout)
      obtain ⟨l2, m2, e3, e4, _⟩ := hout
      exact .inr ⟨l1, m1, l2, m2, e1, e2, e3, e4⟩

theorem see_at {l : Link} (hl : l ∈ h.links) (he : l.src = d ∨ l.src = i ∨ l.dst = d ∨ l.dst = o) :
    ∃ A Q, h.hier.parent l.src = some A ∧ h.hier.parent l.dst = some Q ∧ (A = Q ∨ See h Q A) := by
  obtain ⟨kind, k1, k2⟩ := z.dfg.kind z.valid hl he
  exact link_see' z.tree z.valid hl k1 k2

theorem edge_other {P : Nat} (hp : P ≠ p) (hd : P ≠ d) {x y : Nat} (he : RegionEdge g P x y) :
    RegionEdge h P x y := by
  obtain ⟨hx, hy, l, hl, rfl, rfl⟩ := he
  have px := (z.mem_children hp hd).1 hx
  have py := (z.mem_children hp hd).1 hy
  have hx' : l.src ∈ h.children P := (z.tree.child_iff _ _).2 px
  have hy' : l.dst ∈ h.children P := (z.tree.child_iff _ _).2 py
  rcases z.via hl with hl | ⟨l1, m1, l2, m2, e1, e2, e3, e4⟩ | ⟨l1, m1, l2, m2, e1, e2, e3, e4⟩
  · exact ⟨hx', hy', l, hl, rfl, rfl⟩
  · exfalso
    obtain ⟨A, Q, a1, a2, a3⟩ := z.see_at m1 (.inr (.inr (.inl e2)))
    rw [e1, px] at a1; cases a1
    rw [e2, z.dfg.parent] at a2; cases a2
    obtain ⟨A', Q', b1, b2, b3⟩ := z.see_at m2 (.inr (.inl e3))
    rw [e3, z.dfg.parentI z.tree] at b1; cases b1
    rw [e4, py] at b2; cases b2
    exact z.not_see_pd ((a3.resolve_left hp).trans z.tree (b3.resolve_left hd.symm))
  · exfalso
    have hs : See h p P := by
      obtain ⟨A, Q, a1, a2, a3⟩ := z.see_at m1 (.inr (.inr e2))
      rw [e1, px] at a1; cases a1
      rcases e2 with e2 | e2
      · rw [e2, z.dfg.parent] at a2; cases a2
        exact a3.resolve_left hp
      · rw [e2, z.dfg.parentO z.tree] at a2; cases a2
        rcases see_child z.dfg.parent (a3.resolve_left hd) with e | hs | hs
        · exact absurd e hp
        · exact hs
        · obtain ⟨s, hs⟩ := hs.cfg z.dfg.parent
          exact absurd hs (z.p_not_cfg s)
    obtain ⟨A', Q', b1, b2, b3⟩ := z.see_at m2 (.inl e3)
    rw [e3, z.dfg.parent] at b1; cases b1
    rw [e4, py] at b2; cases b2
    exact see_irrefl z.tree _ (hs.trans z.tree (b3.resolve_left hp.symm))

/-- A link from the region of the DFG node into the DFG node orders, unless it is static. -/
theorem into {l : Link} (hl : l ∈ h.links) (h1 : h.hier.parent l.src = some p)
    (h2 : h.hier.parent l.dst = some d) :
    (∃ kind, srcKind h l = some kind ∧ kind.isStatic = true) ∨ RegionEdge h p l.src d := by
  have hac := z.tree.acyclic
  obtain ⟨kind, k1, _, P, hP, hor⟩ := z.valid.kinds l hl
  rw [h1] at hP; cases hP
  rcases hor with hd | ⟨q, a, hq, hqa, ⟨hs, _⟩ | ⟨_, ⟨ha, o', m, e1, e2, _⟩ | ⟨g', sig', entry, rest', hne, hpg, hag, hog, _⟩⟩⟩
  · rw [h2] at hd; cases hd; exact absurd rfl z.pd
  · exact .inl ⟨kind, k1, hs⟩
  · rw [h2] at hq; cases hq
    have := same_child z.tree hqa (.refl _) ha z.dfg.parent
    subst this
    exact .inr ⟨(z.tree.child_iff _ _).2 h1, (z.tree.child_iff _ _).2 z.dfg.parent, o', m, e1, e2⟩
  · rw [h2] at hq; cases hq
    exact absurd (same_child z.tree hqa (.of_parent z.dfg.parent) hag hpg) hne

theorem out_of {l : Link} (hl : l ∈ h.links) (h1 : h.hier.parent l.src = some d)
    (h2 : h.hier.parent l.dst = some p) : False := by
  have hac := z.tree.acyclic
  obtain ⟨kind, k1, _, P, hP, hor⟩ := z.valid.kinds l hl
  rw [h1] at hP; cases hP
  have hup : ∀ {a}, Above h.hier.parent p a → h.hier.parent a = some d → False := fun ha hd =>
    hac _ _ z.dfg.parent (ha.trans (.of_parent hd))
  rcases hor with hd | ⟨q, a, hq, hqa, ⟨_, ha⟩ | ⟨_, ⟨ha, _⟩ | ⟨g', sig', entry, rest', hne, hpg, hag, hog, _⟩⟩⟩
  · rw [h2] at hd; cases hd; exact z.pd rfl
  · rw [h2] at hq; cases hq; exact hup hqa ha
  · rw [h2] at hq; cases hq; exact hup hqa ha
  · rw [z.dfg.parent] at hpg; cases hpg
    exact z.p_not_cfg _ hog

/-- The node whose place is taken. -/
def place (h : Hugr Ops.Op Meta) (d x : Nat) : Nat := if h.hier.parent x = some d then d else x

theorem static_source {l : Link} {kind : Kind} (hk : srcKind h l = some kind) (hs : kind.isStatic = true) :
    (h.ops l.src).ports .incoming = [] := by
  unfold srcKind at hk
  have := List.mem_of_getElem? hk
  cases kind <;> simp [Kind.isStatic] at hs <;>
    cases hop : h.ops l.src <;> rw [hop] at this <;> simp [Op.ports] at this ⊢

theorem edge_p {x y : Nat} (he : RegionEdge g p x y) :
    (x ∈ rest ∧ y ∈ rest ∧ RegionEdge h d x y) ∨
    Relation.TransGen (RegionEdge h p) (place h d x) (place h d y) ∨ ∀ w, ¬ RegionEdge g p w x := by
  have hac := z.tree.acyclic
  obtain ⟨hx, hy, l, hl, rfl, rfl⟩ := he
  have hm : ∀ {P n}, h.hier.parent n = some P → n ∈ h.children P := fun hp => (z.tree.child_iff _ _).2 hp
  have plp : ∀ {x}, h.hier.parent x = some p → place h d x = x := fun {x} hx =>
    if_neg (by rw [hx]; simpa using z.pd)
  have pld : ∀ {x}, x ∈ rest → place h d x = d := fun hx => if_pos (z.mem_rest.1 hx).1
  rw [z.mem_children_p] at hx hy
  rcases z.via hl with hl | ⟨l1, m1, l2, m2, e1, e2, e3, e4⟩ | ⟨l1, m1, l2, m2, e1, e2, e3, e4⟩
  · rcases hx with ⟨hx, hxd⟩ | hx <;> rcases hy with ⟨hy, hyd⟩ | hy
    · refine .inr (.inl ?_)
      rw [plp hx, plp hy]
      exact .single ⟨hm hx, hm hy, l, hl, rfl, rfl⟩
    · right
      rcases z.into hl hx (z.mem_rest.1 hy).1 with ⟨kind, k1, k2⟩ | he
      · right
        rintro w ⟨_, _, l', hl', _, e⟩
        have h0 := z.static_source k1 k2
        rw [← e] at h0
        obtain ⟨_, _, ⟨n, port, hl0, _⟩ | ⟨⟨_, k3⟩, _⟩⟩ := (z.inl.links l').1 hl'
        · obtain ⟨k', _, k3⟩ := link_kinds z.valid hl0
          rw [h0] at k3; simp at k3
        · rw [h0] at k3; simp at k3
      · left
        rw [plp hx, pld hy]
        exact .single he
    · exact absurd (z.out_of hl (z.mem_rest.1 hx).1 hy) id
    · exact .inl ⟨hx, hy, hm (z.mem_rest.1 hx).1, hm (z.mem_rest.1 hy).1, l, hl, rfl, rfl⟩
  · refine .inr (.inl ?_)
    have hxp : h.hier.parent l.src = some p := by
      rcases hx with hx | hx
      · exact hx.1
      · exact absurd (.child (by rw [e1, e2]; exact (z.mem_rest.1 hx).1)) (link_not_out z.tree z.valid m1)
    have hyr : l.dst ∈ rest := by
      rcases hy with hy | hy
      · exact absurd (z.out_of m2 (by rw [e3]; exact z.dfg.parentI z.tree) (by rw [e4]; exact hy.1)) id
      · exact hy
    rw [plp hxp, pld hyr]
    exact .single ⟨hm hxp, hm z.dfg.parent, l1, m1, e1, e2⟩
  · refine .inr (.inl ?_)
    have hyp : h.hier.parent l.dst = some p := by
      rcases hy with hy | hy
      · exact hy.1
      · exfalso
        obtain ⟨kind, k1, k2⟩ := z.dfg.kind z.valid m2 (.inl e3)
        refine link_not_in z.tree z.valid m2 k1 k2 ?_
        rw [e3, e4]; exact .of_parent (z.mem_rest.1 hy).1
    have hlast : RegionEdge h p d l.dst := ⟨hm z.dfg.parent, hm hyp, l2, m2, e3, e4⟩
    rw [plp hyp]
    rcases hx with ⟨hx, hxd⟩ | hx
    · rw [plp hx]
      rcases e2 with e2 | e2
      · exact .head ⟨hm hx, hm z.dfg.parent, l1, m1, e1, e2⟩ (.single hlast)
      · rcases z.into m1 (by rw [e1]; exact hx) (by rw [e2]; exact z.dfg.parentO z.tree) with ⟨kind, k1, k2⟩ | he
        · obtain ⟨k', k3, k4⟩ := z.dfg.kind z.valid m1 (.inr (.inr (.inr e2)))
          rw [k1] at k3; cases k3
          rcases k4 with k4 | k4
          · cases kind <;> simp [Kind.isValue, Kind.isStatic] at k2 k4
          · subst k4; simp [Kind.isStatic] at k2
        · rw [e1] at he
          exact .head he (.single hlast)
    · rw [pld hx]; exact .single hlast

theorem path_p {x y : Nat} (hp : Relation.TransGen (RegionEdge g p) x y) :
    (x ∈ rest ∧ y ∈ rest ∧ Relation.TransGen (RegionEdge h d) x y) ∨
    Relation.TransGen (RegionEdge h p) (place h d x) (place h d y) ∨ ∀ w, ¬ RegionEdge g p w x := by
  have pld : ∀ {x}, x ∈ rest → place h d x = d := fun hx => if_pos (z.mem_rest.1 hx).1
  induction hp using Relation.TransGen.head_induction_on with
  | single he =>
    rcases z.edge_p he with ⟨h1, h2, h3⟩ | h1 | h1
    · exact .inl ⟨h1, h2, .single h3⟩
    · exact .inr (.inl h1)
    · exact .inr (.inr h1)
  | head he _ ih =>
    rcases z.edge_p he with ⟨h1, h2, h3⟩ | h1 | h1
    · rcases ih with ⟨h4, h5, h6⟩ | h4 | h4
      · exact .inl ⟨h1, h5, .head h3 h6⟩
      · right; left
        rw [pld h2] at h4
        rw [pld h1]; exact h4
      · exact absurd he (h4 _)
    · rcases ih with ⟨h4, h5, h6⟩ | h4 | h4
      · right; left
        rw [pld h4] at h1
        rw [pld h5]; exact h1
      · exact .inr (.inl (h1.trans h4))
      · exact absurd he (h4 _)
    · exact .inr (.inr h1)

theorem v_acyclic {P : Nat} (hP : g.live P = true) (hb : (body (g.ops P)).isSome = true) (n : Nat) :
    ¬ Relation.TransGen (RegionEdge g P) n n := by
  obtain ⟨hl, h3⟩ := z.live3 hP
  rw [z.op h3] at hb
  intro hc
  by_cases hPp : P = p
  · subst hPp
    rcases z.path_p hc with ⟨_, _, h1⟩ | h1 | h1
    · exact z.valid.acyclic d z.K.liveD (by rw [z.dfg.op]; rfl) n h1
    · exact z.valid.acyclic P hl hb _ h1
    · obtain ⟨w, _, hw⟩ := (Relation.TransGen.tail'_iff).1 hc
      exact h1 w hw
  · exact z.valid.acyclic P hl hb n (Relation.TransGen.mono (fun x y => z.edge_other hPp h3.1) n n hc)

/-! ## The result -/

theorem valid_of (hf : OrderFits h p d i o) : Valid C g where
  tags n hn := by
    obtain ⟨h1, h2⟩ := z.live3 hn
    rw [z.op h2]; exact z.valid.tags n h1
  ports n hn := by
    obtain ⟨h1, h2⟩ := z.live3 hn
    rw [z.op h2, z.inl.ins, z.inl.outs]; exact z.valid.ports n h1
  contains n q hq := z.v_contains hq
  children n hn := z.v_children hn
  entrypoint := z.v_entrypoint
  blocks l hl q s hs h1 h2 := z.v_blocks hl hs h1 h2
  acyclic P hP hb n := z.v_acyclic hP hb n
  constants n t hn ho := by
    obtain ⟨h1, h2⟩ := z.live3 hn
    rw [z.op h2] at ho
    exact z.valid.constants n t h1 ho
  inDegree n port kind hn hk := z.v_inDegree hn hk
  outDegree n port kind hn hk := z.v_outDegree hn hk
  kinds l hl := z.v_edges hf hl
  types n decls hn hd := by
    obtain ⟨h1, h2⟩ := z.live3 hn
    rw [z.op h2]
    exact z.valid.types n decls h1 (z.v_decls hd)
  exports a b name siga sigb da db ha hb := z.valid.exports a b name siga sigb da db (z.v_exports ha) (z.v_exports hb)

theorem fits_of (hv : Valid C g) : OrderFits h p d i o := by
  have hac := z.tree.acyclic
  have hlocal : ∀ {x y}, Ord g x y → ∃ q, g.hier.parent x = some q ∧ g.hier.parent y = some q := by
    rintro x y ⟨l, hl, rfl, rfl, hk⟩
    obtain ⟨k', k1, _, he⟩ := hv.kinds l hl
    rw [hk] at k1; cases k1
    exact edgeOk_order he
  refine ⟨?_, ?_⟩
  · intro x y x1 x2 x3 y1 y2 y3 hor
    obtain ⟨q, h1, h2⟩ := hlocal (z.ordered ⟨x1, x2, x3⟩ ⟨y1, y2, y3⟩ hor)
    rw [← z.up ⟨x1, x2, x3⟩, ← z.up ⟨y1, y2, y3⟩, h1, h2]
  · intro l hl t c q hk hs hc hq hqc
    have hcd : c ≠ d := by rintro rfl; exact hac _ _ hc (.refl _)
    have hqd : q ≠ d := by rintro rfl; exact hac _ _ hc hqc
    have hsd : l.src ≠ d := by
      intro e
      refine link_not_in z.tree z.valid hl hk (.inl rfl) ?_
      rw [e]; exact .step hq (hqc.trans (.of_parent hc))
    have hs3 := z.ne3_p hs hsd
    have hd3 : l.dst ≠ d ∧ l.dst ≠ i ∧ l.dst ≠ o := by
      refine ⟨?_, ?_, ?_⟩ <;> intro e <;> rw [e] at hq
      · rw [z.dfg.parent] at hq; cases hq
        exact hac _ _ z.dfg.parent (hqc.trans (.of_parent hc))
      · rw [z.dfg.parentI z.tree] at hq; cases hq; exact hqd rfl
      · rw [z.dfg.parentO z.tree] at hq; cases hq; exact hqd rfl
    have hio := z.not_in_io hq
    have hcio := z.above_io hqc hio.1 hio.2
    have hqc' := z.above_g hqc hio.1 hio.2 hcd
    rw [if_neg hqd] at hqc'
    have hcp : g.hier.parent c = some p := by rw [z.up_of ⟨hcd, hcio⟩ hc, if_pos rfl]
    obtain ⟨k', k1, _, he⟩ := hv.kinds l (z.link_self hl hs3 hd3)
    rw [z.srcKind_g hs3, hk] at k1; cases k1
    rw [edgeOk_value] at he
    obtain ⟨q', hq', P, hP, hor⟩ := he
    rw [z.up_of hd3 hq, if_neg hqd] at hq'; cases hq'
    rw [z.up_of hs3 hs, if_neg z.pd] at hP; cases hP
    rcases hor with rfl | ⟨a, ha, _, ⟨hap, l', hl', e1, e2, hk'⟩ | hdom⟩
    · exact absurd (hqc.trans (.of_parent hc)) (hac _ _ z.dfg.parent)
    · have := same_child z.treeG ha hqc' hap hcp
      subst this
      have hnot : ∀ l2 ∈ h.links, l2.src = d → l2.dst = a → False := by
        intro l2 m2 f1 f2
        obtain ⟨kind, j1, j2⟩ := z.dfg.kind z.valid m2 (.inl f1)
        refine link_not_in z.tree z.valid m2 j1 j2 ?_
        rw [f1, f2]; exact .of_parent hc
      obtain ⟨hs', hd', hor⟩ := (z.inl.links l').1 hl'
      rw [z.srcKind_g hs'] at hk'
      obtain ⟨s, sp, t', tp⟩ := l'
      simp only [] at e1 e2
      subst e1; subst e2
      rcases hor with ⟨n0, p0, m0, hcm⟩ | ⟨_, hor | ⟨l2, m2, f1, f2, _⟩⟩
      · simp only [] at m0 hcm
        obtain ⟨k0, j1, j2, je⟩ := z.valid.kinds _ m0
        have := z.comes_kind hcm j1
        simp only [srcKind] at hk'
        rw [hk'] at this; cases this
        cases hcm with
        | self =>
          obtain ⟨r, r1, r2⟩ := edgeOk_order je
          simp only [] at r1 r2
          rw [hs] at r1; cases r1
          rw [hc] at r2; cases r2
          exact absurd rfl z.pd
        | input hl1 => exact ⟨_, hl1, _, m0, rfl, rfl, rfl, rfl, .inr j1⟩
        | output => exact (hnot _ m0 rfl rfl).elim
      · exact hor
      · exact (hnot l2 m2 f1 f2).elim
    · obtain ⟨hne, c', _, _, _, c1, c2, _⟩ := hdom
      exact absurd (same_child z.treeG ha (hqc'.trans (.of_parent hcp)) c2 c1) hne

end Dissolved
end Verif.Patch
