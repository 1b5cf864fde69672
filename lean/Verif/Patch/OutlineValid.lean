import Verif.Patch.OutlineTree
import Verif.Patch.CfgToDfgValid

/-!
# Outlining keeps a Hugr valid
-/
namespace Verif.Patch

open Verif.Graph Verif.Ops Verif.Passes Verif.Validate Verif.Dataflow

variable {Meta W K : Type} {C : Validate.Context} {h g : Hugr Ops.Op Meta}

theorem BlockInput.ports {op : Ops.Op} {row : List Types.Ty} (hb : BlockInput op row) : op.ports .incoming = [.controlFlow] := by
  rcases hb with ⟨_, _, rfl⟩ | rfl <;> rfl

theorem row_port {row : List Types.Ty} {p : Nat} (hp : p < row.length) :
    (row.map Kind.value ++ [Kind.stateOrder])[p]? = some (.value row[p]) := by
  rw [List.getElem?_append_left (by simpa using hp)]
  simp [hp]

theorem range_count (n q : Nat) : (List.range n).countP (fun k => decide (k = q)) = if q < n then 1 else 0 := by
  have := (List.nodup_range (n := n)).count (a := q)
  rw [List.count] at this
  simp only [List.mem_range] at this
  rw [← this]
  congr 1

theorem map_edges {r s : Nat → Nat → Prop} (f : Nat → Nat) (hr : ∀ a b, r a b → f a < f b) (x : Nat) : ¬ Relation.TransGen r x x := by
  have key : ∀ {x y}, Relation.TransGen r x y → f x < f y := by
    intro x y hxy
    induction hxy with
    | single h => exact hr _ _ h
    | tail _ h ih => exact ih.trans (hr _ _ h)
  exact fun hx => Nat.lt_irrefl _ (key hx)

namespace OutlineAt

variable {G entry exit port outside : Nat} {bs : List Nat} {ins outs : List Types.Ty} {N : OutlineNew}
  (z : OutlineAt C h G bs entry exit port outside ins outs N g)
include z

theorem bs_op {b : Nat} (hb : b ∈ bs) : ∃ x y r, g.ops b = .dataflowBlock x y r := by
  rw [z.ops (z.not_new (z.live_bs hb))]; exact z.blocks b hb

theorem op_G : ∃ sig, g.ops G = .cfg sig := by rw [z.ops z.G_new]; exact z.at'.op

theorem up_outside : g.hier.parent outside = some G := by
  rw [z.up_old (z.live_link z.at'.left).2 z.at'.outside_not]; exact z.outside_parent

theorem bs_in {b port' : Nat} {kind : Kind} (hb : b ∈ bs) (hk : ((h.ops b).ports .incoming)[port']? = some kind) :
    kind = .controlFlow := by
  obtain ⟨x, y, r, e⟩ := z.blocks b hb
  rw [e] at hk
  have := List.mem_of_getElem? hk
  simpa [Op.ports] using this

theorem bs_out {b port' : Nat} {kind : Kind} (hb : b ∈ bs) (hk : ((h.ops b).ports .outgoing)[port']? = some kind) :
    kind = .controlFlow := by
  obtain ⟨x, y, r, e⟩ := z.blocks b hb
  rw [e] at hk
  have := List.mem_of_getElem? hk
  simp only [Op.ports, List.mem_map] at this
  obtain ⟨_, _, e⟩ := this
  exact e.symm

/-! ## Containment -/

theorem v_contains {n q : Nat} (hp : g.hier.parent n = some q) : MayContain (g.ops q) (g.ops n) := by
  obtain ⟨sig, hG⟩ := z.op_G
  rcases z.live_cases (z.treeG.parent_live _ _ hp).1 with hn | hn
  · by_cases hb : n ∈ bs
    · rw [z.up_bs hb] at hp; cases hp
      obtain ⟨x, y, r, e⟩ := z.bs_op hb
      rw [z.op_cfg, e]; trivial
    · rw [z.up_old hn hb] at hp
      rw [z.ops (z.not_new hn), z.ops (z.not_new (z.tree.parent_live _ _ hp).2)]
      exact z.valid.contains n q hp
  · rcases z.new_mem_iff.1 hn with rfl | rfl | hk
    · rw [z.up_block] at hp; cases hp
      rw [hG, z.op_block]; trivial
    · rw [z.up_exit] at hp; cases hp
      rw [z.op_cfg, z.op_exit]; trivial
    · rw [z.up_kid hk] at hp; cases hp
      rw [z.op_block]
      simp only [List.mem_cons, List.not_mem_nil, or_false] at hk
      rcases hk with rfl | rfl | rfl | rfl | rfl
      · rw [z.op_inp]; exact ⟨rfl, trivial⟩
      · rw [z.op_out]; exact ⟨rfl, trivial⟩
      · rw [z.op_cfg]; exact ⟨rfl, trivial⟩
      · rw [z.op_const]; exact ⟨rfl, trivial⟩
      · rw [z.op_load]; exact ⟨rfl, trivial⟩

theorem child_op {q c : Nat} (hc : c ∈ h.children q) : g.ops c = h.ops c :=
  z.ops (z.not_new (z.tree.parent_live _ _ ((z.tree.child_iff _ _).1 hc)).1)

theorem leaf_new {x : Nat} (hx : x ∈ N.news) (h1 : x ≠ N.cfg) (h2 : x ≠ N.block) : g.children x = [] := by
  have hG : x ≠ G := fun e => z.G_new (e ▸ hx)
  rw [z.done.children x h1 h2 hG]
  exact (z.tree.dead (z.dead_new hx)).2

theorem ne_all : N.block ≠ N.inp ∧ N.block ≠ N.out ∧ N.block ≠ N.cfg ∧ N.block ≠ N.exit ∧ N.block ≠ N.const ∧ N.block ≠ N.load ∧
    N.exit ≠ N.inp ∧ N.exit ≠ N.out ∧ N.exit ≠ N.cfg ∧ N.exit ≠ N.const ∧ N.exit ≠ N.load := by
  have hd := z.fresh.1
  simp only [OutlineNew.news, List.nodup_cons, List.mem_cons, List.not_mem_nil, or_false, not_or, List.nodup_nil,
    not_false_eq_true, and_true] at hd
  refine ⟨?_, ?_, ?_, ?_, ?_, ?_, ?_, ?_, ?_, ?_, ?_⟩ <;> intro e <;> simp_all

theorem v_children {n : Nat} (hn : g.live n = true) : ChildrenOk g n := by
  obtain ⟨n1, n2, n3, n4, n5, n6, n7, n8, n9, n10⟩ := z.distinct
  obtain ⟨m1, m2, m3, m4, m5, m6, m7, m8, m9, m10, m11⟩ := z.ne_all
  rcases z.live_cases hn with hn | hn
  · by_cases hG : n = G
    · subst hG
      obtain ⟨sig, hG⟩ := z.at'.op
      have hc := z.valid.children n hn
      unfold ChildrenOk at hc ⊢
      rw [hG] at hc
      rw [z.ops z.G_new, hG]
      obtain ⟨f, X, rest, o, r, h1, h2, h3, h4⟩ := hc
      have hX : X ∉ bs := fun hm => by
        obtain ⟨_, _, _, e⟩ := z.blocks X hm
        rw [h3] at e; cases e
      have same : ∀ c ∈ h.children n, g.ops c = h.ops c := fun c hc => z.child_op hc
      have hk := z.done.childrenG
      by_cases hf : f ∈ bs
      · have : f = entry := (z.at'.enters f hf).1 (.inl (by rw [h1]; rfl))
        subst this
        rw [if_pos (by rw [h1]; rfl), h1, List.filter_cons_of_neg (by simpa using hf), List.filter_cons_of_pos (by simpa using hX)] at hk
        refine ⟨N.block, X, _, outs, [[]], hk, ?_, ?_, ?_⟩
        · obtain ⟨y, r', e⟩ := z.entry_block
          rw [h2] at e; cases e
          rw [z.op_block]
        · rw [same X (by rw [h1]; simp)]; exact h3
        · intro c hc outs
          have hc := (List.mem_filter.1 hc).1
          rw [same c (by rw [h1]; simp [hc])]; exact h4 c hc outs
      · rw [if_neg (by
          rw [h1]; intro e; cases e
          exact hf z.at'.entry_mem), h1, List.filter_cons_of_pos (by simpa using hf), List.filter_cons_of_pos (by simpa using hX)] at hk
        refine ⟨f, X, _, o, r, hk, ?_, ?_, ?_⟩
        · rw [same f (by rw [h1]; simp)]; exact h2
        · rw [same X (by rw [h1]; simp)]; exact h3
        · intro c hc outs
          rcases List.mem_append.1 hc with hc | hc
          · have hc := (List.mem_filter.1 hc).1
            rw [same c (by rw [h1]; simp [hc])]; exact h4 c hc outs
          · rw [List.mem_singleton] at hc
            subst hc
            rw [z.op_block]; simp
    · have hc := z.valid.children n hn
      have same := fun c hc => z.child_op (q := n) (c := c) hc
      have key : ∀ {a b : List Types.Ty}, (∃ inp out rest, h.children n = inp :: out :: rest ∧
          h.ops inp = .input a ∧ h.ops out = .output b ∧ ∀ c ∈ rest, ¬ IsIO (h.ops c)) →
          ∃ inp out rest, h.children n = inp :: out :: rest ∧
          g.ops inp = .input a ∧ g.ops out = .output b ∧ ∀ c ∈ rest, ¬ IsIO (g.ops c) := by
        rintro a b ⟨inp, out, rest, h1, h2, h3, h4⟩
        refine ⟨inp, out, rest, h1, ?_, ?_, ?_⟩
        · rw [same inp (by rw [h1]; simp), h2]
        · rw [same out (by rw [h1]; simp), h3]
        · intro c hc
          rw [same c (by rw [h1]; simp [hc])]; exact h4 c hc
      unfold ChildrenOk at hc ⊢
      rw [z.ops (z.not_new hn), z.kids (z.not_new hn) hG]
      cases hop : h.ops n with
      | module => trivial
      | conditional a b c =>
        rw [hop] at hc
        refine ⟨hc.1, ?_⟩
        rw [← hc.2]
        exact List.map_congr_left fun x hx => same x hx
      | cfg sig' =>
        rw [hop] at hc
        obtain ⟨f, X, rest, o', r, h1, h2, h3, h4⟩ := hc
        refine ⟨f, X, rest, o', r, h1, ?_, ?_, ?_⟩
        · rw [same f (by rw [h1]; simp), h2]
        · rw [same X (by rw [h1]; simp), h3]
        · intro c hc
          rw [same c (by rw [h1]; simp [hc])]; exact h4 c hc
      | funcDefn a b => rw [hop] at hc; exact key hc
      | dfg a => rw [hop] at hc; exact key hc
      | case a => rw [hop] at hc; exact key hc
      | tailLoop a b c => rw [hop] at hc; exact key hc
      | dataflowBlock a b c => rw [hop] at hc; exact key hc
      | _ => rw [hop] at hc; exact hc
  · have leaf : n ≠ N.cfg → n ≠ N.block → g.children n = [] := z.leaf_new hn
    unfold ChildrenOk
    rcases z.new_mem_iff.1 hn with rfl | rfl | hk
    · rw [z.op_block]
      refine ⟨N.inp, N.out, [N.cfg, N.const, N.load], z.done.childrenBlock, z.op_inp, z.op_out, ?_⟩
      intro c hc
      simp only [List.mem_cons, List.not_mem_nil, or_false] at hc
      rcases hc with rfl | rfl | rfl
      · rw [z.op_cfg]; rintro (⟨_, e⟩ | ⟨_, e⟩) <;> cases e
      · rw [z.op_const]; rintro (⟨_, e⟩ | ⟨_, e⟩) <;> cases e
      · rw [z.op_load]; rintro (⟨_, e⟩ | ⟨_, e⟩) <;> cases e
    · rw [z.op_exit]; exact leaf m9 m4.symm
    · simp only [List.mem_cons, List.not_mem_nil, or_false] at hk
      rcases hk with rfl | rfl | rfl | rfl | rfl
      · rw [z.op_inp]; exact leaf n2 m1.symm
      · rw [z.op_out]; exact leaf n3 m2.symm
      · rw [z.op_cfg]
        obtain ⟨y, r, e⟩ := z.entry_block
        refine ⟨entry, N.exit, _, y, r, z.done.childrenCfg, ?_, z.op_exit, ?_⟩
        · rw [z.ops (z.not_new (z.live_bs z.at'.entry_mem))]; exact e
        · intro c hc outs
          obtain ⟨_, _, _, e⟩ := z.bs_op (List.mem_filter.1 hc).1
          rw [e]; simp
      · rw [z.op_const]; exact leaf n6.symm m5.symm
      · rw [z.op_load]; exact leaf n9.symm m6.symm

/-! ## Regions -/

/-- The links between the children of another node are the same. -/
theorem region_same {q x y : Nat} (hq : q ∉ N.news) (hG : q ≠ G) : RegionEdge g q x y ↔ RegionEdge h q x y := by
  unfold RegionEdge
  rw [z.kids hq hG]
  refine and_congr_right fun hx => and_congr_right fun hy => ?_
  have hxl := (z.tree.parent_live _ _ ((z.tree.child_iff _ _).1 hx)).1
  have hyl := (z.tree.parent_live _ _ ((z.tree.child_iff _ _).1 hy)).1
  have hyp : h.hier.parent y = some q := (z.tree.child_iff _ _).1 hy
  constructor
  · rintro ⟨l, hl, rfl, rfl⟩
    rcases z.old_link hl (z.not_new hxl) with ⟨_, _, _, _, _, _, e⟩ | ⟨_, _, e⟩ | ⟨hl, _⟩
    · exact absurd (by simp [OutlineNew.news, e]) (z.not_new hyl)
    · exact absurd (by simp [OutlineNew.news, e]) (z.not_new hyl)
    · exact ⟨l, hl, rfl, rfl⟩
  · rintro ⟨l, hl, rfl, rfl⟩
    refine ⟨l, z.link_stay hl ?_ ?_, rfl, rfl⟩
    · rintro ⟨e, _⟩
      rw [e, z.at'.siblings _ z.at'.entry_mem] at hyp
      cases hyp; exact hG rfl
    · rintro ⟨e1, e2⟩
      have hm : l.src ∈ bs := e1 ▸ z.at'.exit_mem
      have := z.left_eq hl hm ((z.at'.leaves l hl hm).2 ⟨e1, e2⟩)
      rw [this, z.outside_parent] at hyp
      cases hyp; exact hG rfl

theorem v_acyclic {q : Nat} (hq : g.live q = true) (hb : (body (g.ops q)).isSome = true) (n : Nat) :
    ¬ Relation.TransGen (RegionEdge g q) n n := by
  rcases z.live_cases hq with hq | hq
  · have hG : q ≠ G := by
      rintro rfl
      obtain ⟨sig, e⟩ := z.op_G
      rw [e] at hb; simp [body] at hb
    have hqn := z.not_new hq
    have e : RegionEdge g q = RegionEdge h q := by
      funext x y
      exact propext (z.region_same hqn hG)
    rw [e]
    rw [z.ops hqn] at hb
    exact z.valid.acyclic q hq hb n
  · obtain ⟨n1, n2, n3, n4, n5, n6, n7, n8, n9, n10⟩ := z.distinct
    obtain ⟨m1, m2, m3, m4, m5, m6, m7, m8, m9, m10, m11⟩ := z.ne_all
    have hqb : q = N.block := by
      rcases z.new_mem_iff.1 hq with rfl | rfl | hk
      · rfl
      · rw [z.op_exit] at hb; simp [body] at hb
      · simp only [List.mem_cons, List.not_mem_nil, or_false] at hk
        rcases hk with rfl | rfl | rfl | rfl | rfl
        · rw [z.op_inp] at hb; simp [body] at hb
        · rw [z.op_out] at hb; simp [body] at hb
        · rw [z.op_cfg] at hb; simp [body] at hb
        · rw [z.op_const] at hb; simp [body] at hb
        · rw [z.op_load] at hb; simp [body] at hb
    subst hqb
    refine map_edges (s := fun _ _ => True) (fun x => if x = N.out then 2 else if x = N.cfg ∨ x = N.load then 1 else 0) ?_ n
    rintro a b ⟨ha, hb, l, hl, rfl, rfl⟩
    rw [z.done.childrenBlock] at ha hb
    have hw : l ∈ N.wires ins.length outs.length := by
      rcases z.mem_links.1 hl with ⟨k, hk, e⟩ | hw | e
      · have hs : k.src ∉ N.news := z.not_new (z.live_link hk).1
        have : l.src = k.src := by
          rcases z.redirect_cases hk with ⟨_, _, e'⟩ | ⟨e0, e'⟩ | ⟨_, _, e'⟩
          · rw [e, e']
          · rw [e, e', e0]
          · rw [e, e']
        exact absurd (z.new_mem_iff.2 (.inr (.inr ha))) (this ▸ hs)
      · exact hw
      · rw [e] at ha
        simp [m1, m2, m3, m5, m6] at ha
    simp only [OutlineNew.wires, straight, List.mem_append, List.mem_map, List.mem_range, List.mem_cons, List.not_mem_nil, or_false] at hw
    rcases hw with (⟨p, _, rfl⟩ | rfl | rfl) | ⟨p, _, rfl⟩
    · simp [n1, n2, n3.symm, n7]
    · simp [n5.symm, n6.symm, n8.symm, n10]
    · simp [n8.symm]
    · simp [n3.symm]

/-! ## Links -/

theorem v_blocks {l : Link} (hl : l ∈ g.links) {q : Nat} {sig : Types.Signature} (hq : g.ops q = .cfg sig) (hs : l.src ∈ g.children q)
    (hd : l.dst ∈ g.children q) : BlockLinkOk g l := by
  have hql : g.live q = true := (z.treeG.parent_live _ _ ((z.treeG.child_iff _ _).1 hs)).2
  obtain ⟨sigG, hG⟩ := z.at'.op
  have copy : ∀ {l : Link}, l ∈ h.links → BlockLinkOk h l → BlockLinkOk g l := by
    intro l hl hb
    unfold BlockLinkOk at hb ⊢
    rw [z.ops (z.not_new (z.live_link hl).1), z.ops (z.not_new (z.live_link hl).2)]
    exact hb
  rcases z.live_cases hql with hql | hql
  · by_cases hqG : q = G
    · subst hqG
      rcases z.kids_G_mem.1 hs with e | ⟨c1, c2⟩
      · have := z.from_new hl e
        subst this
        refine ⟨ins, outs, [[]], [], z.op_block, rfl, ?_⟩
        rw [z.ops (z.not_new (z.live_link z.at'.left).2)]
        exact z.output
      · rcases z.old_link hl (z.not_new (z.child_live c1)) with ⟨k, q1, q2, q3, q4, q5, q6⟩ | ⟨q1, q2, q3⟩ | ⟨q1, q2, q3⟩
        · obtain ⟨x, y, rows, row, e1, e2, e3⟩ := z.valid.blocks k q1 q sigG hG (by rw [q2]; exact c1)
            (by rw [q4]; exact z.bs_child z.at'.entry_mem)
          refine ⟨x, y, rows, row, ?_, by rw [← q3]; exact e2, .inl ⟨outs, [[]], ?_⟩⟩
          · rw [z.ops (z.not_new (z.child_live c1)), ← q2]; exact e1
          · obtain ⟨y', r', e'⟩ := z.entry_block
            rw [q4, e'] at e3
            rw [q6, z.op_block]
            rcases e3 with ⟨_, _, e⟩ | e
            · cases e; rfl
            · cases e
        · exact absurd (q1 ▸ z.at'.exit_mem) c2
        · refine copy q1 (z.valid.blocks l q1 q sigG hG c1 ?_)
          rcases z.kids_G_mem.1 hd with e | ⟨d1, _⟩
          · exact absurd (by simp [OutlineNew.news, e]) (z.not_new (z.live_link q1).2)
          · exact d1
    · have hqn := z.not_new hql
      have hs' := hs
      have hd' := hd
      rw [z.kids hqn hqG] at hs' hd'
      rw [z.ops hqn] at hq
      have hsl := (z.tree.parent_live _ _ ((z.tree.child_iff _ _).1 hs')).1
      have hdl := (z.tree.parent_live _ _ ((z.tree.child_iff _ _).1 hd')).1
      rcases z.old_link hl (z.not_new hsl) with ⟨_, _, _, _, _, _, e⟩ | ⟨_, _, e⟩ | ⟨hl, _⟩
      · exact absurd (by simp [OutlineNew.news, e]) (z.not_new hdl)
      · exact absurd (by simp [OutlineNew.news, e]) (z.not_new hdl)
      · exact copy hl (z.valid.blocks l hl q sig hq hs' hd')
  · have hqc : q = N.cfg := by
      rcases z.new_mem_iff.1 hql with rfl | rfl | hk
      · rw [z.op_block] at hq; cases hq
      · rw [z.op_exit] at hq; cases hq
      · simp only [List.mem_cons, List.not_mem_nil, or_false] at hk
        rcases hk with rfl | rfl | rfl | rfl | rfl
        · rw [z.op_inp] at hq; cases hq
        · rw [z.op_out] at hq; cases hq
        · rfl
        · rw [z.op_const] at hq; cases hq
        · rw [z.op_load] at hq; cases hq
    subst hqc
    have hx := (z.cfg_child.1 hs).resolve_left (z.exit_no_out hl)
    rcases z.old_link hl (z.not_new (z.live_bs hx)) with ⟨k, q1, q2, q3, q4, q5, q6⟩ | ⟨q1, q2, q3⟩ | ⟨q1, q2, q3⟩
    · exact absurd hx q5
    · obtain ⟨x, y, rows, row, e1, e2, e3⟩ := z.valid.blocks _ z.at'.left G sigG hG (z.bs_child z.at'.exit_mem)
        ((z.tree.child_iff _ _).2 z.outside_parent)
      refine ⟨x, y, rows, row, ?_, by rw [q2]; exact e2, .inr ?_⟩
      · rw [z.ops (z.not_new (z.live_bs hx)), q1]; exact e1
      · rw [q3, z.op_exit, z.out_row e1 rfl e2]
    · refine copy q1 (z.valid.blocks l q1 G sigG hG (z.bs_child hx) ?_)
      rcases z.cfg_child.1 hd with e | e
      · exact absurd (by simp [OutlineNew.news, e]) (z.not_new (z.live_link q1).2)
      · exact z.bs_child e

/-- A link that stays goes where it may go. -/
theorem edge (hx : CanReach h G entry → CanReach h G exit) {l : Link} {kind : Kind} (hl : l ∈ h.links) (h1 : ¬ (l.dst = entry ∧ l.src ∉ bs))
    (h2 : ¬ (l.src = exit ∧ l.srcPort = port)) (hs : srcKind h l = some kind)
    (hk : ((h.ops l.dst).ports .incoming)[l.dstPort]? = some kind) (he : EdgeOk h l kind) : EdgeOk g l kind := by
  obtain ⟨p, hp, he⟩ := he
  by_cases sb : l.src ∈ bs
  · have db : l.dst ∈ bs := by
      by_contra hm
      exact h2 ((z.at'.leaves l hl sb).1 hm)
    exact ⟨N.cfg, z.up_bs sb, .inl (z.up_bs db)⟩
  by_cases db : l.dst ∈ bs
  · exact absurd ⟨(z.at'.enters _ db).1 (.inr ⟨l, hl, rfl, sb⟩), sb⟩ h1
  have us := z.up_old (z.live_link hl).1 sb
  have ud := z.up_old (z.live_link hl).2 db
  refine ⟨p, by rw [us]; exact hp, ?_⟩
  rcases he with he | ⟨q, a, hq, ha, he⟩
  · exact .inl (by rw [ud]; exact he)
  have ha' := z.above_up ha
  have hq' : g.hier.parent l.dst = some q := by rw [ud]; exact hq
  have inB : a ∈ bs → Above g.hier.parent q N.block := fun hm => ha'.trans (.step (z.up_bs hm) (.step z.up_cfg (.refl _)))
  right
  rcases he with ⟨hst, hap⟩ | ⟨hv, he⟩
  · by_cases hm : a ∈ bs
    · rw [z.at'.siblings a hm] at hap; cases hap
      exact ⟨q, N.block, hq', inB hm, .inl ⟨hst, z.up_block⟩⟩
    · exact ⟨q, a, hq', ha', .inl ⟨hst, by rw [z.up_old (z.tree.parent_live _ _ hap).1 hm]; exact hap⟩⟩
  · rcases he with ⟨hap, o, ho, o1, o2, o3⟩ | ⟨g0, sig, f, rest, hne, hpg, hag, hop, hch, hdom⟩
    · obtain ⟨kind', k1, k2, _⟩ := z.valid.kinds o ho
      rw [o3] at k1; cases k1
      rw [o2] at k2
      have hpl : Plain (h.ops o.dst) := fun row hb => by
        rw [o2] at hb
        rw [hb.ports] at k2
        have := List.mem_of_getElem? k2
        simp at this
      have hm : a ∉ bs := fun hm => by
        have := z.bs_in hm k2
        cases this
      have hal := (z.tree.parent_live _ _ hap).1
      refine ⟨q, a, hq', ha', .inr ⟨hv, .inl ⟨by rw [z.up_old hal hm]; exact hap, o,
        (z.link_same (by rw [o2]; exact z.not_new hal) hpl).2 ho, o1, o2, ?_⟩⟩⟩
      unfold srcKind at o3 ⊢
      rw [z.ops (z.not_new (z.live_link ho).1)]; exact o3
    · have hpl := (z.tree.parent_live _ _ hpg).1
      have hgl := (z.tree.parent_live _ _ hpg).2
      have hal := (z.tree.parent_live _ _ hag).1
      by_cases hG : g0 = G
      · subst hG
        by_cases hpb : p ∈ bs
        · obtain ⟨c, hc, hac⟩ := z.stay l hl p hpb hp
          have hqc : Above h.hier.parent q c := by
            rcases above_cases hac with e | ⟨w, hw, hwc⟩
            · exact absurd (e ▸ hc) db
            · rw [hq] at hw; cases hw; exact hwc
          have hab : a ∈ bs := (same_child z.tree hqc ha (z.at'.siblings c hc) hag) ▸ hc
          exact ⟨q, a, hq', ha', .inr ⟨hv, .inr ⟨N.cfg, _, entry, _, hne, z.up_bs hpb, z.up_bs hab, z.op_cfg, z.done.childrenCfg,
            z.dom_inner hch hpb hab hdom⟩⟩⟩
        · obtain ⟨f', r', hf'⟩ : ∃ f' r', g.children g0 = f' :: r' := by
            rcases z.first_eq hch with ⟨_, r', e⟩ | ⟨_, r', e⟩
            · exact ⟨_, _, e⟩
            · exact ⟨_, _, e⟩
          have hpn := z.not_new hpl
          have hup : g.hier.parent p = some g0 := by rw [z.up_old hpl hpb]; exact hpg
          by_cases hab : a ∈ bs
          · exact ⟨q, N.block, hq', inB hab, .inr ⟨hv, .inr ⟨g0, sig, f', r', fun e => hpn (by simp [OutlineNew.news, ← e]), hup, z.up_block,
              by rw [z.ops z.G_new]; exact hop, hf', z.dom_outer hx hch hf' hpb hpn (.inl ⟨hab, rfl⟩) hdom⟩⟩⟩
          · exact ⟨q, a, hq', ha', .inr ⟨hv, .inr ⟨g0, sig, f', r', hne, hup, by rw [z.up_old hal hab]; exact hag,
              by rw [z.ops z.G_new]; exact hop, hf', z.dom_outer hx hch hf' hpb hpn (.inr ⟨hab, rfl⟩) hdom⟩⟩⟩
      · have hpb : p ∉ bs := fun hm => by
          rw [z.at'.siblings p hm] at hpg; cases hpg; exact hG rfl
        have hab : a ∉ bs := fun hm => by
          rw [z.at'.siblings a hm] at hag; cases hag; exact hG rfl
        have hgn := z.not_new hgl
        have e : RegionEdge g g0 = RegionEdge h g0 := by
          funext x y
          exact propext (z.region_same hgn hG)
        refine ⟨q, a, hq', ha', .inr ⟨hv, .inr ⟨g0, sig, f, rest, hne, by rw [z.up_old hpl hpb]; exact hpg, by rw [z.up_old hal hab]; exact hag,
          by rw [z.ops hgn]; exact hop, by rw [z.kids hgn hG]; exact hch, by rw [e]; exact hdom⟩⟩⟩

theorem v_kinds (hx : CanReach h G entry → CanReach h G exit) {l : Link} (hl : l ∈ g.links) : ∃ kind, srcKind g l = some kind ∧
    ((g.ops l.dst).ports .incoming)[l.dstPort]? = some kind ∧ EdgeOk g l kind := by
  rcases z.mem_links.1 hl with ⟨k, hk, e⟩ | hw | e
  · obtain ⟨kind, k1, k2, k3⟩ := z.valid.kinds k hk
    have hks := z.not_new (z.live_link hk).1
    have hkd := z.not_new (z.live_link hk).2
    rcases z.redirect_cases hk with ⟨e1, e2, e'⟩ | ⟨e1, e'⟩ | ⟨e1, e2, e'⟩
    · rw [e'] at e; subst e
      have hkc := z.bs_in z.at'.entry_mem (e1 ▸ k2)
      subst hkc
      refine ⟨.controlFlow, ?_, ?_, G, ?_, .inl z.up_block⟩
      · unfold srcKind at k1 ⊢
        simp only
        rw [z.ops hks]; exact k1
      · simp only
        rw [z.op_block]; rfl
      · simp only
        rw [z.up_old (z.live_link hk).1 e2]
        obtain ⟨p, hp, he⟩ := k3
        rcases he with he | ⟨_, _, _, _, ⟨he, _⟩ | ⟨⟨_, he, _⟩, _⟩⟩
        · rw [e1, z.at'.siblings _ z.at'.entry_mem] at he
          rw [hp, he]
        · simp [Kind.isStatic] at he
        · cases he
    · rw [e'] at e; subst e
      subst e1
      have hkc := z.bs_out z.at'.exit_mem k1
      subst hkc
      refine ⟨.controlFlow, ?_, ?_, N.cfg, z.up_bs z.at'.exit_mem, .inl z.up_exit⟩
      · unfold srcKind at k1 ⊢
        simp only at k1 ⊢
        rw [z.ops hks]; exact k1
      · simp only
        rw [z.op_exit]; rfl
    · rw [e'] at e; subst e
      refine ⟨kind, ?_, by rw [z.ops hkd]; exact k2, z.edge hx hk e1 e2 k1 k2 k3⟩
      unfold srcKind at k1 ⊢
      rw [z.ops hks]; exact k1
  · simp only [OutlineNew.wires, straight, List.mem_append, List.mem_map, List.mem_range, List.mem_cons, List.not_mem_nil, or_false] at hw
    rcases hw with (⟨p, hp, rfl⟩ | rfl | rfl) | ⟨p, hp, rfl⟩
    · refine ⟨.value ins[p], ?_, ?_, N.block, z.up_kid (by simp), .inl (z.up_kid (by simp))⟩
      · simp [srcKind, z.op_inp, Op.ports, row_port hp]
      · simp [z.op_cfg, Op.ports, row_port hp]
    · refine ⟨.const (sumOf [[]]), ?_, ?_, N.block, z.up_kid (by simp), .inl (z.up_kid (by simp))⟩
      · simp [srcKind, z.op_const, Op.ports]
      · simp [z.op_load, Op.ports]
    · refine ⟨.value (sumOf [[]]), ?_, ?_, N.block, z.up_kid (by simp), .inl (z.up_kid (by simp))⟩
      · simp [srcKind, z.op_load, Op.ports]
      · simp [z.op_out, Op.ports]
    · refine ⟨.value outs[p], ?_, ?_, N.block, z.up_kid (by simp), .inl (z.up_kid (by simp))⟩
      · simp [srcKind, z.op_cfg, Op.ports, row_port hp]
      · simp [z.op_out, Op.ports, row_port hp]
  · subst e
    refine ⟨.controlFlow, ?_, ?_, G, z.up_block, .inl z.up_outside⟩
    · simp [srcKind, z.op_block, Op.ports]
    · simp only
      rw [z.ops (z.not_new (z.live_link z.at'.left).2), z.output.ports]; rfl

/-! ## Counts -/

theorem count (φ : Link → Bool) : g.links.countP φ =
    h.links.countP (fun l => φ (N.redirect bs entry exit port l)) + (List.range ins.length).countP (fun k => φ ⟨N.inp, k, N.cfg, k⟩) +
    (if φ ⟨N.const, 0, N.load, 0⟩ then 1 else 0) + (if φ ⟨N.load, 0, N.out, 0⟩ then 1 else 0) +
    (List.range outs.length).countP (fun k => φ ⟨N.cfg, k, N.out, k + 1⟩) + (if φ ⟨N.block, 0, outside, 0⟩ then 1 else 0) := by
  rw [z.done.links.countP_eq]
  simp only [OutlineNew.wires, straight, List.countP_append, List.countP_map, List.countP_cons, List.countP_nil, Function.comp_def]
  omega

theorem redirect_src {l : Link} (hl : l ∈ h.links) :
    (N.redirect bs entry exit port l).src = l.src ∧ (N.redirect bs entry exit port l).srcPort = l.srcPort := by
  rcases z.redirect_cases hl with ⟨_, _, e⟩ | ⟨e', e⟩ | ⟨_, _, e⟩
  · rw [e]; exact ⟨rfl, rfl⟩
  · rw [e, e']; exact ⟨rfl, rfl⟩
  · rw [e]; exact ⟨rfl, rfl⟩

theorem v_outDegree {n port' : Nat} {kind : Kind} (hn : g.live n = true)
    (hk : ((g.ops n).ports .outgoing)[port']? = some kind) : OutDegreeOk kind (linksFrom g n port').length := by
  obtain ⟨n1, n2, n3, n4, n5, n6, n7, n8, n9, n10⟩ := z.distinct
  obtain ⟨m1, m2, m3, m4, m5, m6, m7, m8, m9, m10, m11⟩ := z.ne_all
  have hc := z.count fun l => decide (l.src = n) && decide (l.srcPort = port')
  unfold linksFrom
  rw [← List.countP_eq_length_filter]
  have e1 : h.links.countP (fun l => decide ((N.redirect bs entry exit port l).src = n) &&
      decide ((N.redirect bs entry exit port l).srcPort = port')) = h.links.countP (fun l => decide (l.src = n) && decide (l.srcPort = port')) := by
    refine List.countP_congr fun l hl => ?_
    rw [(z.redirect_src hl).1, (z.redirect_src hl).2]
  rw [e1] at hc
  rw [hc]
  clear hc e1
  rcases z.live_cases hn with hn | hn
  · have hnn := z.not_new hn
    simp only [OutlineNew.news, List.mem_cons, List.not_mem_nil, or_false, not_or] at hnn
    rw [z.ops (z.not_new hn)] at hk
    have hd := z.valid.outDegree n port' kind hn hk
    unfold linksFrom at hd
    rw [← List.countP_eq_length_filter] at hd
    have q1 : ¬ N.inp = n := fun e => by simp [e] at hnn
    have q2 : ¬ N.const = n := fun e => by simp [e] at hnn
    have q3 : ¬ N.load = n := fun e => by simp [e] at hnn
    have q4 : ¬ N.cfg = n := fun e => by simp [e] at hnn
    have q5 : ¬ N.block = n := fun e => by simp [e] at hnn
    simpa [q1, q2, q3, q4, q5] using hd
  · have e0 : h.links.countP (fun l => decide (l.src = n) && decide (l.srcPort = port')) = 0 := by
      rw [List.countP_eq_zero]
      intro l hl hx
      simp only [Bool.and_eq_true, decide_eq_true_eq] at hx
      exact z.not_new (z.live_link hl).1 (hx.1 ▸ hn)
    rw [e0]
    rcases z.new_mem_iff.1 hn with rfl | rfl | hkk
    · rw [z.op_block] at hk
      have : port' = 0 := by
        rcases port' with _ | q
        · rfl
        · simp [Op.ports] at hk
      subst this
      simp only [Op.ports, List.map_cons, List.map_nil, List.getElem?_cons_zero] at hk
      cases hk
      simp [OutDegreeOk, m1.symm, m3.symm, m5.symm, m6.symm]
    · rw [z.op_exit] at hk; simp [Op.ports] at hk
    · simp only [List.mem_cons, List.not_mem_nil, or_false] at hkk
      rcases hkk with rfl | rfl | rfl | rfl | rfl
      · rw [z.op_inp] at hk
        by_cases hlt : port' < ins.length
        · simp only [Op.ports, row_port hlt, Option.some.injEq] at hk
          subst hk
          right
          simp [n2.symm, n4.symm, n7.symm, m1, range_count, hlt]
        · simp only [Op.ports] at hk
          rw [List.getElem?_append_right (by simpa using Nat.le_of_not_lt hlt)] at hk
          have := List.mem_of_getElem? hk
          simp only [List.mem_singleton] at this
          subst this; trivial
      · rw [z.op_out] at hk; simp [Op.ports] at hk
      · rw [z.op_cfg] at hk
        by_cases hlt : port' < outs.length
        · simp only [Op.ports, row_port hlt, Option.some.injEq] at hk
          subst hk
          right
          simp [n2, n6.symm, n9.symm, m3, range_count, hlt]
        · simp only [Op.ports] at hk
          rw [List.getElem?_append_right (by simpa using Nat.le_of_not_lt hlt)] at hk
          have := List.mem_of_getElem? hk
          simp only [List.mem_singleton] at this
          subst this; trivial
      · rw [z.op_const] at hk
        have := List.mem_of_getElem? hk
        simp only [Op.ports, List.mem_singleton] at this
        subst this; trivial
      · rw [z.op_load] at hk
        rcases port' with _ | _ | q
        · cases hk
          right
          simp [n7, n9, n10, m6]
        · cases hk; trivial
        · simp [Op.ports] at hk

theorem v_inDegree {n port' : Nat} {kind : Kind} (hn : g.live n = true)
    (hk : ((g.ops n).ports .incoming)[port']? = some kind) : InDegreeOk kind (linksTo g n port').length := by
  obtain ⟨n1, n2, n3, n4, n5, n6, n7, n8, n9, n10⟩ := z.distinct
  obtain ⟨m1, m2, m3, m4, m5, m6, m7, m8, m9, m10, m11⟩ := z.ne_all
  have hc := z.count fun l => decide (l.dst = n) && decide (l.dstPort = port')
  unfold linksTo
  rw [← List.countP_eq_length_filter]
  rw [hc]
  clear hc
  by_cases hpl : Plain (g.ops n)
  · have hout : ¬ outside = n := fun e => by
      subst e
      refine hpl outs ?_
      rw [z.ops (z.not_new (z.live_link z.at'.left).2)]; exact z.output
    have hent : ¬ entry = n := fun e => by
      subst e
      obtain ⟨x, y, r, e⟩ := z.bs_op z.at'.entry_mem
      exact hpl x (.inl ⟨y, r, e⟩)
    have hblock : ¬ N.block = n := fun e => by
      subst e
      exact hpl ins (.inl ⟨_, _, z.op_block⟩)
    have hexit : ¬ N.exit = n := fun e => by
      subst e
      exact hpl outs (.inr z.op_exit)
    have e1 : h.links.countP (fun l => decide ((N.redirect bs entry exit port l).dst = n) &&
        decide ((N.redirect bs entry exit port l).dstPort = port')) = h.links.countP (fun l => decide (l.dst = n) && decide (l.dstPort = port')) := by
      refine List.countP_congr fun l hl => ?_
      rcases z.redirect_cases hl with ⟨e1, _, e⟩ | ⟨e', e⟩ | ⟨_, _, e⟩
      · rw [e]; simp [e1, hent, hblock]
      · rw [e, e']; simp [hout, hexit]
      · rw [e]
    rw [e1]
    rcases z.live_cases hn with hn | hn
    · have hnn := z.not_new hn
      simp only [OutlineNew.news, List.mem_cons, List.not_mem_nil, or_false, not_or] at hnn
      rw [z.ops (z.not_new hn)] at hk
      have hd := z.valid.inDegree n port' kind hn hk
      unfold linksTo at hd
      rw [← List.countP_eq_length_filter] at hd
      have q1 : ¬ N.cfg = n := fun e => by simp [e] at hnn
      have q3 : ¬ N.load = n := fun e => by simp [e] at hnn
      have q4 : ¬ N.out = n := fun e => by simp [e] at hnn
      simpa [q1, q3, q4, hout] using hd
    · have e0 : h.links.countP (fun l => decide (l.dst = n) && decide (l.dstPort = port')) = 0 := by
        rw [List.countP_eq_zero]
        intro l hl hx
        simp only [Bool.and_eq_true, decide_eq_true_eq] at hx
        exact z.not_new (z.live_link hl).2 (hx.1 ▸ hn)
      rw [e0]
      rcases z.new_mem_iff.1 hn with rfl | rfl | hkk
      · exact absurd rfl hblock
      · exact absurd rfl hexit
      · simp only [List.mem_cons, List.not_mem_nil, or_false] at hkk
        rcases hkk with rfl | rfl | rfl | rfl | rfl
        · rw [z.op_inp] at hk; simp [Op.ports] at hk
        · rw [z.op_out] at hk
          rcases port' with _ | q
          · simp only [Op.ports, List.map_cons, List.cons_append, List.getElem?_cons_zero] at hk
            cases hk
            simp [InDegreeOk, n3.symm, n8.symm, hout]
          · simp only [Op.ports, List.map_cons, List.cons_append, List.getElem?_cons_succ] at hk
            by_cases hlt : q < outs.length
            · simp only [row_port hlt, Option.some.injEq] at hk
              subst hk
              simp [InDegreeOk, n3.symm, n8.symm, hout, range_count, hlt]
            · rw [List.getElem?_append_right (by simpa using Nat.le_of_not_lt hlt)] at hk
              have := List.mem_of_getElem? hk
              simp only [List.mem_singleton] at this
              subst this; trivial
        · rw [z.op_cfg] at hk
          by_cases hlt : port' < ins.length
          · simp only [Op.ports, row_port hlt, Option.some.injEq] at hk
            subst hk
            simp [InDegreeOk, n3, n9.symm, hout, range_count, hlt]
          · simp only [Op.ports] at hk
            rw [List.getElem?_append_right (by simpa using Nat.le_of_not_lt hlt)] at hk
            have := List.mem_of_getElem? hk
            simp only [List.mem_singleton] at this
            subst this; trivial
        · rw [z.op_const] at hk; simp [Op.ports] at hk
        · rw [z.op_load] at hk
          rcases port' with _ | _ | q
          · cases hk
            simp [InDegreeOk, n8, n9, hout]
          · cases hk; trivial
          · simp [Op.ports] at hk
  · have : kind = .controlFlow := by
      unfold Plain at hpl
      push_neg at hpl
      obtain ⟨row, hb⟩ := hpl
      rw [hb.ports] at hk
      have := List.mem_of_getElem? hk
      simpa using this
    subst this
    trivial

/-! ## Types -/

theorem not_function {p : Nat} {sig : Types.Signature} (hp : g.ops p = .cfg sig) : ∀ name sg, g.ops p ≠ .funcDefn name sg := by
  have _ := z
  intro _ _ e; rw [hp] at e; cases e

/-- The new nodes and the moved blocks have the variables of the control-flow graph, all others those they had. -/
theorem decls_old {n : Nat} {D : List Types.Term} (hd : DeclsAt g n D) : (n ∉ N.news → n ∉ bs → DeclsAt h n D) ∧
    (n ∈ N.news ∨ n ∈ bs → DeclsAt h G D) := by
  obtain ⟨sig, hG⟩ := z.at'.op
  have upG : ∀ {n q : Nat}, n ∈ N.news ∨ n ∈ bs → g.hier.parent n = some q → q = G ∨ q ∈ N.news := by
    rintro n q (hn | hn) hp
    · rcases z.new_mem_iff.1 hn with rfl | rfl | hk
      · rw [z.up_block] at hp; cases hp; exact .inl rfl
      · rw [z.up_exit] at hp; cases hp; exact .inr (by simp [OutlineNew.news])
      · rw [z.up_kid hk] at hp; cases hp; exact .inr (by simp [OutlineNew.news])
    · rw [z.up_bs hn] at hp; cases hp; exact .inr (by simp [OutlineNew.news])
  have newOp : ∀ {q : Nat} {name : String} {sg}, q ∈ N.news → g.ops q ≠ .funcDefn name sg := by
    intro q name sg hq e
    simp only [OutlineNew.news, List.mem_cons, List.not_mem_nil, or_false] at hq
    rcases hq with rfl | rfl | rfl | rfl | rfl | rfl | rfl
    · rw [z.op_block] at e; cases e
    · rw [z.op_inp] at e; cases e
    · rw [z.op_out] at e; cases e
    · rw [z.op_cfg] at e; cases e
    · rw [z.op_exit] at e; cases e
    · rw [z.op_const] at e; cases e
    · rw [z.op_load] at e; cases e
  have isOld : ∀ {n q : Nat}, n ∉ N.news → n ∉ bs → g.hier.parent n = some q → h.hier.parent n = some q := by
    intro n q hn hb hp
    rcases z.live_cases (z.treeG.parent_live _ _ hp).1 with hl | hl
    · rw [z.up_old hl hb] at hp; exact hp
    · exact absurd hl hn
  induction hd with
  | root =>
    have hl : h.live g.moduleRoot = true := by rw [z.done.moduleRoot]; exact z.tree.root_live
    refine ⟨fun _ _ => by rw [z.done.moduleRoot]; exact .root, ?_⟩
    rintro (hn | hn)
    · exact absurd hn (z.not_new hl)
    · have := z.at'.siblings _ hn
      rw [z.done.moduleRoot, z.tree.root_top] at this; cases this
  | @inside n q name sg hp ho =>
    constructor
    · intro hn hb
      have hp' := isOld hn hb hp
      refine .inside hp' (name := name) ?_
      rw [← z.ops (z.not_new (z.tree.parent_live _ _ hp').2)]; exact ho
    · intro hn
      rcases upG hn hp with rfl | hq
      · rw [z.ops z.G_new, hG] at ho; cases ho
      · exact absurd ho (newOp hq)
  | @inherited n q D hp ho _ ih =>
    constructor
    · intro hn hb
      have hp' := isOld hn hb hp
      have hql := (z.tree.parent_live _ _ hp').2
      have hqn := z.not_new hql
      rw [z.ops hqn] at ho
      by_cases hqb : q ∈ bs
      · exact .inherited hp' ho (.inherited (z.at'.siblings q hqb) (fun _ _ e => by rw [hG] at e; cases e) (ih.2 (.inr hqb)))
      · exact .inherited hp' ho (ih.1 hqn hqb)
    · intro hn
      rcases upG hn hp with rfl | hq
      · exact ih.1 z.G_new z.G_not
      · exact ih.2 (.inl hq)

theorem decls_any {n : Nat} {D : List Types.Term} (hn : h.live n = true) (hd : DeclsAt g n D) : DeclsAt h n D := by
  obtain ⟨sig, hG⟩ := z.at'.op
  by_cases hb : n ∈ bs
  · exact .inherited (z.at'.siblings n hb) (fun _ _ e => by rw [hG] at e; cases e) ((z.decls_old hd).2 (.inr hb))
  · exact (z.decls_old hd).1 (z.not_new hn) hb

/-- The types that a block of the graph is given are well formed. -/
theorem input_valid {b : Nat} {row : List Types.Ty} (hb : h.hier.parent b = some G) (hop : BlockInput (h.ops b) row) {D : List Types.Term}
    (hd : DeclsAt h G D) : ∀ t ∈ row, t.validate C.types D = true := by
  obtain ⟨sig, hG⟩ := z.at'.op
  have hbl := (z.tree.parent_live _ _ hb).1
  have hdb : DeclsAt h b D := .inherited hb (fun _ _ e => by rw [hG] at e; cases e) hd
  intro t ht
  rcases hop with ⟨y, r, e⟩ | e
  · have hc := z.valid.children b hbl
    unfold ChildrenOk at hc
    rw [e] at hc
    obtain ⟨i, o, rest, h1, h2, _⟩ := hc
    have hi : h.hier.parent i = some b := (z.tree.child_iff _ _).1 (by change i ∈ h.children b; rw [h1]; simp)
    have hdi : DeclsAt h i D := .inherited hi (fun _ _ e' => by rw [e] at e'; cases e') hdb
    have := (z.valid.types i D (z.tree.parent_live _ _ hi).1 hdi).2 (.value t) (by
      rw [h2]
      simp only [Op.ports, List.mem_append, List.mem_map]
      exact .inl ⟨t, ht, rfl⟩)
    exact this
  · have hc := z.valid.children G z.live_G
    unfold ChildrenOk at hc
    rw [hG] at hc
    obtain ⟨f, X, rest, o, r, h1, h2, h3, h4⟩ := hc
    have hm : b ∈ h.children G := (z.tree.child_iff _ _).2 hb
    rw [h1] at hm
    have hbX : b = X := by
      rcases List.mem_cons.1 hm with rfl | hm
      · rw [h2] at e; cases e
      · rcases List.mem_cons.1 hm with rfl | hm
        · rfl
        · exact absurd e (h4 b hm row)
    subst hbX
    rw [h3] at e; cases e
    have := (z.valid.types G D z.live_G hd).2 (.value t) (by
      rw [hG]
      simp only [Op.ports, List.mem_append, List.mem_map]
      exact .inl ⟨t, ht, rfl⟩)
    exact this

theorem v_types {n : Nat} {D : List Types.Term} (hn : g.live n = true) (hd : DeclsAt g n D) : ArgsOk C D (g.ops n) ∧
    ∀ kind ∈ (g.ops n).ports .outgoing, KindOk C D kind := by
  rcases z.live_cases hn with hn | hn
  · rw [z.ops (z.not_new hn)]
    exact z.valid.types n D hn (z.decls_any hn hd)
  · have hdG := (z.decls_old hd).2 (.inl hn)
    have hi := z.input_valid (z.at'.siblings _ z.at'.entry_mem) z.input hdG
    have ho := z.input_valid z.outside_parent z.output hdG
    have row : ∀ {row : List Types.Ty}, (∀ t ∈ row, t.validate C.types D = true) → ∀ kind ∈ row.map Kind.value ++ [.stateOrder], KindOk C D kind := by
      intro row hr kind hk
      rcases List.mem_append.1 hk with hk | hk
      · obtain ⟨t, ht, rfl⟩ := List.mem_map.1 hk
        exact hr t ht
      · rw [List.mem_singleton] at hk
        subst hk; trivial
    simp only [OutlineNew.news, List.mem_cons, List.not_mem_nil, or_false] at hn
    rcases hn with rfl | rfl | rfl | rfl | rfl | rfl | rfl
    · rw [z.op_block]
      refine ⟨trivial, fun kind hk => ?_⟩
      simp only [Op.ports, List.map_cons, List.map_nil, List.mem_singleton] at hk
      subst hk; trivial
    · rw [z.op_inp]; exact ⟨trivial, row hi⟩
    · rw [z.op_out]; exact ⟨trivial, fun kind hk => by simp [Op.ports] at hk⟩
    · rw [z.op_cfg]; exact ⟨trivial, row ho⟩
    · rw [z.op_exit]; exact ⟨trivial, fun kind hk => by simp [Op.ports] at hk⟩
    · rw [z.op_const]
      refine ⟨trivial, fun kind hk => ?_⟩
      simp only [Op.ports, List.mem_singleton] at hk
      subst hk; rfl
    · rw [z.op_load]
      refine ⟨trivial, fun kind hk => ?_⟩
      simp only [Op.ports, List.mem_cons, List.not_mem_nil, or_false] at hk
      rcases hk with rfl | rfl
      · rfl
      · trivial

/-! ## All rules -/

theorem valid_g (hx : CanReach h G entry → CanReach h G exit) (hc : C.constOk N.const = true) : Valid C g := by
  refine ⟨?_, ?_, fun n q hp => z.v_contains hp, fun n hn => z.v_children hn, ?_, fun l hl q sig hq hs hd => z.v_blocks hl hq hs hd,
    fun q hq hb n => z.v_acyclic hq hb n, ?_, fun n port kind hn hk => z.v_inDegree hn hk, fun n port kind hn hk => z.v_outDegree hn hk,
    fun l hl => z.v_kinds hx hl, fun n D hn hd => z.v_types hn hd, ?_⟩
  · intro n hn
    rcases z.live_cases hn with hn | hn
    · rw [z.ops (z.not_new hn)]; exact z.valid.tags n hn
    · simp only [OutlineNew.news, List.mem_cons, List.not_mem_nil, or_false] at hn
      rcases hn with rfl | rfl | rfl | rfl | rfl | rfl | rfl
      · rw [z.op_block]; rfl
      · rw [z.op_inp]; rfl
      · rw [z.op_out]; rfl
      · rw [z.op_cfg]; rfl
      · rw [z.op_exit]; rfl
      · rw [z.op_const]; rfl
      · rw [z.op_load]; rfl
  · intro n hn
    rcases z.live_cases hn with hn | hn
    · obtain ⟨e1, e2, e3⟩ := z.done.old n (z.not_new hn)
      rw [e1, e2, e3]; exact z.valid.ports n hn
    · obtain ⟨e, he, rfl⟩ := z.new_mem hn
      obtain ⟨e1, e2, e3⟩ := z.done.new e he
      rw [e1, e2, e3]
      have ht : e.2.2.tagOk = true := by
        simp only [OutlineNew.nodes, List.mem_cons, List.not_mem_nil, or_false] at he
        rcases he with rfl | rfl | rfl | rfl | rfl | rfl | rfl <;> rfl
      exact ⟨Builder.inputs_eq ht, Builder.outputs_eq ht⟩
  · rw [z.done.entrypoint, z.ops (z.not_new z.tree.entry_live)]; exact z.valid.entrypoint
  · intro n t hn ho
    rcases z.live_cases hn with hn | hn
    · rw [z.ops (z.not_new hn)] at ho; exact z.valid.constants n t hn ho
    · simp only [OutlineNew.news, List.mem_cons, List.not_mem_nil, or_false] at hn
      rcases hn with rfl | rfl | rfl | rfl | rfl | rfl | rfl
      · rw [z.op_block] at ho; cases ho
      · rw [z.op_inp] at ho; cases ho
      · rw [z.op_out] at ho; cases ho
      · rw [z.op_cfg] at ho; cases ho
      · rw [z.op_exit] at ho; cases ho
      · exact hc
      · rw [z.op_load] at ho; cases ho
  · have key : ∀ a name sig e, Exports C g a name sig e → Exports C h a name sig e := by
      rintro a name sig e ⟨h1, h2, h3⟩
      rw [z.done.moduleRoot] at h1
      have hrn := z.not_new z.tree.root_live
      by_cases hrG : h.moduleRoot = G
      · rw [hrG] at h1
        rcases z.kids_G_mem.1 h1 with rfl | ⟨c1, _⟩
        · rw [z.op_block] at h3
          rcases h3 with ⟨_, h3⟩ | ⟨_, h3⟩ <;> cases h3
        · rw [z.child_op c1] at h3
          exact ⟨by rw [hrG]; exact c1, h2, h3⟩
      · rw [z.kids hrn hrG] at h1
        rw [z.child_op h1] at h3
        exact ⟨h1, h2, h3⟩
    intro a b name siga sigb da db ha hb
    exact z.valid.exports a b name siga sigb da db (key _ _ _ _ ha) (key _ _ _ _ hb)

end OutlineAt

end Verif.Patch
