import Verif.Patch.OutlineSim

/-!
# Outlining keeps results: runs of the original are runs of the result
-/
namespace Verif.Patch

open Verif.Graph Verif.Ops Verif.Passes Verif.Validate Verif.Dataflow

variable {Meta W K : Type} {C : Validate.Context} {h g : Hugr Ops.Op Meta} {S : Sem W K}

/-- Control goes on outside of the moved blocks. -/
def GoesOn (h : Hugr Ops.Op Meta) (S : Sem W K) (outside : Nat) (ρ : Wires W) (mid outs : List (Val W)) : Prop :=
  (∀ x y r, h.ops outside = .dataflowBlock x y r → Runs h S (.blocks ρ outside mid outs)) ∧
  ∀ ots, h.ops outside = .exitBlock ots → outs = mid

/-- What is to be run with the new block. -/
def AsOutlined (h g : Hugr Ops.Op Meta) (S : Sem W K) (G outside : Nat) (bs : List Nat) (outs : List Types.Ty)
    (N : OutlineNew) : Task W → Prop
  | .graph ρ p vals res σ => (∀ sig, h.ops p ≠ .cfg sig) → (∀ n, n ∉ h.children p → σ n = ρ n) ∧
      (∀ i o, HasIO h p i o → vals.length = numOuts (h.ops i) ∧ res.length = numIns (h.ops o)) ∧
      ∀ V ρ', Loc h bs V p → SameVisibleOff h N bs V p ρ ρ' → ∃ σ', SameVisible h N bs V σ σ' ∧ Runs g S (.graph ρ' p vals res σ')
  | .node ρ n vals res => h.live n = true → Plain (h.ops n) →
      ∀ V ρ', Loc h bs V n → SameVisible h N bs V ρ ρ' → Runs g S (.node ρ' n vals res)
  | .loop ρ n vals res => h.live n = true →
      ∀ V ρ', Loc h bs V n → SameVisible h N bs V ρ ρ' → Runs g S (.loop ρ' n vals res)
  | .blocks ρ b vals res =>
      (h.live b = true → h.hier.parent b ≠ some G → ∀ V ρ', Loc h bs V b → SameVisible h N bs V ρ ρ' →
        Runs g S (.blocks ρ' b vals res)) ∧
      (h.hier.parent b = some G → b ∉ bs → CanReach h G b → ∀ ρ', SameVisible h N bs noBlock ρ ρ' →
        Runs g S (.blocks ρ' b vals res)) ∧
      (b ∈ bs → CanReach h G b → (∀ x y r, h.ops b = .dataflowBlock x y r → vals.length = x.length) ∧
        ∃ mid, mid.length = outs.length ∧
        (∀ V ρ', Route h G bs V b → SameVisible h N bs V ρ ρ' → Runs g S (.blocks ρ' b vals mid)) ∧
        ∀ ρ'', SameVisible h N bs noBlock ρ ρ'' → GoesOn g S outside ρ'' mid res)

theorem numIns_cfg {sig : Types.Signature} : numIns (.cfg sig) = sig.input.length := by
  simp [numIns, Op.ports, List.filter_append, List.filter_map, Kind.isValue, Function.comp_def]

theorem numOuts_cfg {sig : Types.Signature} : numOuts (.cfg sig) = sig.output.length := by
  simp [numOuts, Op.ports, List.filter_append, List.filter_map, Kind.isValue, Function.comp_def]

namespace OutlineAt

variable {G entry exit port outside : Nat} {bs : List Nat} {ins outs : List Types.Ty} {N : OutlineNew}
  (z : OutlineAt C h G bs entry exit port outside ins outs N g)
include z

/-- Control stays in a control-flow graph. -/
theorem flow_parent {l : Link} (hl : l ∈ h.links) {x y : List Types.Ty} {r : List (List Types.Ty)}
    (hop : h.ops l.src = .dataflowBlock x y r) : h.hier.parent l.dst = h.hier.parent l.src := by
  obtain ⟨kind, h1, h2, p, hp, he⟩ := z.valid.kinds l hl
  have hk := (from_block z.valid hl hop).1
  rw [h1] at hk; cases hk
  rcases he with he | ⟨q, a, _, _, ⟨hs, _⟩ | ⟨⟨t, e, _⟩, _⟩⟩
  · rw [he, hp]
  · cases hs
  · cases e

theorem flow_edge {l : Link} (hl : l ∈ h.links) {x y : List Types.Ty} {r : List (List Types.Ty)}
    (hop : h.ops l.src = .dataflowBlock x y r) (hp : h.hier.parent l.src = some G) : RegionEdge h G l.src l.dst :=
  ⟨(z.tree.child_iff _ _).2 hp, (z.tree.child_iff _ _).2 (by rw [z.flow_parent hl hop]; exact hp), l, hl, rfl, rfl⟩

theorem link_stay {l : Link} (hl : l ∈ h.links) (h1 : ¬ (l.dst = entry ∧ l.src ∉ bs)) (h2 : ¬ (l.src = exit ∧ l.srcPort = port)) :
    l ∈ g.links := by
  refine z.mem_links.2 (.inl ⟨l, hl, ?_⟩)
  rcases z.redirect_cases hl with ⟨e1, e2, _⟩ | ⟨e, _⟩ | ⟨_, _, e⟩
  · exact absurd ⟨e1, e2⟩ h1
  · rw [e] at h2; exact absurd ⟨rfl, rfl⟩ h2
  · exact e.symm

theorem link_in {l : Link} (hl : l ∈ h.links) (h1 : l.dst = entry) (h2 : l.src ∉ bs) : ⟨l.src, l.srcPort, N.block, 0⟩ ∈ g.links := by
  refine z.mem_links.2 (.inl ⟨l, hl, ?_⟩)
  rcases z.redirect_cases hl with ⟨_, _, e⟩ | ⟨e, _⟩ | ⟨e, _, _⟩
  · exact e.symm
  · rw [e] at h2; exact absurd z.at'.exit_mem h2
  · exact absurd ⟨h1, h2⟩ e

theorem link_out : ⟨exit, port, N.exit, 0⟩ ∈ g.links := by
  refine z.mem_links.2 (.inl ⟨_, z.at'.left, ?_⟩)
  rcases z.redirect_cases z.at'.left with ⟨_, e, _⟩ | ⟨_, e⟩ | ⟨_, e, _⟩
  · exact absurd z.at'.exit_mem e
  · exact e.symm
  · exact absurd ⟨rfl, rfl⟩ e

theorem left_eq {l : Link} (hl : l ∈ h.links) (hs : l.src ∈ bs) (hd : l.dst ∉ bs) : l = ⟨exit, port, outside, 0⟩ := by
  have := (z.at'.leaves l hl hs).1 hd
  rcases z.redirect_cases hl with ⟨_, e, _⟩ | ⟨e, _⟩ | ⟨_, e, _⟩
  · exact absurd hs e
  · exact e
  · exact absurd this e

theorem outside_parent : h.hier.parent outside = some G := by
  obtain ⟨x, y, r, e⟩ := z.blocks exit z.at'.exit_mem
  rw [z.flow_parent z.at'.left e]; exact z.at'.siblings _ z.at'.exit_mem

/-- What the last moved block passes on. -/
theorem out_row {tag : Nat} {x y row : List Types.Ty} {r : List (List Types.Ty)} (hop : h.ops exit = .dataflowBlock x y r)
    (ht : tag = port) (hr : r[tag]? = some row) : row ++ y = outs := by
  subst ht
  obtain ⟨sig, hG⟩ := z.at'.op
  obtain ⟨x', y', r', row', e1, e2, e3⟩ := z.valid.blocks _ z.at'.left G sig hG
    ((z.tree.child_iff _ _).2 (z.at'.siblings _ z.at'.exit_mem)) ((z.tree.child_iff _ _).2 z.outside_parent)
  rw [hop] at e1; cases e1
  rw [hr] at e2; cases e2
  rcases z.output with ⟨a, b, e⟩ | e <;> rcases e3 with ⟨o, q, e3⟩ | e3
  · rw [e] at e3; cases e3; rfl
  · rw [e] at e3; cases e3
  · rw [e] at e3; cases e3
  · rw [e] at e3; cases e3; rfl

theorem wire_in {p : Nat} (hp : p < ins.length) : ⟨N.inp, p, N.cfg, p⟩ ∈ g.links :=
  z.mem_links.2 (.inr (.inl (by simp [OutlineNew.wires, straight, hp])))
theorem wire_out {p : Nat} (hp : p < outs.length) : ⟨N.cfg, p, N.out, p + 1⟩ ∈ g.links :=
  z.mem_links.2 (.inr (.inl (by simp [OutlineNew.wires, straight, hp])))
theorem wire_const : ⟨N.const, 0, N.load, 0⟩ ∈ g.links :=
  z.mem_links.2 (.inr (.inl (by simp [OutlineNew.wires])))
theorem wire_load : ⟨N.load, 0, N.out, 0⟩ ∈ g.links :=
  z.mem_links.2 (.inr (.inl (by simp [OutlineNew.wires])))
theorem wire_next : ⟨N.block, 0, outside, 0⟩ ∈ g.links := z.mem_links.2 (.inr (.inr rfl))

theorem distinct : N.inp ≠ N.out ∧ N.inp ≠ N.cfg ∧ N.out ≠ N.cfg ∧ N.inp ≠ N.const ∧ N.out ≠ N.const ∧ N.cfg ≠ N.const ∧
    N.inp ≠ N.load ∧ N.out ≠ N.load ∧ N.cfg ≠ N.load ∧ N.const ≠ N.load := by
  have hd := z.fresh.1
  simp only [OutlineNew.news, List.nodup_cons, List.mem_cons, List.not_mem_nil, or_false, not_or, List.nodup_nil,
    not_false_eq_true, and_true] at hd
  obtain ⟨_, ⟨a1, a2, _, a4, a5⟩, ⟨b1, _, b3, b4⟩, ⟨_, c2, c3⟩, _, d1⟩ := hd
  exact ⟨a1, a2, b1, a4, b3, c2, a5, b4, c3, d1⟩

/-- Running the new block. -/
theorem run_block (hu : S.value (S.const N.const) = .sum 0 []) {ρ : Wires W} {vals mid res : List (Val W)}
    (hv : vals.length = ins.length) (hm : mid.length = outs.length)
    (hr : ∀ σ : Wires W, (∀ n ∉ N.news, σ n = ρ n) → Runs g S (.blocks σ entry vals mid))
    (hg : ∀ σ : Wires W, (∀ n ∉ N.news, σ n = ρ n) → GoesOn g S outside σ mid res) : Runs g S (.blocks ρ N.block vals res) := by
  obtain ⟨n1, n2, n3, n4, n5, n6, n7, n8, n9, n10⟩ := z.distinct
  let σ : Wires W := fun n => if n = N.inp then outWires vals else if n = N.out then outWires [] else if n = N.cfg then outWires mid
    else if n = N.const then outWires [] else if n = N.load then outWires [.sum 0 []] else ρ n
  have s1 : σ N.inp = outWires vals := by simp [σ]
  have s2 : σ N.out = outWires [] := by simp [σ, n1.symm]
  have s3 : σ N.cfg = outWires mid := by simp [σ, n2.symm, n3.symm]
  have s4 : σ N.const = outWires [] := by simp [σ, n4.symm, n5.symm, n6.symm]
  have s5 : σ N.load = outWires [.sum 0 []] := by simp [σ, n7.symm, n8.symm, n9.symm, n10.symm]
  have s6 : ∀ n ∉ N.news, σ n = ρ n := by
    intro n hn
    simp only [OutlineNew.news, List.mem_cons, List.not_mem_nil, or_false, not_or] at hn
    simp [σ, hn]
  have hgr : Runs g S (.graph ρ N.block vals (.sum 0 [] :: mid) σ) := by
    refine .graph (i := N.inp) (o := N.out) (ins := fun n => if n = N.cfg then vals else [])
      (outs := fun n => if n = N.cfg then mid else if n = N.const then [] else [.sum 0 []])
      ⟨_, z.done.childrenBlock⟩ ?_ s1 ?_ s2 ?_ ?_ ?_ ?_ ?_
    · intro n hn
      rw [z.done.childrenBlock] at hn
      simp only [List.mem_cons, List.not_mem_nil, or_false, not_or] at hn
      simp [σ, hn]
    · rw [z.op_inp, IsBody.numOuts_input]; exact hv
    all_goals try
      intro n hn
      obtain ⟨hn, q1, q2⟩ := hn
      rw [z.done.childrenBlock] at hn
      simp only [List.mem_cons, List.not_mem_nil, or_false, q1, q2, false_or] at hn
    · rcases hn with rfl | rfl | rfl
      · simp only [if_pos]
        refine ⟨by rw [z.op_cfg, numIns_cfg]; exact hv, fun k v hk => ?_⟩
        refine ⟨_, z.wire_in (p := k) (by rw [← hv]; exact (List.getElem?_eq_some_iff.1 hk).1), rfl, rfl, ?_⟩
        rw [s1]; exact hk
      · simp only [if_neg n6.symm]
        exact ⟨by rw [z.op_const]; rfl, fun k v hk => by simp at hk⟩
      · simp only [if_neg n9.symm]
        exact ⟨by rw [z.op_load]; rfl, fun k v hk => by simp at hk⟩
    · rcases hn with rfl | rfl | rfl
      · rw [s3]; simp
      · rw [s4]; simp [n6.symm]
      · rw [s5]; simp [n9.symm, n10.symm]
    · rcases hn with rfl | rfl | rfl
      · rw [z.op_cfg, numOuts_cfg]; simpa using hm
      · rw [z.op_const]; simp only [if_neg n6.symm, if_pos]; rfl
      · rw [z.op_load]; simp only [if_neg n9.symm, if_neg n10.symm]; rfl
    · rcases hn with rfl | rfl | rfl
      · simp only [if_pos]
        exact .cfg z.op_cfg z.done.childrenCfg (hr σ s6)
      · simp only [if_neg n6.symm, if_pos]
        exact .const z.op_const
      · simp only [if_neg n9.symm, if_neg n10.symm]
        rw [← hu]
        exact .leaf (.loadConstant (l := ⟨N.const, 0, N.load, 0⟩) z.op_load z.wire_const rfl rfl z.op_const)
    · refine ⟨by rw [z.op_out, IsBody.numIns_output]; simp [hm], fun k v hk => ?_⟩
      rcases k with _ | k
      · exact ⟨_, z.wire_load, rfl, rfl, by rw [s5]; exact hk⟩
      · have hk' : mid[k]? = some v := by simpa using hk
        exact ⟨_, z.wire_out (p := k) (by rw [← hm]; exact (List.getElem?_eq_some_iff.1 hk').1), rfl, rfl, by rw [s3]; exact hk'⟩
  have hop : g.ops outside = h.ops outside := z.ops (z.not_new (z.live_link z.at'.left).2)
  rcases z.output with ⟨a, b, e⟩ | e
  · exact .jump (l := ⟨N.block, 0, outside, 0⟩) (tag := 0) (elems := []) z.op_block rfl rfl z.wire_next rfl rfl
      (hop.trans e) hgr ((hg σ s6).1 _ _ _ (hop.trans e))
  · have := (hg σ s6).2 _ (hop.trans e)
    subst this
    exact .exit (l := ⟨N.block, 0, outside, 0⟩) (tag := 0) (elems := []) z.op_block rfl rfl z.wire_next rfl rfl
      (hop.trans e) hgr

theorem up_run (hb : ∀ x ∈ N.news, ¬ IsDefn h x) (hu : S.value (S.const N.const) = .sum 0 []) {t : Task W} (hr : Runs h S t) :
    AsOutlined h g S G outside bs outs N t := by
  have hGop := z.at'.op
  -- entering the moved blocks
  have enter : ∀ {ρ : Wires W} {vals res : List (Val W)}, AsOutlined h g S G outside bs outs N (.blocks ρ entry vals res) →
      CanReach h G entry → ∀ ρ', SameVisible h N bs noBlock ρ ρ' → Runs g S (.blocks ρ' N.block vals res) := by
    intro ρ vals res ih hre ρ' hρ
    obtain ⟨hlen, mid, hm, hi, hgo⟩ := ih.2.2 z.at'.entry_mem hre
    obtain ⟨y, r, e⟩ := z.entry_block
    have hs : ∀ σ : Wires W, (∀ n ∉ N.news, σ n = ρ' n) → SameVisible h N bs noBlock ρ σ := fun σ hσ n hn hq => by
      rw [hσ n hn]; exact hρ n hn hq
    exact z.run_block hu (hlen _ _ _ e) hm (fun σ hσ => hi noBlock σ (z.route_entry hre) (hs σ hσ)) (fun σ hσ => hgo σ (hs σ hσ))
  induction hr with
  | @graph ρ σ q i' o' vals res is os h1 h2 h3 h4 h5 h6 h7 h8 _ h10 ih =>
    intro hc
    have hql := z.live_of_io h1
    have hqn := z.not_new hql
    have hqG : q ≠ G := by
      rintro rfl
      obtain ⟨sig, e⟩ := hGop
      exact hc sig e
    have hkids := z.kids hqn hqG
    refine ⟨h2, ?_, fun V ρ' hl hρ => ?_⟩
    · intro i o hio
      obtain ⟨_, e1⟩ := h1
      obtain ⟨_, e2⟩ := hio
      rw [e1] at e2; cases e2
      exact ⟨h4, h10.1⟩
    classical
    let σ' : Wires W := fun n => if n ∈ h.children q then σ n else ρ' n
    have hin' : ∀ n, n ∈ h.children q → σ' n = σ n := fun n hn => by simp [σ', hn]
    have hσ : SameVisible h N bs V σ σ' := by
      intro n hn hv
      by_cases hm : n ∈ h.children q
      · rw [hin' n hm]
      · have : σ' n = ρ' n := by simp [σ', hm]
        rw [this, h2 n hm]; exact hρ n hn hm hv
    have hmem := Extra.hasIO_mem h1
    have kid : ∀ n, n ∈ h.children q → h.live n = true ∧ n ∉ N.news ∧ Plain (h.ops n) ∧ Loc h bs V n := by
      intro n hn
      have hp : h.hier.parent n = some q := (z.tree.child_iff _ _).1 hn
      have hln := (z.tree.parent_live _ _ hp).1
      exact ⟨hln, z.not_new hln, z.kid_plain hp hc, z.loc_child hl hp hqG⟩
    have hin : ∀ {n}, Inner g q i' o' n → Inner h q i' o' n := fun h => ⟨by rw [← hkids]; exact h.1, h.2⟩
    refine ⟨σ', hσ, .graph (ins := is) (outs := os) (by unfold HasIO; rw [hkids]; exact h1) ?_ ?_ ?_ ?_ ?_ ?_ ?_ ?_ ?_⟩
    · intro n hn
      rw [hkids] at hn
      simp [σ', hn]
    · rw [hin' _ hmem.1]; exact h3
    · rw [z.ops (kid _ hmem.1).2.1]; exact h4
    · rw [hin' _ hmem.2]; exact h5
    · intro n hn
      obtain ⟨k1, k2, k3, k4⟩ := kid n (hin hn).1
      exact z.ready_up hσ k2 k3 k4 (h6 n (hin hn))
    · intro n hn
      rw [hin' _ (hin hn).1]; exact h7 n (hin hn)
    · intro n hn
      rw [z.ops (kid n (hin hn).1).2.1]; exact h8 n (hin hn)
    · intro n hn
      obtain ⟨k1, k2, k3, k4⟩ := kid n (hin hn).1
      exact ih n (hin hn) k1 k3 V σ' k4 hσ
    · obtain ⟨k1, k2, k3, k4⟩ := kid _ hmem.2
      exact z.ready_up hσ k2 k3 k4 h10
  | leaf h1 => intro k1 _ V ρ' _ _; exact .leaf (z.leaf_up hb (z.not_new k1) h1)
  | const h1 => intro k1 _ V ρ' _ _; exact .const (by rw [z.ops (z.not_new k1)]; exact h1)
  | dfg h1 _ ih =>
    intro k1 _ V ρ' hl hρ
    obtain ⟨σ', _, hr⟩ := (ih (by rw [h1]; simp)).2.2 V ρ' hl (hρ.off _)
    exact .dfg (by rw [z.ops (z.not_new k1)]; exact h1) hr
  | @cond _ _ n c _ _ _ _ _ _ _ _ h1 h2 h3 h4 _ ih =>
    intro k1 _ V ρ' hl hρ
    have hc := List.mem_of_getElem? h2
    have hp : h.hier.parent c = some n := (z.tree.child_iff _ _).1 hc
    have hnG : n ≠ G := by rintro rfl; obtain ⟨sig, e⟩ := hGop; rw [h1] at e; cases e
    obtain ⟨σ', _, hr⟩ := (ih (fun sig e => by
      have := z.valid.contains _ _ hp
      rw [h1, e] at this; exact this)).2.2 V ρ' (z.loc_child hl hp hnG) (hρ.off _)
    exact .cond (by rw [z.ops (z.not_new k1)]; exact h1) (by rw [z.kids (z.not_new k1) hnG]; exact h2) h3 h4 hr
  | tailLoop h1 _ ih =>
    intro k1 _ V ρ' hl hρ
    exact .tailLoop (by rw [z.ops (z.not_new k1)]; exact h1) (ih k1 V ρ' hl hρ)
  | again h1 h2 _ _ ih1 ih2 =>
    intro k1 V ρ' hl hρ
    obtain ⟨σ', _, hr⟩ := (ih1 (by rw [h1]; simp)).2.2 V ρ' hl (hρ.off _)
    exact .again (by rw [z.ops (z.not_new k1)]; exact h1) h2 hr (ih2 k1 V ρ' hl hρ)
  | done h1 h2 _ ih =>
    intro k1 V ρ' hl hρ
    obtain ⟨σ', _, hr⟩ := (ih (by rw [h1]; simp)).2.2 V ρ' hl (hρ.off _)
    exact .done (by rw [z.ops (z.not_new k1)]; exact h1) h2 hr
  | @cfg _ n first _ sg _ _ h1 h2 _ ih =>
    intro k1 _ V ρ' hl hρ
    have hp : h.hier.parent first = some n := (z.tree.child_iff _ _).1 (by show first ∈ h.children n; rw [h2]; simp)
    by_cases hG : n = G
    · subst hG
      have hre : CanReach h n first := fun f r e => by rw [h2] at e; cases e; exact .refl
      have hk := z.done.childrenG
      by_cases hf : first ∈ bs
      · have hfe : first = entry := (z.at'.enters first hf).1 (.inl (by rw [h2]; rfl))
        subst hfe
        rw [if_pos (by rw [h2]; rfl)] at hk
        exact .cfg (by rw [z.ops (z.not_new k1)]; exact h1) hk (enter ih hre ρ' hρ.weaken)
      · rw [if_neg (by
          rw [h2]; intro e; cases e
          exact hf z.at'.entry_mem), h2, List.filter_cons_of_pos (by simpa using hf), List.cons_append] at hk
        exact .cfg (by rw [z.ops (z.not_new k1)]; exact h1) hk (ih.2.1 hp hf hre ρ' hρ.weaken)
    · exact .cfg (by rw [z.ops (z.not_new k1)]; exact h1) (by rw [z.kids (z.not_new k1) hG]; exact h2)
        (ih.1 (z.tree.parent_live _ _ hp).1 (by rw [hp]; simpa using hG) V ρ' (z.loc_child hl hp hG) hρ)
  | @jump ρ σ b _ _ _ _ _ rows _ row _ elems others res l h1 h2 h3 h4 h5 h6 h7 _ _ ih1 ih2 =>
    subst h5
    have hln := z.live_link h4
    have hop : g.ops l.src = _ := (z.ops (z.not_new hln.1)).trans h1
    have hop' : g.ops l.dst = _ := (z.ops (z.not_new hln.2)).trans h7
    obtain ⟨hoff, hlens, ih1⟩ := ih1 (by rw [h1]; simp)
    refine ⟨fun k1 hG V ρ' hl hρ => ?_, fun hp hn hre ρ' hρ => ?_, fun hbm hre => ?_⟩
    · obtain ⟨σ', hσ, hr⟩ := ih1 V ρ' hl (hρ.off _)
      have hp := z.flow_parent h4 h1
      obtain ⟨q, hq⟩ : ∃ q, h.hier.parent l.src = some q := by
        obtain ⟨_, _, _, q, hq, _⟩ := z.valid.kinds l h4
        exact ⟨q, hq⟩
      have hqG : q ≠ G := fun e => hG (by rw [hq, e])
      have hs : l.src ∉ bs := fun hm => hG (z.at'.siblings _ hm)
      have hd : l.dst ∉ bs := fun hm => hG (by rw [← hp]; exact z.at'.siblings _ hm)
      have hlg := z.link_stay h4 (fun e => hd (e.1 ▸ z.at'.entry_mem)) (fun e => hs (e.1 ▸ z.at'.exit_mem))
      refine .jump hop h2 h3 hlg rfl h6 hop' hr (ih2.1 hln.2 (by rw [hp]; exact hG) V σ' ?_ hσ)
      -- the next block is in the same place
      intro c hc ha
      refine hl c hc ?_
      cases ha with
      | refl => exact absurd hc hd
      | step hp' ha =>
        rw [hp] at hp'
        exact .step hp' ha
    · have hl : Loc h bs noBlock l.src := z.loc_none (fun c hc => z.stays_above hp hn hc) _
      obtain ⟨σ', hσ, hr⟩ := ih1 noBlock ρ' hl (hρ.off _)
      have hre' := z.reached_step hre (z.flow_edge h4 h1 hp)
      by_cases hd : l.dst ∈ bs
      · have hde : l.dst = entry := (z.at'.enters _ hd).1 (.inr ⟨l, h4, rfl, hn⟩)
        rw [hde] at ih2 hre'
        exact .jump hop h2 h3 (z.link_in h4 hde hn) rfl h6 z.op_block hr (enter ih2 hre' σ' hσ)
      · have hlg := z.link_stay h4 (fun e => hd (e.1 ▸ z.at'.entry_mem)) (fun e => hn (e.1 ▸ z.at'.exit_mem))
        exact .jump hop h2 h3 hlg rfl h6 hop' hr (ih2.2.1 (by rw [z.flow_parent h4 h1]; exact hp) hd hre' σ' hσ)
    · have hp := z.at'.siblings _ hbm
      have hed := z.flow_edge h4 h1 hp
      have hre' := z.reached_step hre hed
      obtain ⟨i, o, hio⟩ : ∃ i o, HasIO h l.src i o := by
        have hc := z.valid.children _ hln.1
        unfold ChildrenOk at hc
        rw [h1] at hc
        obtain ⟨i, o, rest, c1, _⟩ := hc
        exact ⟨i, o, rest, c1⟩
      obtain ⟨q1, q2⟩ := hlens i o hio
      obtain ⟨o1, o2⟩ := z.block_kids hln.1 h1 hio
      rw [o1, IsBody.numOuts_input] at q1
      rw [o2, IsBody.numIns_output] at q2
      refine ⟨fun x y r e => by rw [h1] at e; cases e; exact q1, ?_⟩
      by_cases hd : l.dst ∈ bs
      · obtain ⟨_, mid, hm, hi, hgo⟩ := ih2.2.2 hd hre'
        refine ⟨mid, hm, fun V ρ' hro hρ => ?_, fun ρ'' hρ => hgo ρ'' fun n hn hq => ?_⟩
        · obtain ⟨σ', hσ, hr⟩ := ih1 (withBlock V l.src) ρ' (z.loc_block hbm hro) (z.off_block hρ _)
          have hlg := z.link_stay h4 (fun e => e.2 hbm) (fun e => ((z.at'.leaves l h4 hbm).2 e) hd)
          exact .jump hop h2 h3 hlg rfl h6 hop' hr (hi _ σ' (z.route_step hro hre hed) hσ)
        · rw [hoff n]; · exact hρ n hn hq
          intro hm
          exact hq _ hbm ((z.tree.child_iff _ _).1 hm)
      · have hle := z.left_eq h4 hbm hd
        have hdo : l.dst = outside := by rw [hle]
        have hso : l.src = exit := by rw [hle]
        have htag : l.srcPort = port := by rw [hle]
        refine ⟨elems ++ others, ?_, fun V ρ' hro hρ => ?_, fun ρ'' hρ => ⟨fun _ _ _ _ => ?_, fun ots e => ?_⟩⟩
        rotate_left
        · obtain ⟨σ', hσ, hr⟩ := ih1 (withBlock V l.src) ρ' (z.loc_block hbm hro) (z.off_block hρ _)
          exact .exit (l := ⟨exit, port, N.exit, 0⟩) hop h2 h3 z.link_out hso.symm (htag.symm.trans h6) z.op_exit hr
        rotate_right
        · rw [← z.out_row (hso ▸ h1) (h6.symm.trans htag) h2]
          simp only [List.length_cons] at q2
          simp only [List.length_append]
          omega
        · rw [hdo] at ih2 hre'
          refine ih2.2.1 z.outside_parent z.at'.outside_not hre' ρ'' fun n hn hq => ?_
          rw [hoff n]; · exact hρ n hn hq
          intro hm
          exact hq _ hbm ((z.tree.child_iff _ _).1 hm)
        · rw [← hdo, hop'] at e; cases e
  | @exit ρ σ b tag _ _ _ _ _ _ elems others l h1 h2 h3 h4 h5 h6 h7 _ ih1 =>
    subst h5
    have hln := z.live_link h4
    have hop : g.ops l.src = _ := (z.ops (z.not_new hln.1)).trans h1
    have hop' : g.ops l.dst = _ := (z.ops (z.not_new hln.2)).trans h7
    have hd : l.dst ∉ bs := fun hm => by
      obtain ⟨_, _, _, e⟩ := z.blocks _ hm
      rw [h7] at e; cases e
    obtain ⟨hoff, hlens, ih1⟩ := ih1 (by rw [h1]; simp)
    refine ⟨fun k1 hG V ρ' hl hρ => ?_, fun hp hn hre ρ' hρ => ?_, fun hbm hre => ?_⟩
    · obtain ⟨σ', hσ, hr⟩ := ih1 V ρ' hl (hρ.off _)
      have hs : l.src ∉ bs := fun hm => hG (z.at'.siblings _ hm)
      have hlg := z.link_stay h4 (fun e => hd (e.1 ▸ z.at'.entry_mem)) (fun e => hs (e.1 ▸ z.at'.exit_mem))
      exact .exit hop h2 h3 hlg rfl h6 hop' hr
    · have hl : Loc h bs noBlock l.src := z.loc_none (fun c hc => z.stays_above hp hn hc) _
      obtain ⟨σ', hσ, hr⟩ := ih1 noBlock ρ' hl (hρ.off _)
      have hlg := z.link_stay h4 (fun e => hd (e.1 ▸ z.at'.entry_mem)) (fun e => hn (e.1 ▸ z.at'.exit_mem))
      exact .exit hop h2 h3 hlg rfl h6 hop' hr
    · obtain ⟨i, o, hio⟩ : ∃ i o, HasIO h l.src i o := by
        have hc := z.valid.children _ hln.1
        unfold ChildrenOk at hc
        rw [h1] at hc
        obtain ⟨i, o, rest, c1, _⟩ := hc
        exact ⟨i, o, rest, c1⟩
      obtain ⟨q1, q2⟩ := hlens i o hio
      obtain ⟨o1, o2⟩ := z.block_kids hln.1 h1 hio
      rw [o1, IsBody.numOuts_input] at q1
      rw [o2, IsBody.numIns_output] at q2
      have hle := z.left_eq h4 hbm hd
      have hdo : l.dst = outside := by rw [hle]
      have hso : l.src = exit := by rw [hle]
      have htag : l.srcPort = port := by rw [hle]
      refine ⟨fun x y r e => by rw [h1] at e; cases e; exact q1, elems ++ others, ?_, fun V ρ' hro hρ => ?_,
        fun ρ'' hρ => ⟨fun _ _ _ e => ?_, fun ots e => ?_⟩⟩
      rotate_left
      · obtain ⟨σ', hσ, hr⟩ := ih1 (withBlock V l.src) ρ' (z.loc_block hbm hro) (z.off_block hρ _)
        exact .exit (l := ⟨exit, port, N.exit, 0⟩) hop h2 h3 z.link_out hso.symm (htag.symm.trans h6) z.op_exit hr
      rotate_right
      · rw [← z.out_row (hso ▸ h1) (h6.symm.trans htag) h2]
        simp only [List.length_cons] at q2
        simp only [List.length_append]
        omega
      · rw [← hdo, hop'] at e; cases e
      · rfl
  | @call _ _ n f _ _ _ h1 h2 h3 _ ih =>
    intro k1 _ V ρ' _ _
    have hn := z.not_new k1
    have hl : Loc h bs noBlock f := z.loc_none (fun c hc ha => by
      obtain ⟨nm, sg, e⟩ := h2
      obtain ⟨sig, hG⟩ := hGop
      exact no_function z.tree z.valid ha (z.at'.siblings c hc) (by rw [hG]; simp) nm sg e) _
    obtain ⟨σ', _, hr⟩ := (ih (by obtain ⟨_, _, e⟩ := h2; rw [e]; simp)).2.2 noBlock noWires hl (fun _ _ _ _ => rfl)
    exact .call ((z.calls_iff hn).1 h1) ((z.same_defn hb f).1 h2) (by rw [z.ops hn]; exact h3) hr

end OutlineAt

end Verif.Patch
