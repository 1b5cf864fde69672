import Verif.Patch.OutlineUp

/-!
# Outlining keeps results: runs of the result are runs of the original
-/
namespace Verif.Patch

open Verif.Graph Verif.Ops Verif.Passes Verif.Validate Verif.Dataflow

variable {Meta W K : Type} {C : Validate.Context} {h g : Hugr Ops.Op Meta} {S : Sem W K}

/-- The moved blocks, run from the first one, pass on `mid`. -/
def RunsMoved (h : Hugr Ops.Op Meta) (S : Sem W K) (G entry outside : Nat) (bs : List Nat) (N : OutlineNew)
    (ρ' : Wires W) (vals mid : List (Val W)) : Prop :=
  ∀ ρ res, SameVisible h N bs noBlock ρ ρ' → CanReach h G entry →
    (∀ σ, SameVisible h N bs noBlock σ ρ' → CanReach h G outside → GoesOn h S outside σ mid res) →
    Runs h S (.blocks ρ entry vals res)

/-- What is to be run without the new block. -/
def AsInline (h : Hugr Ops.Op Meta) (S : Sem W K) (G entry outside : Nat) (bs : List Nat) (N : OutlineNew) : Task W → Prop
  | .graph ρ' p vals res σ' =>
      (p ∉ N.news → (∀ sig, h.ops p ≠ .cfg sig) → (∀ n, n ∉ h.children p → σ' n = ρ' n) ∧
        ∀ V ρ, Loc h bs V p → SameVisibleOff h N bs V p ρ ρ' → ∃ σ, SameVisible h N bs V σ σ' ∧ Runs h S (.graph ρ p vals res σ)) ∧
      (p = N.block → ∃ mid, res = .sum 0 [] :: mid ∧ (∀ n ∉ N.news, σ' n = ρ' n) ∧ RunsMoved h S G entry outside bs N σ' vals mid)
  | .node ρ' n vals res => (h.live n = true → Plain (h.ops n) →
      ∀ V ρ, Loc h bs V n → SameVisible h N bs V ρ ρ' → Runs h S (.node ρ n vals res)) ∧
      (n = N.cfg → RunsMoved h S G entry outside bs N ρ' vals res)
  | .loop ρ' n vals res => h.live n = true →
      ∀ V ρ, Loc h bs V n → SameVisible h N bs V ρ ρ' → Runs h S (.loop ρ n vals res)
  | .blocks ρ' b vals res =>
      (h.live b = true → h.hier.parent b ≠ some G → ∀ V ρ, Loc h bs V b → SameVisible h N bs V ρ ρ' →
        Runs h S (.blocks ρ b vals res)) ∧
      (h.hier.parent b = some G → b ∉ bs → CanReach h G b → ∀ ρ, SameVisible h N bs noBlock ρ ρ' →
        Runs h S (.blocks ρ b vals res)) ∧
      (b ∈ bs → CanReach h G b → ∀ V ρ res', Route h G bs V b → SameVisible h N bs V ρ ρ' →
        (∀ σ, SameVisible h N bs noBlock σ ρ' → CanReach h G outside → GoesOn h S outside σ res res') →
        Runs h S (.blocks ρ b vals res')) ∧
      (b = N.block → CanReach h G entry → ∀ ρ, SameVisible h N bs noBlock ρ ρ' → Runs h S (.blocks ρ entry vals res))

namespace OutlineAt

variable {G entry exit port outside : Nat} {bs : List Nat} {ins outs : List Types.Ty} {N : OutlineNew}
  (z : OutlineAt C h G bs entry exit port outside ins outs N g)
include z

/-- The links from what was there before. -/
theorem old_link {l : Link} (hl : l ∈ g.links) (hs : l.src ∉ N.news) :
    (∃ k ∈ h.links, k.src = l.src ∧ k.srcPort = l.srcPort ∧ k.dst = entry ∧ l.src ∉ bs ∧ l.dst = N.block) ∨
    (l.src = exit ∧ l.srcPort = port ∧ l.dst = N.exit) ∨
    (l ∈ h.links ∧ ¬ (l.dst = entry ∧ l.src ∉ bs) ∧ ¬ (l.src = exit ∧ l.srcPort = port)) := by
  rcases z.mem_links.1 hl with ⟨k, hk, rfl⟩ | hw | rfl
  · rcases z.redirect_cases hk with ⟨e1, e2, e⟩ | ⟨_, e⟩ | ⟨e1, e2, e⟩
    · rw [e]; exact .inl ⟨k, hk, rfl, rfl, e1, e2, rfl⟩
    · rw [e]; exact .inr (.inl ⟨rfl, rfl, rfl⟩)
    · rw [e]; exact .inr (.inr ⟨hk, e1, e2⟩)
  · exact absurd (OutlineNew.wires_new hw).1 hs
  · exact absurd (by simp [OutlineNew.news]) hs

theorem new_inner {l : Link} (hl : l ∈ g.links) (hd : l.dst = N.out ∨ l.dst = N.cfg ∨ l.dst = N.load) :
    l ∈ N.wires ins.length outs.length := by
  have hdn : l.dst ∈ N.news := by rcases hd with e | e | e <;> rw [e] <;> simp [OutlineNew.news]
  have hd1 := z.fresh.1
  simp only [OutlineNew.news, List.nodup_cons, List.mem_cons, List.not_mem_nil, or_false, not_or, List.nodup_nil,
    not_false_eq_true, and_true] at hd1
  obtain ⟨⟨_, a2, a3, _, _, a6⟩, _, ⟨_, b2, _⟩, ⟨c1, _⟩, ⟨_, d2⟩, _⟩ := hd1
  rcases z.mem_links.1 hl with ⟨k, hk, rfl⟩ | hw | rfl
  · rcases z.redirect_cases hk with ⟨e1, e2, e⟩ | ⟨_, e⟩ | ⟨e1, e2, e⟩
    · rw [e] at hd
      rcases hd with e | e | e
      · exact absurd e a2
      · exact absurd e a3
      · exact absurd e a6
    · rw [e] at hd
      rcases hd with e | e | e
      · exact absurd e.symm b2
      · exact absurd e.symm c1
      · exact absurd e d2
    · rw [e] at hdn; exact absurd hdn (z.not_new (z.live_link hk).2)
  · exact hw
  · exact absurd hdn (z.not_new (z.live_link z.at'.left).2)

theorem into_out {l : Link} (hl : l ∈ g.links) (hd : l.dst = N.out) :
    l = ⟨N.load, 0, N.out, 0⟩ ∨ ∃ p, l = ⟨N.cfg, p, N.out, p + 1⟩ := by
  have hw := z.new_inner hl (.inl hd)
  obtain ⟨n1, n2, n3, n4, n5, n6, n7, n8, n9, n10⟩ := z.distinct
  simp only [OutlineNew.wires, straight, List.mem_append, List.mem_map, List.mem_range, List.mem_cons, List.not_mem_nil, or_false] at hw
  aesop

theorem into_cfg {l : Link} (hl : l ∈ g.links) (hd : l.dst = N.cfg) : ∃ p, l = ⟨N.inp, p, N.cfg, p⟩ := by
  have hw := z.new_inner hl (.inr (.inl hd))
  obtain ⟨n1, n2, n3, n4, n5, n6, n7, n8, n9, n10⟩ := z.distinct
  simp only [OutlineNew.wires, straight, List.mem_append, List.mem_map, List.mem_range, List.mem_cons, List.not_mem_nil, or_false] at hw
  aesop

theorem into_load {l : Link} (hl : l ∈ g.links) (hd : l.dst = N.load) : l = ⟨N.const, 0, N.load, 0⟩ := by
  have hw := z.new_inner hl (.inr (.inr hd))
  obtain ⟨n1, n2, n3, n4, n5, n6, n7, n8, n9, n10⟩ := z.distinct
  simp only [OutlineNew.wires, straight, List.mem_append, List.mem_map, List.mem_range, List.mem_cons, List.not_mem_nil, or_false] at hw
  aesop

/-- The only link from the new block. -/
theorem from_new {l : Link} (hl : l ∈ g.links) (hs : l.src = N.block) : l = ⟨N.block, 0, outside, 0⟩ := by
  have hd1 := z.fresh.1
  simp only [OutlineNew.news, List.nodup_cons, List.mem_cons, List.not_mem_nil, or_false, not_or, List.nodup_nil,
    not_false_eq_true, and_true] at hd1
  obtain ⟨⟨a1, a2, a3, a4, a5, a6⟩, _⟩ := hd1
  have hsn : l.src ∈ N.news := by rw [hs]; simp [OutlineNew.news]
  rcases z.mem_links.1 hl with ⟨k, hk, rfl⟩ | hw | rfl
  · have : (N.redirect bs entry exit port k).src = k.src := by
      rcases z.redirect_cases hk with ⟨_, _, e⟩ | ⟨e', e⟩ | ⟨_, _, e⟩
      · rw [e]
      · rw [e, e']
      · rw [e]
    rw [this] at hsn
    exact absurd hsn (z.not_new (z.live_link hk).1)
  · simp only [OutlineNew.wires, straight, List.mem_append, List.mem_map, List.mem_range, List.mem_cons, List.not_mem_nil, or_false] at hw
    aesop
  · rfl

theorem run_load (hu : S.value (S.const N.const) = .sum 0 []) {ρ : Wires W} {vals res : List (Val W)}
    (hr : Runs g S (.node ρ N.load vals res)) : res = [.sum 0 []] := by
  have e := z.op_load
  cases hr with
  | leaf hf =>
    cases hf with
    | makeTuple h1 => rw [e] at h1; cases h1
    | unpackTuple h1 => rw [e] at h1; cases h1
    | tag h1 => rw [e] at h1; cases h1
    | loadConstant h1 h2 h3 h4 =>
      rw [z.into_load h2 h3]
      simp only [hu]
    | loadFunction h1 => rw [e] at h1; cases h1
    | ext h1 => rw [e] at h1; cases h1
    | external hc =>
      cases hc with
      | direct h1 => rw [e] at h1; cases h1
      | indirect h1 => rw [e] at h1; cases h1
    | unknown h1 => rw [e] at h1; cases h1
  | const h1 => rw [e] at h1; cases h1
  | dfg h1 => rw [e] at h1; cases h1
  | cond h1 => rw [e] at h1; cases h1
  | tailLoop h1 => rw [e] at h1; cases h1
  | cfg h1 => rw [e] at h1; cases h1
  | call hc =>
    cases hc with
    | direct h1 => rw [e] at h1; cases h1
    | indirect h1 => rw [e] at h1; cases h1

/-- Control to what is outside. -/
theorem from_exit {ρ σ : Wires W} {x other row : List Types.Ty} {rows : List (List Types.Ty)} {vals elems others res : List (Val W)}
    {tag : Nat} (h1 : h.ops exit = .dataflowBlock x other rows) (h2 : rows[tag]? = some row) (h3 : elems.length = row.length)
    (ht : port = tag) (hr : Runs h S (.graph ρ exit vals (.sum tag elems :: others) σ))
    (hg : GoesOn h S outside σ (elems ++ others) res) : Runs h S (.blocks ρ exit vals res) := by
  rcases z.output with ⟨a, b, e⟩ | e
  · exact .jump (l := ⟨exit, port, outside, 0⟩) h1 h2 h3 z.at'.left rfl ht e hr (hg.1 _ _ _ e)
  · have := hg.2 _ e
    subst this
    exact .exit (l := ⟨exit, port, outside, 0⟩) h1 h2 h3 z.at'.left rfl ht e hr

theorem down_run (hb : ∀ x ∈ N.news, ¬ IsDefn h x) (hu : S.value (S.const N.const) = .sum 0 []) {t : Task W} (hr : Runs g S t) :
    AsInline h S G entry outside bs N t := by
  have hGop := z.at'.op
  have cfgNot : ∀ {n}, h.live n = true → n ≠ N.cfg := fun hl e => z.not_new hl (by rw [e]; simp [OutlineNew.news])
  have blockNot : ∀ {n}, h.live n = true → n ≠ N.block := fun hl e => z.not_new hl (by rw [e]; simp [OutlineNew.news])
  induction hr with
  | @graph ρ' σ' q i' o' vals res is os h1 h2 h3 h4 h5 h6 h7 h8 h9 h10 ih =>
    refine ⟨fun hqn hc => ?_, ?_⟩
    · have hqG : q ≠ G := by
        rintro rfl
        obtain ⟨sig, e⟩ := hGop
        exact hc sig e
      have hkids := z.kids hqn hqG
      have h1' : HasIO h q i' o' := by unfold HasIO; rw [← hkids]; exact h1
      have hql := z.live_of_io h1'
      refine ⟨fun n hn => h2 n (by rw [hkids]; exact hn), fun V ρ hl hρ => ?_⟩
      classical
      let σ : Wires W := fun n => if n ∈ h.children q then σ' n else ρ n
      have hin' : ∀ n, n ∈ h.children q → σ n = σ' n := fun n hn => by simp [σ, hn]
      have hσ : SameVisible h N bs V σ σ' := by
        intro n hn hv
        by_cases hm : n ∈ h.children q
        · rw [hin' n hm]
        · have : σ n = ρ n := by simp [σ, hm]
          rw [this, h2 n (by rw [hkids]; exact hm)]; exact hρ n hn hm hv
      have hmem := Extra.hasIO_mem h1'
      have kid : ∀ n, n ∈ h.children q → h.live n = true ∧ n ∉ N.news ∧ Plain (h.ops n) ∧ Loc h bs V n := by
        intro n hn
        have hp : h.hier.parent n = some q := (z.tree.child_iff _ _).1 hn
        have hln := (z.tree.parent_live _ _ hp).1
        exact ⟨hln, z.not_new hln, z.kid_plain hp hc, z.loc_child hl hp hqG⟩
      have hin : ∀ {n}, Inner h q i' o' n → Inner g q i' o' n := fun h => ⟨by rw [hkids]; exact h.1, h.2⟩
      refine ⟨σ, hσ, .graph (ins := is) (outs := os) h1' ?_ ?_ ?_ ?_ ?_ ?_ ?_ ?_ ?_⟩
      · intro n hn
        simp [σ, hn]
      · rw [hin' _ hmem.1]; exact h3
      · rw [← z.ops (kid _ hmem.1).2.1]; exact h4
      · rw [hin' _ hmem.2]; exact h5
      · intro n hn
        obtain ⟨k1, k2, k3, k4⟩ := kid n hn.1
        exact z.ready_down hσ k2 k3 k4 (h6 n (hin hn))
      · intro n hn
        rw [hin' _ hn.1]; exact h7 n (hin hn)
      · intro n hn
        rw [← z.ops (kid n hn.1).2.1]; exact h8 n (hin hn)
      · intro n hn
        obtain ⟨k1, k2, k3, k4⟩ := kid n hn.1
        exact (ih n (hin hn)).1 k1 k3 V σ k4 hσ
      · obtain ⟨k1, k2, k3, k4⟩ := kid _ hmem.2
        exact z.ready_down hσ k2 k3 k4 h10
    · rintro rfl
      obtain ⟨rest, hio⟩ := h1
      rw [z.done.childrenBlock] at hio
      injection hio with e1 hio
      injection hio with e2 hio
      subst e1 e2
      obtain ⟨n1, n2, n3, n4, n5, n6, n7, n8, n9, n10⟩ := z.distinct
      have ic : Inner g N.block N.inp N.out N.cfg := ⟨by rw [z.done.childrenBlock]; simp, n2.symm, n3.symm⟩
      have il : Inner g N.block N.inp N.out N.load := ⟨by rw [z.done.childrenBlock]; simp, n7.symm, n8.symm⟩
      have hload := z.run_load hu (h9 _ il)
      have hlen : (os N.cfg).length = outs.length := by
        have := h8 _ ic
        rw [z.op_cfg, numOuts_cfg] at this; exact this
      have hres : res.length = outs.length + 1 := by
        have := h10.1
        rw [z.op_out, IsBody.numIns_output] at this
        simpa using this
      have hvl : vals.length = ins.length := by
        rw [z.op_inp, IsBody.numOuts_input] at h4; exact h4
      have hil : (is N.cfg).length = ins.length := by
        have := (h6 _ ic).1
        rw [z.op_cfg, numIns_cfg] at this; exact this
      have hr0 : res = .sum 0 [] :: os N.cfg := by
        refine List.ext_getElem? fun k => ?_
        by_cases hk : k < res.length
        · have hv := List.getElem?_eq_getElem hk
          obtain ⟨l, l1, l2, l3, l4⟩ := h10.2 k _ hv
          rw [hv]
          rcases z.into_out l1 l2 with rfl | ⟨p, rfl⟩
          · simp only at l3 l4
            subst l3
            rw [h7 _ il, hload] at l4
            exact l4.symm
          · simp only at l3 l4
            subst l3
            rw [h7 _ ic] at l4
            rw [List.getElem?_cons_succ]
            exact l4.symm
        · rw [List.getElem?_eq_none (by omega), List.getElem?_eq_none (by simp; omega)]
      have hi0 : is N.cfg = vals := by
        refine List.ext_getElem? fun k => ?_
        by_cases hk : k < (is N.cfg).length
        · have hv := List.getElem?_eq_getElem hk
          obtain ⟨l, l1, l2, l3, l4⟩ := (h6 _ ic).2 k _ hv
          rw [hv]
          obtain ⟨p, rfl⟩ := z.into_cfg l1 l2
          simp only at l3 l4
          subst l3
          rw [h3] at l4
          exact l4.symm
        · rw [List.getElem?_eq_none (by omega), List.getElem?_eq_none (by omega)]
      refine ⟨_, hr0, fun n hn => h2 n ?_, ?_⟩
      · rw [z.done.childrenBlock]
        simp only [OutlineNew.news, List.mem_cons, List.not_mem_nil, or_false, not_or] at hn
        simp [hn]
      · have := (ih _ ic).2 rfl
        rw [hi0] at this; exact this
  | leaf h1 =>
    refine ⟨fun k1 _ V ρ' _ _ => .leaf (z.leaf_down hb (z.not_new k1) h1), ?_⟩
    rintro rfl
    have e := z.op_cfg
    cases h1 with
    | makeTuple h1 => rw [e] at h1; cases h1
    | unpackTuple h1 => rw [e] at h1; cases h1
    | tag h1 => rw [e] at h1; cases h1
    | loadConstant h1 => rw [e] at h1; cases h1
    | loadFunction h1 => rw [e] at h1; cases h1
    | ext h1 => rw [e] at h1; cases h1
    | external hc =>
      cases hc with
      | direct h1 => rw [e] at h1; cases h1
      | indirect h1 => rw [e] at h1; cases h1
    | unknown h1 => rw [e] at h1; cases h1
  | const h1 =>
    exact ⟨fun k1 _ V ρ' _ _ => .const (by rw [← z.ops (z.not_new k1)]; exact h1), by rintro rfl; rw [z.op_cfg] at h1; cases h1⟩
  | dfg h1 _ ih =>
    refine ⟨fun k1 _ V ρ hl hρ => ?_, by rintro rfl; rw [z.op_cfg] at h1; cases h1⟩
    rw [z.ops (z.not_new k1)] at h1
    obtain ⟨σ', _, hr⟩ := (ih.1 (z.not_new k1) (by rw [h1]; simp)).2 V ρ hl (hρ.off _)
    exact .dfg h1 hr
  | @cond _ _ n c _ _ _ _ _ _ _ _ h1 h2 h3 h4 _ ih =>
    refine ⟨fun k1 _ V ρ hl hρ => ?_, by rintro rfl; rw [z.op_cfg] at h1; cases h1⟩
    rw [z.ops (z.not_new k1)] at h1
    have hnG : n ≠ G := by rintro rfl; obtain ⟨sig, e⟩ := hGop; rw [h1] at e; cases e
    rw [z.kids (z.not_new k1) hnG] at h2
    have hc := List.mem_of_getElem? h2
    have hp : h.hier.parent c = some n := (z.tree.child_iff _ _).1 hc
    obtain ⟨σ', _, hr⟩ := (ih.1 (z.not_new (z.tree.parent_live _ _ hp).1) (fun sig e => by
      have := z.valid.contains _ _ hp
      rw [h1, e] at this; exact this)).2 V ρ (z.loc_child hl hp hnG) (hρ.off _)
    exact .cond h1 h2 h3 h4 hr
  | tailLoop h1 _ ih =>
    refine ⟨fun k1 _ V ρ hl hρ => ?_, by rintro rfl; rw [z.op_cfg] at h1; cases h1⟩
    exact .tailLoop (by rw [← z.ops (z.not_new k1)]; exact h1) (ih k1 V ρ hl hρ)
  | again h1 h2 _ _ ih1 ih2 =>
    intro k1 V ρ hl hρ
    rw [z.ops (z.not_new k1)] at h1
    obtain ⟨σ', _, hr⟩ := (ih1.1 (z.not_new k1) (by rw [h1]; simp)).2 V ρ hl (hρ.off _)
    exact .again h1 h2 hr (ih2 k1 V ρ hl hρ)
  | done h1 h2 _ ih =>
    intro k1 V ρ hl hρ
    rw [z.ops (z.not_new k1)] at h1
    obtain ⟨σ', _, hr⟩ := (ih.1 (z.not_new k1) (by rw [h1]; simp)).2 V ρ hl (hρ.off _)
    exact .done h1 h2 hr
  | @cfg ρ' n first _ sg vals res h1 h2 _ ih =>
    refine ⟨fun k1 _ V ρ hl hρ => ?_, ?_⟩
    · rw [z.ops (z.not_new k1)] at h1
      by_cases hG : n = G
      · subst hG
        have hk := z.done.childrenG
        obtain ⟨f, r, hfr⟩ : ∃ f r, h.children n = f :: r := by
          have : entry ∈ h.children n := (z.tree.child_iff _ _).2 (z.at'.siblings _ z.at'.entry_mem)
          cases hh : h.children n with
          | nil => rw [hh] at this; cases this
          | cons f r => exact ⟨f, r, rfl⟩
        have hre : CanReach h n f := fun f' r' e => by rw [hfr] at e; cases e; exact .refl
        by_cases hf : f ∈ bs
        · have hfe : f = entry := (z.at'.enters f hf).1 (.inl (by rw [hfr]; rfl))
          subst hfe
          rw [if_pos (by rw [hfr]; rfl)] at hk
          rw [hk] at h2; cases h2
          exact .cfg h1 hfr (ih.2.2.2 rfl hre ρ hρ.weaken)
        · rw [if_neg (by
            rw [hfr]; intro e; cases e
            exact hf z.at'.entry_mem), hfr, List.filter_cons_of_pos (by simpa using hf), List.cons_append] at hk
          rw [hk] at h2; cases h2
          have hp : h.hier.parent first = some n := (z.tree.child_iff _ _).1 (by show first ∈ h.children n; rw [hfr]; simp)
          exact .cfg h1 hfr (ih.2.1 hp hf hre ρ hρ.weaken)
      · rw [z.kids (z.not_new k1) hG] at h2
        have hp : h.hier.parent first = some n := (z.tree.child_iff _ _).1 (by show first ∈ h.children n; rw [h2]; simp)
        exact .cfg h1 h2 (ih.1 (z.tree.parent_live _ _ hp).1 (by rw [hp]; simpa using hG) V ρ (z.loc_child hl hp hG) hρ)
    · rintro rfl
      rw [z.done.childrenCfg] at h2
      cases h2
      intro ρ res' hρ hre hgo
      exact ih.2.2.1 z.at'.entry_mem hre noBlock ρ res' (z.route_entry hre) hρ hgo
  | @jump ρ' σ' b _ _ _ _ _ rows _ row vals elems others res l h1 h2 h3 h4 h5 h6 h7 _ _ ih1 ih2 =>
    subst h5
    have hold : l.src ∉ N.news → h.ops l.src = _ := fun hn => (z.ops hn).symm.trans h1
    have hne : l.dst ≠ N.exit := by intro e; rw [e, z.op_exit] at h7; cases h7
    refine ⟨fun k1 hG V ρ hl hρ => ?_, fun hp hn hre ρ hρ => ?_, fun hbm hre V ρ res' hro hρ hgo => ?_, fun hbe hre ρ hρ => ?_⟩
    · have e := hold (z.not_new k1)
      obtain ⟨_, ih1⟩ := ih1.1 (z.not_new k1) (by rw [e]; simp)
      obtain ⟨σ, hσ, hr⟩ := ih1 V ρ hl (hρ.off _)
      rcases z.old_link h4 (z.not_new k1) with ⟨k, q1, q2, q3, q4, q5, q6⟩ | ⟨q1, q2, q3⟩ | ⟨q1, q2, q3⟩
      · refine absurd ?_ hG
        rw [← q2, ← z.flow_parent q1 (q2 ▸ e), q4]
        exact z.at'.siblings _ z.at'.entry_mem
      · exact absurd q3 hne
      · have hln := z.live_link q1
        have hp := z.flow_parent q1 e
        refine .jump e h2 h3 q1 rfl h6 ((z.ops (z.not_new hln.2)).symm.trans h7) hr
          (ih2.1 hln.2 (by rw [hp]; exact hG) V σ ?_ hσ)
        intro c hc ha
        refine hl c hc ?_
        cases ha with
        | refl => exact absurd (by rw [← hp]; exact z.at'.siblings _ hc) hG
        | step hp' ha =>
          rw [hp] at hp'
          exact .step hp' ha
    · have k1 := (z.tree.parent_live _ _ hp).1
      have e := hold (z.not_new k1)
      have hl : Loc h bs noBlock l.src := z.loc_none (fun c hc => z.stays_above hp hn hc) _
      obtain ⟨_, ih1⟩ := ih1.1 (z.not_new k1) (by rw [e]; simp)
      obtain ⟨σ, hσ, hr⟩ := ih1 noBlock ρ hl (hρ.off _)
      rcases z.old_link h4 (z.not_new k1) with ⟨k, q1, q2, q3, q4, q5, q6⟩ | ⟨q1, q2, q3⟩ | ⟨q1, q2, q3⟩
      · have hed := z.flow_edge q1 (q2 ▸ e) (q2 ▸ hp)
        rw [q2, q4] at hed
        obtain ⟨y, r, he⟩ := z.entry_block
        refine .jump (l := k) e h2 h3 q1 q2 (q3.trans h6) (q4 ▸ he) hr ?_
        rw [q4]
        exact ih2.2.2.2 q6 (z.reached_step hre hed) σ hσ
      · exact absurd q3 hne
      · have hln := z.live_link q1
        have hd : l.dst ∉ bs := fun hd => q2 ⟨(z.at'.enters _ hd).1 (.inr ⟨l, q1, rfl, hn⟩), hn⟩
        exact .jump e h2 h3 q1 rfl h6 ((z.ops (z.not_new hln.2)).symm.trans h7) hr
          (ih2.2.1 (by rw [z.flow_parent q1 e]; exact hp) hd (z.reached_step hre (z.flow_edge q1 e hp)) σ hσ)
    · have k1 := z.live_bs hbm
      have e := hold (z.not_new k1)
      have hp := z.at'.siblings _ hbm
      obtain ⟨hoff, ih1⟩ := ih1.1 (z.not_new k1) (by rw [e]; simp)
      obtain ⟨σ, hσ, hr⟩ := ih1 (withBlock V l.src) ρ (z.loc_block hbm hro) (z.off_block hρ _)
      rcases z.old_link h4 (z.not_new k1) with ⟨k, q1, q2, q3, q4, q5, q6⟩ | ⟨q1, q2, q3⟩ | ⟨q1, q2, q3⟩
      · exact absurd hbm q5
      · exact absurd q3 hne
      · have hln := z.live_link q1
        have hd : l.dst ∈ bs := by
          by_contra hd
          exact q3 ((z.at'.leaves l q1 hbm).1 hd)
        have hed := z.flow_edge q1 e hp
        refine .jump e h2 h3 q1 rfl h6 ((z.ops (z.not_new hln.2)).symm.trans h7) hr
          (ih2.2.2.1 hd (z.reached_step hre hed) _ σ res' (z.route_step hro hre hed) hσ fun σ2 hσ2 => hgo σ2 fun n hn hq => ?_)
        rw [← hoff n]; · exact hσ2 n hn hq
        intro hm
        exact hq _ hbm ((z.tree.child_iff _ _).1 hm)
    · obtain ⟨mid, e1, e2, hm⟩ := ih1.2 hbe
      cases e1
      have hlo := z.from_new h4 hbe
      have hdo : l.dst = outside := by rw [hlo]
      rw [hdo] at ih2 h7
      have hs : ∀ σ : Wires W, SameVisible h N bs noBlock σ ρ' → SameVisible h N bs noBlock σ σ' := fun σ hσ n hn hq => by
        rw [e2 n hn]; exact hσ n hn hq
      refine hm ρ res (hs ρ hρ) hre fun σ hσ hreo => ⟨fun _ _ _ _ => ?_, fun ots e => ?_⟩
      · exact ih2.2.1 z.outside_parent z.at'.outside_not hreo σ hσ
      · rw [z.ops (z.not_new (z.live_link z.at'.left).2), e] at h7
        cases h7
  | @exit ρ' σ' b tag _ _ _ _ _ vals elems others l h1 h2 h3 h4 h5 h6 h7 _ ih1 =>
    subst h5
    have hold : l.src ∉ N.news → h.ops l.src = _ := fun hn => (z.ops hn).symm.trans h1
    have hne : l.dst ≠ N.block := by intro e; rw [e, z.op_block] at h7; cases h7
    have hdb : l.dst ∉ bs := fun hm => by
      obtain ⟨_, _, _, e⟩ := z.blocks _ hm
      rw [z.ops (z.not_new (z.live_bs hm)), e] at h7; cases h7
    refine ⟨fun k1 hG V ρ hl hρ => ?_, fun hp hn hre ρ hρ => ?_, fun hbm hre V ρ res' hro hρ hgo => ?_, fun hbe hre ρ hρ => ?_⟩
    · have e := hold (z.not_new k1)
      obtain ⟨_, ih1⟩ := ih1.1 (z.not_new k1) (by rw [e]; simp)
      obtain ⟨σ, hσ, hr⟩ := ih1 V ρ hl (hρ.off _)
      rcases z.old_link h4 (z.not_new k1) with ⟨k, q1, q2, q3, q4, q5, q6⟩ | ⟨q1, q2, q3⟩ | ⟨q1, q2, q3⟩
      · exact absurd q6 hne
      · exact absurd (q1 ▸ z.at'.siblings _ z.at'.exit_mem) hG
      · exact .exit e h2 h3 q1 rfl h6 ((z.ops (z.not_new (z.live_link q1).2)).symm.trans h7) hr
    · have k1 := (z.tree.parent_live _ _ hp).1
      have e := hold (z.not_new k1)
      have hl : Loc h bs noBlock l.src := z.loc_none (fun c hc => z.stays_above hp hn hc) _
      obtain ⟨_, ih1⟩ := ih1.1 (z.not_new k1) (by rw [e]; simp)
      obtain ⟨σ, hσ, hr⟩ := ih1 noBlock ρ hl (hρ.off _)
      rcases z.old_link h4 (z.not_new k1) with ⟨k, q1, q2, q3, q4, q5, q6⟩ | ⟨q1, q2, q3⟩ | ⟨q1, q2, q3⟩
      · exact absurd q6 hne
      · exact absurd (q1 ▸ z.at'.exit_mem) hn
      · exact .exit e h2 h3 q1 rfl h6 ((z.ops (z.not_new (z.live_link q1).2)).symm.trans h7) hr
    · have k1 := z.live_bs hbm
      have e := hold (z.not_new k1)
      have hp := z.at'.siblings _ hbm
      obtain ⟨hoff, ih1⟩ := ih1.1 (z.not_new k1) (by rw [e]; simp)
      obtain ⟨σ, hσ, hr⟩ := ih1 (withBlock V l.src) ρ (z.loc_block hbm hro) (z.off_block hρ _)
      rcases z.old_link h4 (z.not_new k1) with ⟨k, q1, q2, q3, q4, q5, q6⟩ | ⟨q1, q2, q3⟩ | ⟨q1, q2, q3⟩
      · exact absurd q6 hne
      · have hee : RegionEdge h G exit outside := z.flow_edge z.at'.left (q1 ▸ e) (q1 ▸ hp)
        have hgo' := hgo σ (fun n hn hq => by
          rw [hσ n hn fun q hq1 hq2 => (hq q hq1 hq2).elim]
          refine hoff n fun hm => hq _ hbm ((z.tree.child_iff _ _).1 hm)) (z.reached_step (q1 ▸ hre) hee)
        have := z.from_exit (q1 ▸ e) h2 h3 (q2.symm.trans h6) (q1 ▸ hr) hgo'
        rw [q1]; exact this
      · exact absurd ((z.at'.leaves l q1 hbm).1 hdb) q3
    · obtain ⟨mid, e1, e2, hm⟩ := ih1.2 hbe
      cases e1
      have hlo := z.from_new h4 hbe
      have hdo : l.dst = outside := by rw [hlo]
      rw [hdo, z.ops (z.not_new (z.live_link z.at'.left).2)] at h7
      have hs : ∀ σ : Wires W, SameVisible h N bs noBlock σ ρ' → SameVisible h N bs noBlock σ σ' := fun σ hσ n hn hq => by
        rw [e2 n hn]; exact hσ n hn hq
      refine hm ρ _ (hs ρ hρ) hre fun σ hσ hreo => ⟨fun _ _ _ e => ?_, fun ots e => rfl⟩
      rw [e] at h7; cases h7
  | @call _ _ n f _ _ _ h1 h2 h3 _ ih =>
    refine ⟨fun k1 _ V ρ' _ _ => ?_, ?_⟩
    · have hn := z.not_new k1
      have hf := (z.same_defn hb f).2 h2
      have hfn : f ∉ N.news := fun hm => hb f hm hf
      have hl : Loc h bs noBlock f := z.loc_none (fun c hc ha => by
        obtain ⟨nm, sg, e⟩ := hf
        obtain ⟨sig, hG⟩ := hGop
        exact no_function z.tree z.valid ha (z.at'.siblings c hc) (by rw [hG]; simp) nm sg e) _
      obtain ⟨σ', _, hr⟩ := (ih.1 hfn (by obtain ⟨_, _, e⟩ := hf; rw [e]; simp)).2 noBlock noWires hl (fun _ _ _ _ => rfl)
      exact .call ((z.calls_iff hn).2 h1) hf (by rw [← z.ops hn]; exact h3) hr
    · rintro rfl
      have e := z.op_cfg
      cases h1 with
      | direct h1 => rw [e] at h1; cases h1
      | indirect h1 => rw [e] at h1; cases h1

/-- Functions return the same. -/
theorem returns (hb : ∀ x ∈ N.news, ¬ IsDefn h x) (hu : S.value (S.const N.const) = .sum 0 []) {f : Nat}
    {args res : List (Val W)} : Returns h S f args res ↔ Returns g S f args res := by
  have key : ∀ {f}, IsDefn h f → (∀ sig, h.ops f ≠ .cfg sig) ∧ Loc h bs noBlock f := by
    rintro f ⟨nm, sg, e⟩
    refine ⟨by rw [e]; simp, z.loc_none (fun c hc ha => ?_) _⟩
    obtain ⟨sig, hG⟩ := z.at'.op
    exact no_function z.tree z.valid ha (z.at'.siblings c hc) (by rw [hG]; simp) nm sg e
  constructor
  · rintro ⟨h1, σ, hr⟩
    obtain ⟨k1, k2⟩ := key h1
    obtain ⟨σ', _, hr'⟩ := (z.up_run hb hu hr k1).2.2 noBlock noWires k2 (fun _ _ _ _ => rfl)
    exact ⟨(z.same_defn hb f).1 h1, σ', hr'⟩
  · rintro ⟨h1, σ, hr⟩
    have h1' := (z.same_defn hb f).2 h1
    obtain ⟨k1, k2⟩ := key h1'
    obtain ⟨σ', _, hr'⟩ := ((z.down_run hb hu hr).1 (fun hm => hb f hm h1') k1).2 noBlock noWires k2 (fun _ _ _ _ => rfl)
    exact ⟨h1', σ', hr'⟩

end OutlineAt

end Verif.Patch
