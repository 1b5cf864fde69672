import Verif.Patch.InlineCallRuns
import Verif.Patch.InlineDfgValid
import Verif.Types.SubstProps

/-!
# Inlining a call keeps a Hugr valid
-/
namespace Verif.Patch

open Verif.Graph Verif.Ops Verif.Passes Verif.Validate Verif.Dataflow

variable {Meta : Type} {C : Validate.Context} {h h0 g : Hugr Ops.Op Meta}

/-- What is valid without variables is valid with variables. -/
theorem validate_weaken (env : Types.Env) (decls : List Types.Term) :
    (∀ t : Types.Term, t.validate env [] = true → t.validate env decls = true) ∧
    (∀ t : Types.Ty, t.validate env [] = true → t.validate env decls = true) ∧
    (∀ t : Types.RTy, t.validate env [] = true → t.validate env decls = true) := by
  open Verif.Types in
  apply syntax_induction
  case list =>
    intro ts ih hv; simp only [Term.validate, validateTerms_iff] at hv ⊢; exact fun t ht => ih t ht (hv t ht)
  case listConcat =>
    intro ts ih hv; simp only [Term.validate, validateTerms_iff] at hv ⊢; exact fun t ht => ih t ht (hv t ht)
  case tuple =>
    intro ts ih hv; simp only [Term.validate, validateTerms_iff] at hv ⊢; exact fun t ht => ih t ht (hv t ht)
  case tupleConcat =>
    intro ts ih hv; simp only [Term.validate, validateTerms_iff] at hv ⊢; exact fun t ht => ih t ht (hv t ht)
  case var => intro i d _ hv; simp [Term.validate, checkDecl] at hv
  case ext =>
    intro e i args b ih hv
    simp only [Ty.validate, Bool.and_eq_true, validateTerms_iff] at hv ⊢
    exact ⟨fun t ht => ih t ht (hv.1 t ht), hv.2⟩
  case function =>
    intro i o ihi iho hv
    simp only [Ty.validate, Bool.and_eq_true, validateRow_iff] at hv ⊢
    exact ⟨fun t ht => ihi t ht (hv.1 t ht), fun t ht => iho t ht (hv.2 t ht)⟩
  case tyVar => intro i b hv; simp [Ty.validate, checkDecl] at hv
  case sumGen =>
    intro rows b ih hv
    simp only [Ty.validate, validateRows_iff] at hv ⊢
    exact fun r hr t ht => ih r hr t ht (hv r hr t ht)
  case rowVar => intro i b hv; simp [RTy.validate, checkDecl] at hv
  case listType => intro t ih hv; exact ih hv
  case tupleType => intro t ih hv; exact ih hv
  case runtime => intro t ih hv; exact ih hv
  case constType => intro t ih hv; exact ih hv
  case rty => intro t ih hv; exact ih hv
  all_goals (intros; rfl)

theorem kindOk_weaken {decls : List Types.Term} {kind : Kind} (hk : KindOk C [] kind) : KindOk C decls kind := by
  cases kind <;> first | exact hk | exact (validate_weaken C.types decls).2.1 _ hk

theorem argsOk_weaken {decls : List Types.Term} {op : Ops.Op} (hk : ArgsOk C [] op) : ArgsOk C decls op := by
  have hw : ∀ ts, Types.validateTerms C.types [] ts = true → Types.validateTerms C.types decls ts = true := by
    intro ts hts
    rw [Types.validateTerms_iff] at hts ⊢
    exact fun t ht => (validate_weaken C.types decls).1 t (hts t ht)
  unfold ArgsOk at hk ⊢
  cases op <;> simp only [] at hk ⊢ <;> try exact hk
  rename_i ext name args x
  cases hd : C.defs ext name <;> rw [hd] at hk <;> simp only [] at hk ⊢
  · exact ⟨hw _ hk.1, hk.2⟩
  · obtain ⟨sa, oa, ps, h1, h2, h3, h4, h5, h6⟩ := hk
    exact ⟨sa, oa, ps, h1, h2, h3, h4, hw _ h5, h6⟩

theorem io_map {P Q : Nat} {ν : Nat → Nat} {ti tj : List Types.Ty}
    (h2 : g.children P = (h.children Q).map ν)
    (h3 : ∀ c ∈ h.children Q, g.ops (ν c) = h.ops c ∨
      (∃ a b x, h.ops c = .call a b x) ∧ ∃ s, g.ops (ν c) = .dfg s)
    (hc : ∃ inp out rest, h.children Q = inp :: out :: rest ∧
        h.ops inp = .input ti ∧ h.ops out = .output tj ∧ ∀ c ∈ rest, ¬ IsIO (h.ops c)) :
    ∃ inp out rest, g.children P = inp :: out :: rest ∧
        g.ops inp = .input ti ∧ g.ops out = .output tj ∧ ∀ c ∈ rest, ¬ IsIO (g.ops c) := by
  obtain ⟨inp, out, rest, e, a1, a2, a3⟩ := hc
  rw [e] at h2 h3
  refine ⟨ν inp, ν out, rest.map ν, by rw [h2]; rfl, ?_, ?_, ?_⟩
  · rcases h3 inp (by simp) with e | ⟨⟨_, _, _, e⟩, _⟩
    · rw [e, a1]
    · rw [a1] at e; cases e
  · rcases h3 out (by simp) with e | ⟨⟨_, _, _, e⟩, _⟩
    · rw [e, a2]
    · rw [a2] at e; cases e
  · intro c' hc'
    obtain ⟨c, hc, rfl⟩ := List.mem_map.1 hc'
    rcases h3 c (by simp [hc]) with e | ⟨_, _, e⟩
    · rw [e]; exact a3 c hc
    · rw [e]; rintro (⟨_, e⟩ | ⟨_, e⟩) <;> cases e

theorem childrenOk_map {P Q : Nat} {ν : Nat → Nat} (h1 : g.ops P = h.ops Q)
    (h2 : g.children P = (h.children Q).map ν)
    (h3 : ∀ c ∈ h.children Q, g.ops (ν c) = h.ops c ∨
      (∃ a b x, h.ops c = .call a b x) ∧ ∃ s, g.ops (ν c) = .dfg s)
    (hc : ChildrenOk h Q) : ChildrenOk g P := by
  unfold ChildrenOk at hc ⊢
  rw [h1]
  cases hop : h.ops Q <;> rw [hop] at hc <;> simp only [body] at hc ⊢
  case conditional rows other outs =>
    refine ⟨hc.1, ?_⟩
    rw [← hc.2, h2, List.map_map]
    refine List.map_congr_left fun c hm => ?_
    rcases h3 c hm with e | ⟨⟨_, _, _, e⟩, _⟩
    · exact e
    · have : h.ops c ∈ (h.children Q).map h.ops := List.mem_map.2 ⟨c, hm, rfl⟩
      rw [hc.2] at this
      obtain ⟨_, _, e'⟩ := List.mem_map.1 this
      rw [e] at e'; cases e'
  case cfg =>
    obtain ⟨entry, exit, rest, x, r, e, a1, a2, a3⟩ := hc
    rw [e] at h2 h3
    refine ⟨ν entry, ν exit, rest.map ν, x, r, by rw [h2]; rfl, ?_, ?_, ?_⟩
    · rcases h3 entry (by simp) with e | ⟨⟨_, _, _, e⟩, _⟩
      · rw [e, a1]
      · rw [a1] at e; cases e
    · rcases h3 exit (by simp) with e | ⟨⟨_, _, _, e⟩, _⟩
      · rw [e, a2]
      · rw [a2] at e; cases e
    · intro c' hc'
      obtain ⟨c, hc, rfl⟩ := List.mem_map.1 hc'
      rcases h3 c (by simp [hc]) with e | ⟨_, _, e⟩
      · rw [e]; exact a3 c hc
      · rw [e]; intro _ e; cases e
  all_goals first
    | exact io_map h2 h3 hc
    | (rw [h2, hc]; rfl)
    | exact hc

theorem dominates_map {edge edge' : Nat → Nat → Prop} {ν : Nat → Nat} {K : Nat → Prop}
    (up : ∀ x y, edge x y → edge' (ν x) (ν y))
    (down : ∀ x y', K x → edge' (ν x) y' → ∃ y, y' = ν y ∧ K y ∧ edge x y)
    (inj : ∀ x y, K x → K y → ν x = ν y → x = y) {entry b a : Nat} (he : K entry) (ha : K a)
    (hd : Dominates edge entry b a) : Dominates edge' (ν entry) (ν b) (ν a) := by
  refine ⟨hd.1.lift ν up, ?_⟩
  have key : ∀ (path' : List Nat) (x : Nat), K x → path'.head? = some (ν x) → path'.IsChain edge' →
      ∃ path : List Nat, path' = path.map ν ∧ path.head? = some x ∧ path.IsChain edge ∧ ∀ y ∈ path, K y := by
    intro path'
    induction path' with
    | nil => intro x _ h; cases h
    | cons p ps ih =>
      intro x hx hh hch
      simp only [List.head?_cons, Option.some.injEq] at hh
      subst hh
      cases ps with
      | nil => exact ⟨[x], rfl, rfl, by simp, by simpa using hx⟩
      | cons q qs =>
        rw [List.isChain_cons_cons] at hch
        obtain ⟨y, rfl, hy, hxy⟩ := down x q hx hch.1
        obtain ⟨path, h1, h2, h3, h4⟩ := ih y hy rfl hch.2
        cases path with
        | nil => cases h2
        | cons w ws =>
          simp only [List.head?_cons, Option.some.injEq] at h2
          subst h2
          refine ⟨x :: w :: ws, by rw [h1]; rfl, rfl, by rw [List.isChain_cons_cons]; exact ⟨hxy, h3⟩, ?_⟩
          intro v hv
          rcases List.mem_cons.1 hv with rfl | hv
          · exact hx
          · exact h4 v hv
  intro path' h1 h2 h3
  obtain ⟨path, rfl, e2, e3, e4⟩ := key path' entry he h1 h3
  refine List.mem_map.2 ⟨b, hd.2 path e2 ?_ e3, rfl⟩
  rw [List.getLast?_map] at h2
  cases hl : path.getLast? with
  | none => rw [hl] at h2; cases h2
  | some w =>
    rw [hl] at h2
    simp only [Option.map_some, Option.some.injEq] at h2
    rw [inj w a (e4 w (List.mem_of_getLast? hl)) ha h2]

namespace CallAt

variable {n f r : Nat} {name : String} {sig : Types.PolyFunc} {targs : List Types.Term} {inst : Types.Signature}
  {nodes : List Nat} {μ : Nat → Nat} (z : CallAt C h h0 g n f r name sig targs inst nodes μ)
include z

theorem cases2 {x : Nat} (hx : g.live x = true) : h.live x = true ∨ ∃ a ∈ nodes, x = μ a := (z.liveG x).1 hx

theorem above_old {x q : Nat} (ha : Above h.hier.parent x q) : Above g.hier.parent x q :=
  ha.mono fun a q hq => by rw [z.parent_old (z.old (z.tree.parent_live _ _ hq).1)]; exact hq

theorem childless {x : Nat} : h.hier.parent x ≠ some n := by
  intro hx
  have h1 := z.valid.children n z.live
  unfold ChildrenOk at h1
  rw [z.call] at h1
  have := (z.tree.child_iff _ _).2 hx
  change x ∈ h.children n at this
  rw [h1] at this
  cases this

/-- The node above a copy. -/
theorem parent_copy {a q : Nat} (ha : a ∈ nodes) (hq : h.hier.parent a = some q) :
    (q = f ∧ g.hier.parent (μ a) = some n) ∨ (q ∈ nodes ∧ g.hier.parent (μ a) = some (μ q)) := by
  have h1 := z.parent_new ha hq
  by_cases e : q = f
  · rw [if_pos e] at h1; exact .inl ⟨e, h1⟩
  · rw [if_neg e] at h1
    refine .inr ⟨(z.mem q).2 ?_, h1⟩
    obtain ⟨q', hq', haf⟩ := (z.mem a).1 ha
    rw [hq] at hq'; cases hq'
    rcases above_cases haf with e' | ⟨y, hy, hyf⟩
    · exact absurd e' e
    · exact ⟨y, hy, hyf⟩

theorem above_new {x q : Nat} (ha : Above h.hier.parent x q) (hq : q ∈ nodes) :
    Above g.hier.parent (μ x) (μ q) ∧ x ∈ nodes := by
  induction ha with
  | refl => exact ⟨.refl _, hq⟩
  | @step x p q hp _ ih =>
    obtain ⟨h1, h2⟩ := ih hq
    have hx : x ∈ nodes := z.child_mem (.inl h2) ((z.tree.child_iff _ _).2 hp)
    rcases z.parent_copy hx hp with ⟨rfl, _⟩ | ⟨_, h3⟩
    · exact absurd h2 z.f_out
    · exact ⟨.step h3 h1, hx⟩

theorem edge_down {P x y : Nat} (he : RegionEdge g P x y) :
    RegionEdge h (originalBody nodes μ n f P) (original nodes μ x) (original nodes μ y) := by
  have hk := z.cover.kids P trivial
  obtain ⟨hx, hy, l, hl, rfl, rfl⟩ := he
  refine ⟨by rw [← hk]; exact List.mem_map.2 ⟨_, hx, rfl⟩, by rw [← hk]; exact List.mem_map.2 ⟨_, hy, rfl⟩, ?_⟩
  rcases z.links hl with ⟨h1, _⟩ | ⟨e1, e2, h1⟩ | ⟨s, d, h1, hd, e1, e2⟩
  · obtain ⟨a, b⟩ := z.live_link h1
    exact ⟨l, h1, by rw [orig_old (z.old a)], by rw [orig_old (z.old b)]⟩
  · obtain ⟨a, b⟩ := z.live_link h1
    exact ⟨_, h1, by rw [orig_old (z.old a)], by rw [e1, orig_old (z.old b)]⟩
  · obtain ⟨a, b⟩ := z.live_link h1
    exact ⟨_, h1, by rw [e1, z.orig_copy a], by rw [e2, z.orig_copy b]⟩

/-- The control-flow graphs that were there. -/
theorem cfg_old {c : Nat} {s : Types.Signature} (hc : h.ops c = .cfg s) (hl : h.live c = true) {x y : Nat} :
    RegionEdge g c x y ↔ RegionEdge h c x y := by
  have hcn : c ≠ n := by rintro rfl; rw [z.call] at hc; cases hc
  constructor
  · intro he
    have h1 := z.edge_down he
    obtain ⟨hx, hy, _⟩ := he
    rw [z.kids_old (z.old hl) hcn] at hx hy
    rwa [z.body_old (z.old hl) hcn, orig_old (z.old (z.tree.parent_live _ _ ((z.tree.child_iff _ _).1 hx)).1),
      orig_old (z.old (z.tree.parent_live _ _ ((z.tree.child_iff _ _).1 hy)).1)] at h1
  · rintro ⟨hx, hy, l, hl', rfl, rfl⟩
    refine ⟨by rw [z.kids_old (z.old hl) hcn]; exact hx, by rw [z.kids_old (z.old hl) hcn]; exact hy, l, ?_, rfl, rfl⟩
    refine z.link_old hl' fun e => ?_
    have := z.valid.contains _ _ ((z.tree.child_iff _ _).1 hy)
    rw [e, hc, z.call] at this
    cases this

theorem cfg_new {c : Nat} (hm : c ∈ nodes) :
    (∀ x y, RegionEdge h c x y → RegionEdge g (μ c) (μ x) (μ y)) ∧
    ∀ x y', x ∈ nodes → RegionEdge g (μ c) (μ x) y' → ∃ y, y' = μ y ∧ y ∈ nodes ∧ RegionEdge h c x y := by
  constructor
  · rintro x y ⟨hx, hy, l, hl, rfl, rfl⟩
    rw [RegionEdge, z.kids_new hm]
    exact ⟨List.mem_map.2 ⟨_, hx, rfl⟩, List.mem_map.2 ⟨_, hy, rfl⟩, _, z.link_new hl (z.child_mem (.inl hm) hy), rfl, rfl⟩
  · intro x y' hxm he
    have h1 := z.edge_down he
    obtain ⟨_, hy, _⟩ := he
    rw [z.kids_new hm] at hy
    obtain ⟨y, hy', rfl⟩ := List.mem_map.1 hy
    have hym := z.child_mem (.inl hm) hy'
    rw [z.body_new hm, z.orig_new hxm, z.orig_new hym] at h1
    exact ⟨y, rfl, hym, h1⟩

/-! ## The rules -/

theorem v_contains {x p : Nat} (hp : g.hier.parent x = some p) : MayContain (g.ops p) (g.ops x) := by
  rcases z.cases2 (z.treeG.parent_live _ _ hp).1 with hx | ⟨a, ha, rfl⟩
  · rw [z.parent_old (z.old hx)] at hp
    have hpl := (z.tree.parent_live _ _ hp).2
    have hpn : p ≠ n := by rintro rfl; exact z.childless hp
    have hc := z.valid.contains _ _ hp
    rw [z.ops_old (z.old hpl) hpn]
    by_cases e : x = n
    · subst e
      rw [z.call] at hc
      rw [z.ops_n]
      unfold MayContain at hc ⊢
      cases hop : h.ops p <;> rw [hop] at hc <;> first | exact hc | exact ⟨hc.1, trivial⟩
    · rw [z.ops_old (z.old hx) e]; exact hc
  · obtain ⟨q, hq, _⟩ := (z.mem a).1 ha
    have hc := z.valid.contains _ _ hq
    rw [z.ops_new ha]
    rcases z.parent_copy ha hq with ⟨rfl, h1⟩ | ⟨hqm, h1⟩
    · rw [h1] at hp; cases hp
      rw [z.ops_n]
      rw [z.defn] at hc
      exact ⟨rfl, hc.2⟩
    · rw [h1] at hp; cases hp
      rw [z.ops_new hqm]; exact hc

theorem v_children {x : Nat} (hx : g.live x = true) : ChildrenOk g x := by
  rcases z.cases2 hx with hx | ⟨a, ha, rfl⟩
  · by_cases e : x = n
    · subst e
      have hfl : h.live f = true := (z.tree.parent_live _ _ z.parent).1
      have hc := (childrenOk_body (h := h) (n := f) (by rw [z.defn]; rfl)).1 (z.valid.children f hfl)
      refine (childrenOk_body (by rw [z.ops_n]; rfl)).2 (io_map z.kids_n (fun c hc => .inl ?_) hc)
      exact z.ops_new (z.child_mem (.inr rfl) hc)
    · refine childrenOk_map (ν := id) (z.ops_old (z.old hx) e) (by rw [z.kids_old (z.old hx) e]; simp) ?_
        (z.valid.children x hx)
      intro c hc
      have hcl := (z.tree.parent_live _ _ ((z.tree.child_iff _ _).1 hc)).1
      by_cases hcn : c = n
      · subst hcn
        exact .inr ⟨⟨_, _, _, z.call⟩, _, z.ops_n⟩
      · exact .inl (z.ops_old (z.old hcl) hcn)
  · refine childrenOk_map (z.ops_new ha) (z.kids_new ha) (fun c hc => .inl ?_) (z.valid.children a (z.live_mem ha))
    exact z.ops_new (z.child_mem (.inl ha) hc)

theorem v_entrypoint : Container (g.ops g.entrypoint) := by
  have hc := z.valid.entrypoint
  have hl := z.tree.entry_live
  have he : g.entrypoint = h.entrypoint := z.copied.entrypoint.trans z.emptied.entrypoint
  rw [he]
  have hn : h.entrypoint ≠ n := by
    intro e
    rw [e, z.call] at hc; simp [Container, body] at hc
  rw [z.ops_old (z.old hl) hn]; exact hc

theorem root : h.ops h.moduleRoot = .module ∧ r = h.moduleRoot := by
  have hr := func_parent z.valid z.defn z.parent
  have htop := module_top z.valid hr
  have := (z.tree.reaches_root r (z.tree.parent_live _ _ z.parent).2).eq_of_top htop
  exact ⟨this ▸ hr, this⟩

theorem v_blocks {l : Link} (hl : l ∈ g.links) {q : Nat} {s : Types.Signature} (hs : g.ops q = .cfg s)
    (h1 : l.src ∈ g.children q) (h2 : l.dst ∈ g.children q) : BlockLinkOk g l := by
  have hql := (z.treeG.parent_live _ _ ((z.treeG.child_iff _ _).1 h1)).2
  rcases z.cases2 hql with hq | ⟨a, ha, rfl⟩
  · have hqn : q ≠ n := by rintro rfl; rw [z.ops_n] at hs; cases hs
    rw [z.ops_old (z.old hq) hqn] at hs
    rw [z.kids_old (z.old hq) hqn] at h1 h2
    have p1 := (z.tree.child_iff _ _).1 h1
    have p2 := (z.tree.child_iff _ _).1 h2
    have l1 := (z.tree.parent_live _ _ p1).1
    have l2 := (z.tree.parent_live _ _ p2).1
    have hne : ∀ x, h.hier.parent x = some q → x ≠ n := by
      rintro x hx rfl
      have := z.valid.contains _ _ hx
      rw [hs, z.call] at this; cases this
    rcases z.links hl with ⟨hl', _⟩ | ⟨e1, _⟩ | ⟨s', d, _, hd, e1, e2⟩
    · obtain ⟨ins, other, rows, row, b1, b2, b3⟩ := z.valid.blocks l hl' q s hs h1 h2
      refine ⟨ins, other, rows, row, by rw [z.ops_old (z.old l1) (hne _ p1)]; exact b1, b2, ?_⟩
      rw [z.ops_old (z.old l2) (hne _ p2)]; exact b3
    · exact absurd e1 (hne _ p2)
    · exact absurd e2 (z.old l2 d hd)
  · rw [z.ops_new ha] at hs
    rw [z.kids_new ha] at h1 h2
    obtain ⟨x, hx, ex⟩ := List.mem_map.1 h1
    obtain ⟨y, hy, ey⟩ := List.mem_map.1 h2
    have hxm := z.child_mem (.inl ha) hx
    have hym := z.child_mem (.inl ha) hy
    rcases z.links hl with ⟨hl', _⟩ | ⟨e1, _⟩ | ⟨s', d, hl', hd, e1, e2⟩
    · exact absurd ey.symm (z.old (z.live_link hl').2 y hym)
    · exact absurd (ey.trans e1) (z.ne_n hym)
    · have e3 : s' = x := by
        have := z.orig_copy (z.live_link hl').1
        simp only at this
        rw [← e1, ← ex, z.orig_new hxm] at this
        exact this.symm
      have e4 : d = y := z.copied.inj d hd y hym (e2.symm.trans ey.symm)
      subst e3; subst e4
      obtain ⟨ins, other, rows, row, b1, b2, b3⟩ := z.valid.blocks _ hl' a s hs hx hy
      refine ⟨ins, other, rows, row, by rw [e1, z.ops_new hxm]; exact b1, b2, ?_⟩
      rw [e2, z.ops_new hym]; exact b3

theorem v_acyclic {p : Nat} (hp : g.live p = true) (hb : (body (g.ops p)).isSome = true) (x : Nat) :
    ¬ Relation.TransGen (RegionEdge g p) x x := by
  intro hc
  have h1 : Relation.TransGen (RegionEdge h (originalBody nodes μ n f p)) (original nodes μ x) (original nodes μ x) :=
    Relation.TransGen.lift (original nodes μ) (fun a b he => z.edge_down he) x x hc
  refine z.valid.acyclic _ ?_ ?_ _ h1
  · rcases z.cases2 hp with hp | ⟨a, ha, rfl⟩
    · by_cases e : p = n
      · subst e; rw [z.body_n]; exact (z.tree.parent_live _ _ z.parent).1
      · rw [z.body_old (z.old hp) e]; exact hp
    · rw [z.body_new ha]; exact z.live_mem ha
  · rcases z.cases2 hp with hp | ⟨a, ha, rfl⟩
    · by_cases e : p = n
      · subst e; rw [z.body_n, z.defn]; rfl
      · rw [z.body_old (z.old hp) e, ← z.ops_old (z.old hp) e]; exact hb
    · rw [z.body_new ha, ← z.ops_new ha]; exact hb

theorem v_exports {a : Nat} {nm : String} {s : Types.PolyFunc} {b : Bool} (he : Exports C g a nm s b) :
    Exports C h a nm s b := by
  obtain ⟨h1, h2, h3⟩ := he
  have hroot : g.moduleRoot = h.moduleRoot := z.copied.moduleRoot.trans z.emptied.moduleRoot
  have hrn : h.moduleRoot ≠ n := by
    intro e
    have := z.root.1
    rw [e, z.call] at this; cases this
  rw [hroot, z.kids_old (z.old z.tree.root_live) hrn] at h1
  have hl := (z.tree.parent_live _ _ ((z.tree.child_iff _ _).1 h1)).1
  have han : a ≠ n := by
    rintro rfl
    rw [z.ops_n] at h3
    rcases h3 with ⟨_, e⟩ | ⟨_, e⟩ <;> cases e
  rw [z.ops_old (z.old hl) han] at h3
  exact ⟨h1, h2, h3⟩

theorem v_decls {x : Nat} {decls : List Types.Term} (hd : DeclsAt g x decls) :
    h.live x = true → DeclsAt h x decls := by
  have hroot : g.moduleRoot = h.moduleRoot := z.copied.moduleRoot.trans z.emptied.moduleRoot
  induction hd with
  | root => intro _; rw [hroot]; exact .root
  | @inside x p nm s hp hop =>
    intro hx
    rw [z.parent_old (z.old hx)] at hp
    have hpn : p ≠ n := by rintro rfl; exact z.childless hp
    rw [z.ops_old (z.old (z.tree.parent_live _ _ hp).2) hpn] at hop
    exact .inside hp hop
  | @inherited x p ds hp hop _ ih =>
    intro hx
    rw [z.parent_old (z.old hx)] at hp
    have hpn : p ≠ n := by rintro rfl; exact z.childless hp
    have hpl := (z.tree.parent_live _ _ hp).2
    rw [z.ops_old (z.old hpl) hpn] at hop
    exact .inherited hp hop (ih hpl)

/-- The variables of the function can be used in it. -/
theorem decls_mem {a : Nat} (ha : a ∈ nodes) : DeclsAt h a sig.params := by
  obtain ⟨q, hq, hqf⟩ := (z.mem a).1 ha
  have key : ∀ {q f'}, Above h.hier.parent q f' → f' = f → ∀ a ∈ nodes, h.hier.parent a = some q →
      DeclsAt h a sig.params := by
    intro q f' hqf
    induction hqf with
    | refl => rintro rfl a ha hq; exact .inside hq z.defn
    | @step q w f'' hw h1 ih =>
      rintro rfl a ha hq
      have hqm : q ∈ nodes := (z.mem q).2 ⟨w, hw, h1⟩
      exact .inherited hq (z.not_defn hqm).1 (ih rfl q hqm hw)
  exact key hqf rfl a ha hq

/-! ## Links -/

theorem outs_old (e : sig.body = inst) {x : Nat} (hx : h.live x = true) :
    (g.ops x).ports .outgoing = (h.ops x).ports .outgoing := by
  by_cases hn : x = n
  · subst hn
    rw [z.ops_n, z.call, e]
    simp [Op.ports]
  · rw [z.ops_old (z.old hx) hn]

theorem edge_old (e : sig.body = inst) {l : Link} {kind : Kind} (hs : h.live l.src = true) (hd : h.live l.dst = true)
    (he : EdgeOk h l kind) : EdgeOk g l kind := by
  obtain ⟨p, hp, hor⟩ := he
  refine ⟨p, by rw [z.parent_old (z.old hs)]; exact hp, ?_⟩
  rcases hor with hq | ⟨q, a, hq, hqa, hor⟩
  · exact .inl (by rw [z.parent_old (z.old hd)]; exact hq)
  · right
    have han : a ≠ n := by
      rintro rfl
      by_cases hne : q = a
      · subst hne; exact z.childless hq
      · obtain ⟨c, _, hc⟩ := hqa.last hne
        exact z.childless hc
    have hpa : ∀ {x}, h.hier.parent a = some x → g.hier.parent a = some x := by
      intro x hx
      rw [z.parent_old (z.old (z.tree.parent_live _ _ hx).1)]; exact hx
    refine ⟨q, a, by rw [z.parent_old (z.old hd)]; exact hq, z.above_old hqa, ?_⟩
    rcases hor with ⟨hst, ha⟩ | ⟨ht, ⟨ha, o, ho, o1, o2, o3⟩ | ⟨c, s, entry, rest, hne, hpc, hac, hcfg, hch, hdom⟩⟩
    · exact .inl ⟨hst, hpa ha⟩
    · refine .inr ⟨ht, .inl ⟨hpa ha, o, z.link_old ho (fun e => absurd (o2.symm.trans e) han), o1, o2, ?_⟩⟩
      unfold srcKind at o3 ⊢
      rw [z.outs_old e (z.live_link ho).1]; exact o3
    · refine .inr ⟨ht, .inr ⟨c, s, entry, rest, hne, ?_, hpa hac, ?_, ?_, ?_⟩⟩
      · rw [z.parent_old (z.old (z.tree.parent_live _ _ hpc).1)]; exact hpc
      · rw [z.ops_old (z.old (z.tree.parent_live _ _ hpc).2) (by rintro rfl; rw [z.call] at hcfg; cases hcfg)]
        exact hcfg
      · rw [z.kids_old (z.old (z.tree.parent_live _ _ hpc).2) (by rintro rfl; rw [z.call] at hcfg; cases hcfg)]
        exact hch
      · have : RegionEdge g c = RegionEdge h c := by
          funext x y; exact propext (z.cfg_old hcfg (z.tree.parent_live _ _ hpc).2)
        rw [this]; exact hdom

/-- Links from one copy to another. -/
theorem edge_new {s sp d dp : Nat} (hs : s ∈ nodes) (hd : d ∈ nodes) {kind : Kind}
    (he : EdgeOk h ⟨s, sp, d, dp⟩ kind) : EdgeOk g ⟨μ s, sp, μ d, dp⟩ kind := by
  obtain ⟨p, hp, hor⟩ := he
  simp only [] at hp hor
  -- the region of the copy
  have reg : ∀ {x}, x ∈ nodes → h.hier.parent x = some p →
      g.hier.parent (μ x) = some (if p = f then n else μ p) := fun hx hxp => z.parent_new hx hxp
  refine ⟨_, reg hs hp, ?_⟩
  rcases hor with hq | ⟨q, a, hq, hqa, hor⟩
  · exact .inl (reg hd hq)
  · right
    have fin : a ∈ nodes → ((kind.isStatic = true ∧ g.hier.parent (μ a) = some (if p = f then n else μ p)) ∨
        (∃ t, kind = .value t ∧ t.copyable = true) ∧
        ((g.hier.parent (μ a) = some (if p = f then n else μ p) ∧
          ∃ o ∈ g.links, o.src = μ s ∧ o.dst = μ a ∧ srcKind g o = some .stateOrder) ∨
        ∃ c sig entry rest, μ a ≠ (if p = f then n else μ p) ∧
          g.hier.parent (if p = f then n else μ p) = some c ∧ g.hier.parent (μ a) = some c ∧
          g.ops c = .cfg sig ∧ g.children c = entry :: rest ∧
          Dominates (RegionEdge g c) entry (if p = f then n else μ p) (μ a))) →
        ∃ q a, g.hier.parent (μ d) = some q ∧ Above g.hier.parent q a ∧
          ((kind.isStatic = true ∧ g.hier.parent a = some (if p = f then n else μ p)) ∨
        (∃ t, kind = .value t ∧ t.copyable = true) ∧
        ((g.hier.parent a = some (if p = f then n else μ p) ∧
          ∃ o ∈ g.links, o.src = μ s ∧ o.dst = a ∧ srcKind g o = some .stateOrder) ∨
        ∃ c sig entry rest, a ≠ (if p = f then n else μ p) ∧
          g.hier.parent (if p = f then n else μ p) = some c ∧ g.hier.parent a = some c ∧
          g.ops c = .cfg sig ∧ g.children c = entry :: rest ∧
          Dominates (RegionEdge g c) entry (if p = f then n else μ p) a)) := by
      intro ham hh
      obtain ⟨h1, hqm⟩ := z.above_new hqa ham
      rcases z.parent_copy hd hq with ⟨rfl, _⟩ | ⟨_, h2⟩
      · exact absurd hqm z.f_out
      · exact ⟨μ q, μ a, h2, h1, hh⟩
    have hpm : p ∈ nodes ∨ p = f := by
      rcases z.parent_copy hs hp with ⟨h1, _⟩ | ⟨h1, _⟩
      · exact .inr h1
      · exact .inl h1
    rcases hor with ⟨hst, ha⟩ | ⟨ht, ⟨ha, o, ho, o1, o2, o3⟩ | ⟨c, sg, entry, rest, hne, hpc, hac, hcfg, hch, hdom⟩⟩
    · have ham : a ∈ nodes := z.child_mem hpm ((z.tree.child_iff _ _).2 ha)
      exact fin ham (.inl ⟨hst, reg ham ha⟩)
    · have ham : a ∈ nodes := z.child_mem hpm ((z.tree.child_iff _ _).2 ha)
      obtain ⟨os, osp, od, odp⟩ := o
      simp only [] at o1 o2
      subst o1; subst o2
      refine fin ham (.inr ⟨ht, .inl ⟨reg ham ha, _, z.link_new ho ham, rfl, rfl, ?_⟩⟩)
      unfold srcKind at o3 ⊢
      simp only [] at o3 ⊢
      rw [z.ops_new hs]; exact o3
    · have hpf : p ≠ f := by
        rintro rfl
        rw [z.parent] at hpc; cases hpc
        rw [func_parent z.valid z.defn z.parent] at hcfg; cases hcfg
      have hpm : p ∈ nodes := hpm.resolve_right hpf
      have hcm : c ∈ nodes := by
        rcases z.parent_copy hpm hpc with ⟨rfl, _⟩ | ⟨h1, _⟩
        · rw [z.defn] at hcfg; cases hcfg
        · exact h1
      have ham : a ∈ nodes := z.child_mem (.inl hcm) ((z.tree.child_iff _ _).2 hac)
      have hcf : c ≠ f := fun e => z.f_out (e ▸ hcm)
      have hem : entry ∈ nodes := z.child_mem (.inl hcm) (by rw [hch]; simp)
      refine fin ham (.inr ⟨ht, .inr ⟨μ c, sg, μ entry, rest.map μ, ?_, ?_, ?_, ?_, ?_, ?_⟩⟩)
      · rw [if_neg hpf]; exact fun e => hne (z.copied.inj a ham p hpm e)
      · rw [if_neg hpf, z.parent_new hpm hpc, if_neg hcf]
      · rw [z.parent_new ham hac, if_neg hcf]
      · rw [z.ops_new hcm]; exact hcfg
      · rw [z.kids_new hcm, hch]; rfl
      · rw [if_neg hpf]
        exact dominates_map (K := fun x => x ∈ nodes) (z.cfg_new hcm).1 (z.cfg_new hcm).2
          (fun x y hx hy => z.copied.inj x hx y hy) hem ham hdom

theorem v_kinds (e : sig.body = inst) {l : Link} (hl : l ∈ g.links) :
    ∃ kind, srcKind g l = some kind ∧ ((g.ops l.dst).ports .incoming)[l.dstPort]? = some kind ∧ EdgeOk g l kind := by
  rcases z.links hl with ⟨h1, h2⟩ | ⟨e1, e2, h1⟩ | ⟨s, d, h1, hd, e1, e2⟩
  · obtain ⟨ls, ld⟩ := z.live_link h1
    obtain ⟨kind, k1, k2, k3⟩ := z.valid.kinds l h1
    refine ⟨kind, ?_, ?_, z.edge_old e ls ld k3⟩
    · unfold srcKind at k1 ⊢
      rw [z.outs_old e ls]; exact k1
    · by_cases hn : l.dst = n
      · have hp := h2 hn
        rw [hn, z.call, call_ports, List.append_assoc, List.getElem?_append_left (by simpa using hp)] at k2
        rw [hn, z.ops_n, e]
        simp only [Op.ports]
        rw [List.getElem?_append_left (by simpa using hp)]
        exact k2
      · rw [z.ops_old (z.old ld) hn]; exact k2
  · obtain ⟨ls, ld⟩ := z.live_link h1
    obtain ⟨kind, k1, k2, k3⟩ := z.valid.kinds _ h1
    simp only [] at k2
    rw [z.call, call_ports] at k2
    have hk : kind = .stateOrder := by
      rw [List.getElem?_append_right (by simp)] at k2
      simpa using k2.symm
    subst hk
    refine ⟨.stateOrder, ?_, ?_, ?_⟩
    · unfold srcKind at k1 ⊢
      rw [z.outs_old e ls]; exact k1
    · rw [e1, e2, z.ops_n, e]
      simp [Op.ports]
    · have h3 := z.edge_old e (l := ⟨l.src, l.srcPort, n, inst.input.length + 1⟩) ls ld k3
      obtain ⟨a, b, c, d⟩ := l
      simp only [] at e1 h3
      subst e1
      exact h3
  · obtain ⟨ls, ld⟩ := z.live_link h1
    obtain ⟨kind, k1, k2, k3⟩ := z.valid.kinds _ h1
    obtain ⟨l1, lp, l2, ldp⟩ := l
    simp only [] at e1 e2 h1 ls ld k1 k2 k3 ⊢
    subst e1; subst e2
    refine ⟨kind, ?_, by rw [z.ops_new hd]; exact k2, ?_⟩
    · unfold srcKind at k1 ⊢
      simp only [] at k1 ⊢
      by_cases hs : s ∈ nodes
      · rw [z.ops_new hs]; exact k1
      · rw [z.copied.keep s hs, z.outs_old e ls]; exact k1
    · rcases z.enter h1 hd with hs | ⟨hr, kind', k4, k5⟩
      · exact z.edge_new hs hd k3
      · rw [k2] at k4; cases k4
        have hs : s ∉ nodes := by
          intro hs
          obtain ⟨q, hq, hqf⟩ := (z.mem s).1 hs
          rw [hr] at hq; cases hq
          exact z.tree.acyclic _ _ z.parent hqf
        rw [z.copied.keep s hs]
        refine ⟨r, by rw [z.parent_old (z.old ls)]; exact hr, .inr ?_⟩
        -- the function around the call
        have hnr : n ≠ h.moduleRoot := by
          intro e
          have := z.root.1
          rw [← e, z.call] at this; cases this
        obtain ⟨F, hF, hFr⟩ := (z.tree.reaches_root n z.live).last hnr
        obtain ⟨q, hq, hqa⟩ := z.copy_inside hd
        refine ⟨q, F, hq, hqa.trans (z.above_old hF), .inl ⟨k5, ?_⟩⟩
        rw [z.parent_old (z.old (z.tree.parent_live _ _ hFr).1), z.root.2]; exact hFr

/-- The links of the result that come from a port, or go to one. -/
theorem links_eq : g.links = (h.links.filter fun l => decide (l.dst ≠ n) || decide (l.dstPort < inst.input.length)) ++
    (h.links.filter fun l => decide (l.dst = n) && decide (l.dstPort = inst.input.length + 1)).map
      (fun l => ⟨l.src, l.srcPort, n, inst.input.length⟩) ++
    (h.links.filter fun l => decide (l.dst ∈ nodes)).map (renameLink μ) := by
  rw [z.copied.links, ← z.emptied.links]
  congr 2
  have hleave : ∀ l ∈ h.links, l.src ∈ nodes → l.dst ∈ nodes := fun l hl hs =>
    (z.mem _).2 (link_leave z.valid z.defn z.parent hl ((z.mem _).1 hs))
  rw [z.emptied.links, List.filter_append, List.filter_filter]
  have h2 : (((h.links.filter fun l => decide (l.dst = n) && decide (l.dstPort = inst.input.length + 1)).map
      fun l => (⟨l.src, l.srcPort, n, inst.input.length⟩ : Link)).filter
      fun l => decide (l.src ∈ nodes) || decide (l.dst ∈ nodes)) = [] := by
    rw [List.filter_eq_nil_iff]
    intro l hl
    simp only [List.mem_map, List.mem_filter, Bool.and_eq_true, decide_eq_true_eq] at hl
    obtain ⟨k, ⟨hk, e1, _⟩, rfl⟩ := hl
    simp only [Bool.or_eq_true, decide_eq_true_eq, not_or]
    exact ⟨fun hs => z.n_out (e1 ▸ hleave k hk hs), z.n_out⟩
  rw [h2, List.append_nil]
  refine List.filter_congr fun l hl => ?_
  by_cases hd : l.dst ∈ nodes
  · have hdn : l.dst ≠ n := fun e => z.n_out (e ▸ hd)
    simp [hd, hdn]
  · have hs : l.src ∉ nodes := fun hs => hd (hleave l hl hs)
    simp [hd, hs]

theorem to_old {x port : Nat} (hx : h.live x = true) (hp : x = n → port < inst.input.length) :
    linksTo g x port = linksTo h x port := by
  unfold linksTo
  rw [z.links_eq, List.filter_append, List.filter_append, List.filter_filter]
  have h2 : (((h.links.filter fun l => decide (l.dst = n) && decide (l.dstPort = inst.input.length + 1)).map
      fun l => (⟨l.src, l.srcPort, n, inst.input.length⟩ : Link)).filter
      fun l => decide (l.dst = x) && decide (l.dstPort = port)) = [] := by
    rw [List.filter_eq_nil_iff]
    intro l hl
    simp only [List.mem_map, List.mem_filter, Bool.and_eq_true, decide_eq_true_eq] at hl
    obtain ⟨k, _, rfl⟩ := hl
    simp only [Bool.and_eq_true, decide_eq_true_eq, not_and]
    intro e1 e2
    have := hp e1.symm
    omega
  have h3 : (((h.links.filter fun l => decide (l.dst ∈ nodes)).map (renameLink μ)).filter
      fun l => decide (l.dst = x) && decide (l.dstPort = port)) = [] := by
    rw [List.filter_eq_nil_iff]
    intro l hl
    simp only [List.mem_map, List.mem_filter, decide_eq_true_eq] at hl
    obtain ⟨k, ⟨_, hk⟩, rfl⟩ := hl
    simp only [Bool.and_eq_true, decide_eq_true_eq, not_and]
    intro e1
    exact absurd e1.symm (z.old hx _ hk)
  rw [h2, h3, List.append_nil, List.append_nil]
  refine List.filter_congr fun l _ => ?_
  by_cases e1 : l.dst = x
  · by_cases e2 : l.dstPort = port
    · by_cases e3 : x = n
      · simp [e1, e2, hp e3]
      · simp [e1, e2, e3]
    · simp [e2]
  · simp [e1]

theorem to_new {a port : Nat} (ha : a ∈ nodes) : linksTo g (μ a) port = (linksTo h a port).map (renameLink μ) := by
  unfold linksTo
  rw [z.links_eq, List.filter_append, List.filter_append, List.filter_filter]
  have h1 : (h.links.filter fun l => (decide (l.dst = μ a) && decide (l.dstPort = port)) &&
      (decide (l.dst ≠ n) || decide (l.dstPort < inst.input.length))) = [] := by
    rw [List.filter_eq_nil_iff]
    intro l hl
    simp only [Bool.and_eq_true, decide_eq_true_eq, not_and]
    intro ⟨e, _⟩
    exact absurd e (z.old (z.live_link hl).2 a ha)
  have h2 : (((h.links.filter fun l => decide (l.dst = n) && decide (l.dstPort = inst.input.length + 1)).map
      fun l => (⟨l.src, l.srcPort, n, inst.input.length⟩ : Link)).filter
      fun l => decide (l.dst = μ a) && decide (l.dstPort = port)) = [] := by
    rw [List.filter_eq_nil_iff]
    intro l hl
    simp only [List.mem_map, List.mem_filter, Bool.and_eq_true, decide_eq_true_eq] at hl
    obtain ⟨k, _, rfl⟩ := hl
    simp only [Bool.and_eq_true, decide_eq_true_eq, not_and]
    intro e
    exact absurd e.symm (z.ne_n ha)
  rw [h1, h2, List.nil_append, List.nil_append, List.filter_map, List.filter_filter]
  congr 1
  refine List.filter_congr fun l hl => ?_
  simp only [Function.comp, renameLink]
  by_cases hd : l.dst ∈ nodes
  · have : μ l.dst = μ a ↔ l.dst = a := ⟨z.copied.inj _ hd _ ha, fun e => by rw [e]⟩
    by_cases ea : l.dst = a
    · simp [hd, ea, ha]; rfl
    · have eb : ¬ μ l.dst = μ a := fun x => ea (this.1 x)
      simp [ea, eb]
  · have : l.dst ≠ a := fun e => hd (e ▸ ha)
    simp [hd, this]

theorem from_new {a port : Nat} (ha : a ∈ nodes) : linksFrom g (μ a) port = (linksFrom h a port).map (renameLink μ) := by
  unfold linksFrom
  rw [z.links_eq, List.filter_append, List.filter_append, List.filter_filter]
  have h1 : (h.links.filter fun l => (decide (l.src = μ a) && decide (l.srcPort = port)) &&
      (decide (l.dst ≠ n) || decide (l.dstPort < inst.input.length))) = [] := by
    rw [List.filter_eq_nil_iff]
    intro l hl
    simp only [Bool.and_eq_true, decide_eq_true_eq, not_and]
    intro ⟨e, _⟩
    exact absurd e (z.old (z.live_link hl).1 a ha)
  have h2 : (((h.links.filter fun l => decide (l.dst = n) && decide (l.dstPort = inst.input.length + 1)).map
      fun l => (⟨l.src, l.srcPort, n, inst.input.length⟩ : Link)).filter
      fun l => decide (l.src = μ a) && decide (l.srcPort = port)) = [] := by
    rw [List.filter_eq_nil_iff]
    intro l hl
    simp only [List.mem_map, List.mem_filter, Bool.and_eq_true, decide_eq_true_eq] at hl
    obtain ⟨k, ⟨hk, _⟩, rfl⟩ := hl
    simp only [Bool.and_eq_true, decide_eq_true_eq, not_and]
    intro e
    exact absurd e (z.old (z.live_link hk).1 a ha)
  rw [h1, h2, List.nil_append, List.nil_append, List.filter_map, List.filter_filter]
  congr 1
  refine List.filter_congr fun l hl => ?_
  simp only [Function.comp, renameLink]
  by_cases hs : l.src ∈ nodes
  · have hd : l.dst ∈ nodes := (z.mem _).2 (link_leave z.valid z.defn z.parent hl ((z.mem _).1 hs))
    have : μ l.src = μ a ↔ l.src = a := ⟨z.copied.inj _ hs _ ha, fun e => by rw [e]⟩
    by_cases ea : l.src = a
    · simp [hd, ea, ha]; rfl
    · have eb : ¬ μ l.src = μ a := fun x => ea (this.1 x)
      simp [ea, eb]
  · have h3 : l.src ≠ a := fun e => hs (e ▸ ha)
    have h4 : l.src ≠ μ a := z.old (z.live_link hl).1 a ha
    simp [z.copied.keep _ hs, h3, h4]

theorem from_old {x port : Nat} (hx : h.live x = true) {kind : Kind}
    (hk : ((h.ops x).ports .outgoing)[port]? = some kind) (h1 : kind.isStatic = false) (h2 : kind ≠ .stateOrder) :
    linksFrom g x port = linksFrom h x port := by
  unfold linksFrom
  have hkind : ∀ l ∈ h.links, l.src = x → l.srcPort = port → ((h.ops l.dst).ports .incoming)[l.dstPort]? = some kind := by
    rintro l hl rfl rfl
    obtain ⟨kind', k1, k2⟩ := link_kinds z.valid hl
    unfold srcKind at k1
    rw [hk] at k1; cases k1
    exact k2
  rw [z.links_eq, List.filter_append, List.filter_append, List.filter_filter]
  have g2 : (((h.links.filter fun l => decide (l.dst = n) && decide (l.dstPort = inst.input.length + 1)).map
      fun l => (⟨l.src, l.srcPort, n, inst.input.length⟩ : Link)).filter
      fun l => decide (l.src = x) && decide (l.srcPort = port)) = [] := by
    rw [List.filter_eq_nil_iff]
    intro l hl
    simp only [List.mem_map, List.mem_filter, Bool.and_eq_true, decide_eq_true_eq] at hl
    obtain ⟨k, ⟨hk', e1, e2⟩, rfl⟩ := hl
    simp only [Bool.and_eq_true, decide_eq_true_eq, not_and]
    intro e3 e4
    have := hkind k hk' e3 e4
    rw [e1, e2, z.call, call_ports, List.getElem?_append_right (by simp)] at this
    simp at this
    exact h2 this.symm
  have g3 : (((h.links.filter fun l => decide (l.dst ∈ nodes)).map (renameLink μ)).filter
      fun l => decide (l.src = x) && decide (l.srcPort = port)) = [] := by
    rw [List.filter_eq_nil_iff]
    intro l hl
    simp only [List.mem_map, List.mem_filter, decide_eq_true_eq] at hl
    obtain ⟨k, ⟨hk', hd⟩, rfl⟩ := hl
    rw [Bool.and_eq_true]
    rintro ⟨e3, e4⟩
    have e3 : μ k.src = x := of_decide_eq_true e3
    have e4 : k.srcPort = port := of_decide_eq_true e4
    by_cases hs : k.src ∈ nodes
    · exact z.old hx _ hs e3.symm
    · rw [z.copied.keep _ hs] at e3
      have h3 := hkind k hk' e3 e4
      obtain ⟨s, sp, d, dp⟩ := k
      rcases z.enter hk' hd with hs' | ⟨_, kind', k4, k5⟩
      · exact hs hs'
      · simp only [] at h3
        rw [h3] at k4; cases k4
        rw [h1] at k5; cases k5
  rw [g2, g3, List.append_nil, List.append_nil]
  refine List.filter_congr fun l hl => ?_
  by_cases e1 : l.src = x
  · by_cases e2 : l.srcPort = port
    · have h3 := hkind l hl e1 e2
      by_cases e3 : l.dst = n
      · have : l.dstPort < inst.input.length := by
          by_contra hge
          rw [e3, z.call, call_ports, List.append_assoc, List.getElem?_append_right (by simpa using hge)] at h3
          have hm := List.mem_of_getElem? h3
          simp at hm
          rcases hm with rfl | rfl
          · cases h1
          · exact h2 rfl
        simp [this]
      · simp [e3]
    · simp [e2]
  · simp [e1]

theorem v_inDegree (e : sig.body = inst) {x port : Nat} {kind : Kind} (hx : g.live x = true)
    (hk : ((g.ops x).ports .incoming)[port]? = some kind) : InDegreeOk kind (linksTo g x port).length := by
  rcases z.cases2 hx with hx | ⟨a, ha, rfl⟩
  · by_cases hn : x = n
    · subst hn
      rw [z.ops_n, e] at hk
      simp only [Op.ports] at hk
      by_cases hp : port < inst.input.length
      · rw [z.to_old hx fun _ => hp]
        refine z.valid.inDegree x port kind hx ?_
        rw [z.call, call_ports, List.append_assoc, List.getElem?_append_left (by simpa using hp)]
        rw [List.getElem?_append_left (by simpa using hp)] at hk
        exact hk
      · rw [List.getElem?_append_right (by simpa using hp)] at hk
        have hm := List.mem_of_getElem? hk
        simp at hm
        subst hm
        trivial
    · rw [z.to_old hx fun e => absurd e hn]
      rw [z.ops_old (z.old hx) hn] at hk
      exact z.valid.inDegree x port kind hx hk
  · rw [z.to_new ha, List.length_map]
    rw [z.ops_new ha] at hk
    exact z.valid.inDegree a port kind (z.live_mem ha) hk

theorem v_outDegree (e : sig.body = inst) {x port : Nat} {kind : Kind} (hx : g.live x = true)
    (hk : ((g.ops x).ports .outgoing)[port]? = some kind) : OutDegreeOk kind (linksFrom g x port).length := by
  rcases z.cases2 hx with hx | ⟨a, ha, rfl⟩
  · rw [z.outs_old e hx] at hk
    by_cases h1 : kind.isStatic = true
    · cases kind <;> first | trivial | cases h1
    · by_cases h2 : kind = .stateOrder
      · subst h2; trivial
      · rw [z.from_old hx hk (by simpa using h1) h2]
        exact z.valid.outDegree x port kind hx hk
  · rw [z.from_new ha, List.length_map]
    rw [z.ops_new ha] at hk
    exact z.valid.outDegree a port kind (z.live_mem ha) hk

/-- The result of inlining is valid, if the constants that are copied are as good as the originals. -/
theorem valid_g (hsig : sig = ⟨[], inst⟩) (hconst : ∀ a ∈ nodes, C.constOk a = true → C.constOk (μ a) = true) :
    Valid C g := by
  have e : sig.body = inst := by rw [hsig]
  refine ⟨?_, ?_, fun x p hp => z.v_contains hp, fun x hx => z.v_children hx, z.v_entrypoint,
    fun l hl p s hs h1 h2 => z.v_blocks hl hs h1 h2, fun p hp hb x => z.v_acyclic hp hb x, ?_,
    fun x port kind hx hk => z.v_inDegree e hx hk, fun x port kind hx hk => z.v_outDegree e hx hk,
    fun l hl => z.v_kinds e hl, ?_, fun a b nm s1 s2 d1 d2 h1 h2 => z.valid.exports a b nm s1 s2 d1 d2
      (z.v_exports h1) (z.v_exports h2)⟩
  · intro x hx
    rcases z.cases2 hx with hx | ⟨a, ha, rfl⟩
    · by_cases hn : x = n
      · rw [hn, z.ops_n]; rfl
      · rw [z.ops_old (z.old hx) hn]; exact z.valid.tags x hx
    · rw [z.ops_new ha]; exact z.valid.tags a (z.live_mem ha)
  · intro x hx
    rcases z.cases2 hx with hx | ⟨a, ha, rfl⟩
    · have h1 := z.copied.old x (z.old hx)
      rw [h1.2.1, h1.2.2.1, z.outs_old e hx, z.emptied.outs]
      refine ⟨?_, (z.valid.ports x hx).2⟩
      by_cases hn : x = n
      · rw [hn, z.ops_n, z.emptied.ports, e]
        simp [Op.ports]
      · rw [z.ops_old (z.old hx) hn, z.emptied.ins x hn]; exact (z.valid.ports x hx).1
    · have h1 := z.copied.new a ha
      rw [h1.2.1, h1.2.2.1, z.ops_new ha, z.emptied.outs, z.emptied.ins a (fun e => z.n_out (e ▸ ha))]
      exact z.valid.ports a (z.live_mem ha)
  · intro x t hx hop
    rcases z.cases2 hx with hx | ⟨a, ha, rfl⟩
    · have hn : x ≠ n := by rintro rfl; rw [z.ops_n] at hop; cases hop
      rw [z.ops_old (z.old hx) hn] at hop
      exact z.valid.constants x t hx hop
    · rw [z.ops_new ha] at hop
      exact hconst a ha (z.valid.constants a t (z.live_mem ha) hop)
  · intro x decls hx hd
    rcases z.cases2 hx with hx | ⟨a, ha, rfl⟩
    · obtain ⟨h1, h2⟩ := z.valid.types x decls hx (z.v_decls hd hx)
      rw [z.outs_old e hx]
      refine ⟨?_, h2⟩
      by_cases hn : x = n
      · rw [hn, z.ops_n]; trivial
      · rw [z.ops_old (z.old hx) hn]; exact h1
    · have hdm := z.decls_mem ha
      rw [hsig] at hdm
      obtain ⟨h1, h2⟩ := z.valid.types a [] (z.live_mem ha) hdm
      rw [z.ops_new ha]
      exact ⟨argsOk_weaken h1, fun kind hk => kindOk_weaken (h2 kind hk)⟩

end CallAt

end Verif.Patch
