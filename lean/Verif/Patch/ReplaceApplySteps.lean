import Verif.Patch.ReplaceApplyLemmas
import Verif.Patch.ReplaceApplyTree

/-!
# The steps of applying a replacement
-/
namespace Verif.Patch

open Verif.Graph Verif.Ops Verif.Passes Verif.Validate Verif.Dataflow

variable {Meta : Type} {h h1 : Hugr Ops.Op Meta} {r : Replacement Meta} {p : Nat} {f : Nat → Nat} {R : List Nat}

theorem removedLoop_once : ∀ {fuel : Nat} {q T R : List Nat} {s : List Nat × List Nat},
    removedLoop h fuel q T R = .ok s → R.Nodup → s.1.Nodup
  | 0, _, _, _, _, e, _ => by simp [removedLoop] at e
  | _ + 1, [], _, _, _, e, hR => by
    simp only [removedLoop] at e
    cases e
    exact hR
  | fuel + 1, n :: q, T, R, s, e, hR => by
    simp only [removedLoop] at e
    by_cases hn : n ∈ R
    · rw [if_pos hn] at e; cases e
    rw [if_neg hn] at e
    by_cases hT : n ∈ T
    · rw [if_pos hT] at e
      exact removedLoop_once e (List.nodup_cons.2 ⟨hn, hR⟩)
    · rw [if_neg hT] at e
      exact removedLoop_once e (List.nodup_cons.2 ⟨hn, hR⟩)

theorem getRemoved_once (e : getRemoved h r = .ok R) : R.Nodup := by
  unfold getRemoved at e
  rw [Vet.andThen_ok] at e
  obtain ⟨⟨⟩, _, e⟩ := e
  rw [Vet.andThen_ok] at e
  obtain ⟨⟨⟩, _, e⟩ := e
  rw [Vet.andThen_ok] at e
  obtain ⟨⟨R1, T1⟩, e3, e⟩ := e
  rw [Vet.andThen_ok] at e
  obtain ⟨⟨⟩, _, e⟩ := e
  cases e
  exact removedLoop_once e3 List.nodup_nil

/-- The replacement is accepted and has been copied into the host. -/
structure Brings (h : Hugr Ops.Op Meta) (r : Replacement Meta) (p : Nat) (f : Nat → Nat) (R : List Nat)
    (h1 : Hugr Ops.Op Meta) : Prop where
  ht : IsTree h
  hl : LinksOk h
  hp : PortsFit h
  rt : IsTree r.replacement
  rp : PortsFit r.replacement
  wp : WellPosed h r
  nonempty : r.removal ≠ []
  sib : ∀ n ∈ r.removal, h.hier.parent n = some p
  mem : ∀ x, x ∈ R ↔ Removes h r x
  there : PortsThere h r
  differ : TargetsDiffer r
  inside : NodesInside r
  entry : EntryStays h r
  adopts : AdoptsSome h r
  t1 : IsTree h1
  fresh : ∀ x, Above r.replacement.hier.parent x r.replacement.entrypoint → h.live (f x) = false
  inj : ∀ x y, Above r.replacement.hier.parent x r.replacement.entrypoint →
    Above r.replacement.hier.parent y r.replacement.entrypoint → f x = f y → x = y
  live : ∀ n, h1.live n = true ↔ h.live n = true ∨
    ∃ x, Above r.replacement.hier.parent x r.replacement.entrypoint ∧ f x = n
  host : ∀ n, h.live n = true → h1.ops n = h.ops n ∧ h1.ins n = h.ins n ∧ h1.outs n = h.outs n ∧
    h1.metadata n = h.metadata n ∧ h1.hier.parent n = h.hier.parent n
  node : ∀ x, Above r.replacement.hier.parent x r.replacement.entrypoint → h1.ops (f x) = r.replacement.ops x ∧
    h1.ins (f x) = r.replacement.ins x ∧ h1.outs (f x) = r.replacement.outs x ∧
    h1.metadata (f x) = r.replacement.metadata x
  children : ∀ x, Above r.replacement.hier.parent x r.replacement.entrypoint →
    h1.hier.children (f x) = (r.replacement.hier.children x).map f
  links : h1.links.Perm (h.links ++ (r.replacement.links.filter fun l =>
    decide (l.src ∈ r.replacement.descendants r.replacement.entrypoint ∧
      l.dst ∈ r.replacement.descendants r.replacement.entrypoint)).map (Link.rename f))
  root_entry : h1.moduleRoot = h.moduleRoot ∧ h1.entrypoint = h.entrypoint

theorem Brings.desc (a : Brings h r p f R h1) (x : Nat) :
    x ∈ r.replacement.descendants r.replacement.entrypoint ↔
      Above r.replacement.hier.parent x r.replacement.entrypoint :=
  (descendants_enumerates a.rt a.rt.entry_live).mem x

theorem Brings.ne (a : Brings h r p f R h1) {n x : Nat} (hn : h.live n = true)
    (hx : Above r.replacement.hier.parent x r.replacement.entrypoint) : n ≠ f x := by
  rintro rfl
  rw [a.fresh x hx] at hn
  cases hn

theorem Brings.mem_links (a : Brings h r p f R h1) (l : Link) : l ∈ h1.links ↔ l ∈ h.links ∨
    ∃ k ∈ r.replacement.links, Above r.replacement.hier.parent k.src r.replacement.entrypoint ∧
      Above r.replacement.hier.parent k.dst r.replacement.entrypoint ∧ l = ⟨f k.src, k.srcPort, f k.dst, k.dstPort⟩ := by
  rw [a.links.mem_iff, List.mem_append, List.mem_map]
  apply or_congr Iff.rfl
  constructor
  · rintro ⟨k, hk, rfl⟩
    rw [List.mem_filter, decide_eq_true_iff] at hk
    exact ⟨k, hk.1, (a.desc _).1 hk.2.1, (a.desc _).1 hk.2.2, rfl⟩
  · rintro ⟨k, hk, h2, h3, rfl⟩
    exact ⟨k, List.mem_filter.2 ⟨hk, decide_eq_true ⟨(a.desc _).2 h2, (a.desc _).2 h3⟩⟩, rfl⟩

theorem Brings.live_host (a : Brings h r p f R h1) {n : Nat} (hn : h.live n = true) : h1.live n = true :=
  (a.live n).2 (.inl hn)

theorem Brings.live_node (a : Brings h r p f R h1) {x : Nat}
    (hx : Above r.replacement.hier.parent x r.replacement.entrypoint) : h1.live (f x) = true :=
  (a.live _).2 (.inr ⟨x, hx, rfl⟩)

theorem Brings.live_repl (a : Brings h r p f R h1) {x : Nat}
    (hx : Above r.replacement.hier.parent x r.replacement.entrypoint) : r.replacement.live x = true := by
  cases hx with
  | refl => exact a.rt.entry_live
  | step hp _ => exact (a.rt.parent_live _ _ hp).1

theorem Brings.portsFit (a : Brings h r p f R h1) : PortsFit h1 := by
  intro n hn
  rcases (a.live n).1 hn with hn | ⟨x, hx, rfl⟩
  · obtain ⟨e1, e2, e3, _⟩ := a.host n hn
    rw [e1, e2, e3]
    exact a.hp n hn
  · obtain ⟨e1, e2, e3, _⟩ := a.node x hx
    rw [e1, e2, e3]
    exact a.rp x (a.live_repl hx)

/-! ## Edges -/

theorem srcFits_copy {h h' : Hugr Ops.Op Meta} {e : NewEdge} {a b : Nat} (ho : h'.ops a = h.ops e.src) (hf : SrcFits h e) :
    SrcFits h' ⟨a, b, e.kind⟩ := by
  unfold SrcFits at hf ⊢
  simp only [] at hf ⊢
  rw [ho]
  exact hf

theorem tgtFits_copy {h h' : Hugr Ops.Op Meta} {e : NewEdge} {a b : Nat} (ho : h'.ops b = h.ops e.tgt) (hf : TgtFits h e) :
    TgtFits h' ⟨a, b, e.kind⟩ := by
  unfold TgtFits at hf ⊢
  simp only [] at hf ⊢
  rw [ho]
  exact hf

theorem there_copy {h h' : Hugr Ops.Op Meta} {e : NewEdge} {a b : Nat} (ho : h'.outs a = h.outs e.src) (hf : PortThere h e) :
    PortThere h' ⟨a, b, e.kind⟩ := by
  intro s hs
  have := hf s hs
  rw [← ho] at this
  exact this

theorem Brings.legal (a : Brings h r p f R h1) {e : NewEdge} (hlive : h.live e.tgt = true) (htp : TakesPlace h r e)
    {n port : Nat} (hi : e.into n port) : FromLegal h1 R h1.links n port := by
  have hx : ∃ l s, linksTo h n port = [l] ∧ s ∈ r.removal ∧ Above h.hier.parent l.src s := by
    unfold TakesPlace at htp
    obtain ⟨rfl, ⟨s, hk⟩ | ⟨s, hk⟩⟩ := hi <;> rw [hk] at htp <;> exact htp
  obtain ⟨l, s, h1', h2, h3⟩ := hx
  obtain ⟨rfl, _⟩ := hi
  refine ⟨l, ?_, ?_⟩
  · have hp := (a.links.filter fun l => decide (l.dst = e.tgt) && decide (l.dstPort = port))
    rw [List.filter_append] at hp
    have hnil : (((r.replacement.links.filter fun l =>
        decide (l.src ∈ r.replacement.descendants r.replacement.entrypoint ∧
          l.dst ∈ r.replacement.descendants r.replacement.entrypoint)).map (Link.rename f)).filter
        fun l => decide (l.dst = e.tgt) && decide (l.dstPort = port)) = [] := by
      rw [List.filter_eq_nil_iff]
      intro k hk
      rw [List.mem_map] at hk
      obtain ⟨k', hk', rfl⟩ := hk
      rw [List.mem_filter, decide_eq_true_iff] at hk'
      have := a.ne hlive ((a.desc _).1 hk'.2.2)
      have hne : ¬ (Link.rename f k').dst = e.tgt := fun e => this e.symm
      simp [hne]
    rw [hnil, List.append_nil] at hp
    have he : (h.links.filter fun l => decide (l.dst = e.tgt) && decide (l.dstPort = port)) = [l] := h1'
    rw [he] at hp
    exact List.perm_singleton.1 hp
  · have hls : l ∈ h.links := by
      have : l ∈ linksTo h e.tgt port := by rw [h1']; exact List.mem_singleton.2 rfl
      exact (List.mem_filter.1 this).1
    have up : ∀ {x y : Nat}, Above h.hier.parent x y → h.live x = true → Above h1.hier.parent x y := by
      intro x y hxy
      induction hxy with
      | refl => intro _; exact .refl _
      | step hp _ ih =>
        intro hx
        exact .step (by rw [(a.host _ hx).2.2.2.2]; exact hp) (ih (a.ht.parent_live _ _ hp).2)
    refine ⟨s, (a.mem s).2 ⟨⟨s, h2, .refl _⟩, ?_⟩, up h3 (a.hl l hls).1⟩
    intro v hv hne hav
    obtain ⟨⟨s', hs', hvs⟩, _⟩ := a.wp.adoptees v hv
    have := same_child a.ht (hav.trans hvs) (.refl _) (a.sib s' hs') (a.sib s h2)
    subst this
    exact hne (Above.antisymm a.ht.acyclic hav hvs)

theorem makes_ops {g g' : Hugr Ops.Op Meta} {e : NewEdge} {l : Link} (h1 : g'.ops e.src = g.ops e.src)
    (h2 : g'.ops e.tgt = g.ops e.tgt) : e.Makes g' l ↔ e.Makes g l := by
  unfold NewEdge.Makes
  rw [h1, h2]

/-- The edges are added. -/
theorem Brings.transfer (a : Brings h r p f R h1) {map : List (Nat × Nat)}
    (hmap : ∀ x, Above r.replacement.hier.parent x r.replacement.entrypoint → map.lookup x = some (f x)) :
    ∃ L1 L2 L3,
      vetEach (transferEdge .hostToRepl (fun n => if n ∈ R then none else some n) (fun n => map.lookup n) none) h1 r.muInp =
        .ok (withLinks h1 L1) ∧
      vetEach (transferEdge .replToHost (fun n => map.lookup n) (fun n => if n ∈ R then none else some n) (some R))
        (withLinks h1 L1) r.muOut = .ok (withLinks h1 L2) ∧
      vetEach (transferEdge .hostToHost (fun n => if n ∈ R then none else some n)
        (fun n => if n ∈ R then none else some n) (some R)) (withLinks h1 L2) r.muNew = .ok (withLinks h1 L3) ∧
      (∀ l ∈ L3, (l ∈ h1.links ∧ ∀ e ∈ r.muOut ++ r.muNew, ¬ e.into l.dst l.dstPort) ∨ ∃ e ∈ r.edges f, e.Makes h1 l) ∧
      (∀ l ∈ h1.links, (∀ e ∈ r.muOut ++ r.muNew, ¬ e.into l.dst l.dstPort) → l ∈ L3) ∧
      ∀ e ∈ r.edges f, ∃ l ∈ L3, e.Makes h1 l := by
  have kept : ∀ {n}, ¬ Removes h r n → (if n ∈ R then none else some n) = some (id n) := by
    intro n hn
    rw [if_neg (show ¬ n ∈ R from fun hR => hn ((a.mem n).1 hR))]
    rfl
  obtain ⟨th1, th2, th3⟩ := a.there
  obtain ⟨in1, in2, _⟩ := a.inside
  have dif := List.pairwise_append.1 a.differ
  have c1 : ∀ e ∈ r.muInp, (if e.src ∈ R then none else some e.src) = some (id e.src) ∧
      map.lookup e.tgt = some (f e.tgt) ∧ EdgeFits h1 ⟨id e.src, f e.tgt, e.kind⟩ := by
    intro e he
    obtain ⟨⟨e1, e2, e3⟩, e4, e5, e6⟩ := a.wp.inp e he
    have hu := in1 e he
    exact ⟨kept e2, hmap _ hu, a.live_host e1, a.live_node hu, srcFits_copy (a.host _ e1).1 e3,
      tgtFits_copy (a.node _ hu).1 e6, there_copy (a.host _ e1).2.2.1 (th1 e he)⟩
  have c2 : ∀ e ∈ r.muOut, map.lookup e.src = some (f e.src) ∧ (if e.tgt ∈ R then none else some e.tgt) = some (id e.tgt) ∧
      EdgeFits h1 ⟨f e.src, id e.tgt, e.kind⟩ := by
    intro e he
    obtain ⟨⟨e1, e2, e3⟩, e4, e5, e6, _⟩ := a.wp.out e he
    have hu := in2 e he
    exact ⟨hmap _ hu, kept e5, a.live_node hu, a.live_host e4, srcFits_copy (a.node _ hu).1 e3,
      tgtFits_copy (a.host _ e4).1 e6, there_copy (a.node _ hu).2.2.1 (th2 e he)⟩
  have c3 : ∀ e ∈ r.muNew, (if e.src ∈ R then none else some e.src) = some (id e.src) ∧
      (if e.tgt ∈ R then none else some e.tgt) = some (id e.tgt) ∧ EdgeFits h1 ⟨id e.src, id e.tgt, e.kind⟩ := by
    intro e he
    obtain ⟨⟨e1, e2, e3⟩, e4, e5, e6, _⟩ := a.wp.new e he
    exact ⟨kept e2, kept e5, a.live_host e1, a.live_host e4, srcFits_copy (a.host _ e1).1 e3,
      tgtFits_copy (a.host _ e4).1 e6, there_copy (a.host _ e1).2.2.1 (th3 e he)⟩
  have noInp : ∀ n port, h.live n = true → ∀ e ∈ r.muInp, ¬ NewEdge.into ⟨id e.src, f e.tgt, e.kind⟩ n port := by
    rintro n port hn e he ⟨hi, _⟩
    exact a.ne hn (in1 e he) hi.symm
  obtain ⟨L1, x1, y1, y2, _, y4, y5⟩ := edges_ok a.t1 a.portsFit (which := .hostToRepl) (legal := none) (σ := id) (τ := f)
    (ts := fun n => if n ∈ R then none else some n) (tt := fun n => map.lookup n) r.muInp h1.links c1 (by simp)
  obtain ⟨L2, x2, z1, z2, z3, z4, z5⟩ := edges_ok a.t1 a.portsFit (which := .replToHost) (legal := some R) (σ := f) (τ := id)
    (ts := fun n => map.lookup n) (tt := fun n => if n ∈ R then none else some n) r.muOut L1 c2 (by
      intro R' hR'
      cases hR'
      refine ⟨dif.1, fun e he n port hi => ?_⟩
      obtain ⟨_, e4, _, _, e7⟩ := a.wp.out e he
      have hi' : e.into n port := hi
      obtain ⟨l, q1, q2⟩ := a.legal e4 e7 hi'
      refine ⟨l, ?_, q2⟩
      rw [y5 n port (into_data (c2 e he).2.2.tgtFits hi) (noInp n port (hi'.1 ▸ e4))]
      exact q1)
  obtain ⟨L3, x3, w1, w2, w3, w4, w5⟩ := edges_ok a.t1 a.portsFit (which := .hostToHost) (legal := some R) (σ := id) (τ := id)
    (ts := fun n => if n ∈ R then none else some n) (tt := fun n => if n ∈ R then none else some n) r.muNew L2 c3 (by
      intro R' hR'
      cases hR'
      refine ⟨dif.2.1, fun e he n port hi => ?_⟩
      obtain ⟨_, e4, _, _, e7⟩ := a.wp.new e he
      have hi' : e.into n port := hi
      obtain ⟨l, q1, q2⟩ := a.legal e4 e7 hi'
      refine ⟨l, ?_, q2⟩
      rw [z5 n port (into_data (c3 e he).2.2.tgtFits hi) (fun e' he' hi'' => dif.2.2 e' he' e he n port hi'' hi'),
        y5 n port (into_data (c3 e he).2.2.tgtFits hi) (noInp n port (hi'.1 ▸ e4))]
      exact q1)
  have inpIn : ∀ e ∈ r.muInp, (⟨e.src, f e.tgt, e.kind⟩ : NewEdge) ∈ r.edges f := fun e he =>
    List.mem_append_left _ (List.mem_append_left _ (List.mem_map.2 ⟨e, he, rfl⟩))
  have outIn : ∀ e ∈ r.muOut, (⟨f e.src, e.tgt, e.kind⟩ : NewEdge) ∈ r.edges f := fun e he =>
    List.mem_append_left _ (List.mem_append_right _ (List.mem_map.2 ⟨e, he, rfl⟩))
  have newIn : ∀ e ∈ r.muNew, e ∈ r.edges f := fun e he => List.mem_append_right _ he
  refine ⟨L1, L2, L3, x1, x2, x3, ?_, ?_, ?_⟩
  · intro l hl
    by_cases hi : ∃ e ∈ r.muOut ++ r.muNew, e.into l.dst l.dstPort
    · obtain ⟨e, he, hi⟩ := hi
      rcases List.mem_append.1 he with he | he
      · rcases w1 l hl with hl2 | ⟨e', he', hm⟩
        · exact .inr ⟨_, outIn e he, z3 rfl e he l hl2 hi⟩
        · exact .inr ⟨_, newIn e' he', hm⟩
      · exact .inr ⟨_, newIn e he, w3 rfl e he l hl hi⟩
    · rcases w1 l hl with hl2 | ⟨e', he', hm⟩
      · rcases z1 l hl2 with hl1 | ⟨e', he', hm⟩
        · rcases y1 l hl1 with hl0 | ⟨e', he', hm⟩
          · exact .inl ⟨hl0, fun e he hi' => hi ⟨e, he, hi'⟩⟩
          · exact .inr ⟨_, inpIn e' he', hm⟩
        · exact .inr ⟨_, outIn e' he', hm⟩
      · exact .inr ⟨_, newIn e' he', hm⟩
  · intro l hl hn
    exact w2 l (z2 l (y2 l hl (by simp)) fun _ e he => hn e (List.mem_append_left _ he)) fun _ e he =>
      hn e (List.mem_append_right _ he)
  · intro e he
    unfold Replacement.edges at he
    rcases List.mem_append.1 he with he | he
    · rcases List.mem_append.1 he with he | he
      · obtain ⟨e, hm0, rfl⟩ := List.mem_map.1 he
        obtain ⟨l, hl, hm⟩ := y4 e hm0
        refine ⟨l, ?_, hm⟩
        have hd : l.dst = f e.tgt := hm.2.1
        refine w2 l (z2 l hl fun _ e' he' hi => ?_) fun _ e' he' hi => ?_
        · exact a.ne (a.wp.out e' he').2.1 (in1 e hm0) (hi.1.trans hd)
        · exact a.ne (a.wp.new e' he').2.1 (in1 e hm0) (hi.1.trans hd)
      · obtain ⟨e, hm0, rfl⟩ := List.mem_map.1 he
        obtain ⟨l, hl, hm⟩ := z4 e hm0
        refine ⟨l, ?_, hm⟩
        refine w2 l hl fun _ e' he' hi => ?_
        have hd : DataPort h1 l.dst l.dstPort := into_data (c3 e' he').2.2.tgtFits hi
        exact dif.2.2 e hm0 e' he' _ _ (makes_into (c2 e hm0).2.2.tgtFits hm hd) hi
    · exact w4 e he

/-! ## Nodes -/

theorem withLinks_tree {L : List Link} (ht : IsTree h) : IsTree (withLinks h L) :=
  ⟨ht.1, ht.2, ht.3, ht.4, ht.5, ht.6, ht.7, ht.8, ht.9⟩

theorem Brings.p_live (a : Brings h r p f R h1) : h.live p = true := by
  obtain ⟨s, hs⟩ := List.exists_mem_of_ne_nil _ a.nonempty
  exact (a.ht.parent_live _ _ (a.sib s hs)).2

theorem Brings.p_above (a : Brings h r p f R h1) {s : Nat} (hs : s ∈ r.removal) : ¬ Above h.hier.parent p s :=
  a.ht.acyclic s p (a.sib s hs)

theorem Brings.p_stays (a : Brings h r p f R h1) : ¬ Removes h r p := by
  rintro ⟨⟨s, hs, hp⟩, _⟩
  exact a.p_above hs hp

theorem Brings.removal (a : Brings h r p f R h1) {s : Nat} (hs : s ∈ r.removal) : Removes h r s := by
  refine ⟨⟨s, hs, .refl _⟩, ?_⟩
  intro v hv hne hav
  obtain ⟨⟨s', hs', hvs⟩, _⟩ := a.wp.adoptees v hv
  have := same_child a.ht (hav.trans hvs) (.refl _) (a.sib s' hs') (a.sib s hs)
  subst this
  exact hne (Above.antisymm a.ht.acyclic hav hvs)

theorem Brings.live_removed (a : Brings h r p f R h1) {n : Nat} (hn : Removes h r n) : h.live n = true := by
  obtain ⟨⟨s, hs, hns⟩, _⟩ := hn
  cases hns with
  | refl => exact (a.ht.parent_live _ _ (a.sib _ hs)).1
  | step hp _ => exact (a.ht.parent_live _ _ hp).1

/-- The new nodes have been placed and the root of the copy has been removed. -/
structure Placed (h : Hugr Ops.Op Meta) (r : Replacement Meta) (p : Nat) (f : Nat → Nat) (h1 : Hugr Ops.Op Meta)
    (L : List Link) (g : Hugr Ops.Op Meta) : Prop where
  tree : IsTree g
  live : ∀ n, g.live n = true ↔ h.live n = true ∨ ∃ x, Brought r x ∧ f x = n
  host : ∀ n, h.live n = true → g.hier.parent n = h.hier.parent n
  top : ∀ x, r.replacement.hier.parent x = some r.replacement.entrypoint → g.hier.parent (f x) = some p
  inner : ∀ x q, Brought r q → r.replacement.hier.parent x = some q → g.hier.parent (f x) = some (f q)
  ops : ∀ n, n ≠ f r.replacement.entrypoint → g.ops n = h1.ops n
  ports : g.ins = h1.ins ∧ g.outs = h1.outs ∧ g.metadata = h1.metadata
  root_entry : g.moduleRoot = h.moduleRoot ∧ g.entrypoint = h.entrypoint
  links : ∀ l, l ∈ g.links ↔ l ∈ L ∧ l.src ≠ f r.replacement.entrypoint ∧ l.dst ≠ f r.replacement.entrypoint

theorem Brings.place (a : Brings h r p f R h1) (L : List Link) : ∃ h5 h6,
    placeNew p (withLinks h1 L) ((withLinks h1 L).children (f r.replacement.entrypoint)) r.removal = some h5 ∧
    h5.children (f r.replacement.entrypoint) = [] ∧
    h5.removeNode opsInfo.toOpInfo (f r.replacement.entrypoint) = some h6 ∧ Placed h r p f h1 L h6 := by
  have t4 : IsTree (withLinks h1 L) := withLinks_tree a.t1
  have top : Above r.replacement.hier.parent r.replacement.entrypoint r.replacement.entrypoint := .refl _
  have cs : ∀ n, n ∈ (withLinks h1 L).children (f r.replacement.entrypoint) ↔
      ∃ c, r.replacement.hier.parent c = some r.replacement.entrypoint ∧ f c = n := by
    intro n
    rw [show (withLinks h1 L).children (f r.replacement.entrypoint) = h1.hier.children (f r.replacement.entrypoint) from rfl,
      a.children _ top, List.mem_map]
    simp only [a.rt.child_iff]
  have below : ∀ {c q}, Above r.replacement.hier.parent q r.replacement.entrypoint → r.replacement.hier.parent c = some q →
      Above r.replacement.hier.parent c r.replacement.entrypoint := fun h1 h2 => .step h2 h1
  obtain ⟨h5, e5, r5⟩ := placeNew_ok (A := fun n => h.live n = true) a.p_live
    ((withLinks h1 L).children (f r.replacement.entrypoint)) r.removal (withLinks h1 L) t4 (by
      intro x q hx hq
      rw [show (withLinks h1 L).hier.parent x = h1.hier.parent x from rfl, (a.host x hx).2.2.2.2] at hq
      exact (a.ht.parent_live _ _ hq).2) (a.live_host a.p_live) (by
      intro n hn
      obtain ⟨c, hc, rfl⟩ := (cs n).1 hn
      have hb := below top hc
      refine ⟨a.live_node hb, ?_, by rw [a.fresh c hb]; simp⟩
      rw [show (withLinks h1 L).entrypoint = h1.entrypoint from rfl, a.root_entry.2]
      exact (a.ne a.ht.entry_live hb).symm) (by
      intro s hs
      have sl := (a.ht.parent_live _ _ (a.sib s hs)).1
      refine ⟨by rw [show (withLinks h1 L).hier.parent s = h1.hier.parent s from rfl, (a.host s sl).2.2.2.2]; exact a.sib s hs, ?_, ?_⟩
      · rw [show (withLinks h1 L).entrypoint = h1.entrypoint from rfl, a.root_entry.2]
        rintro rfl
        exact a.entry (a.removal hs)
      · intro hn
        obtain ⟨c, hc, e⟩ := (cs s).1 hn
        exact a.ne sl (below top hc) e.symm)
  have hnone : h5.children (f r.replacement.entrypoint) = [] := by
    apply List.eq_nil_iff_forall_not_mem.2
    intro c hc
    have hc' : h5.hier.parent c = some (f r.replacement.entrypoint) := (r5.tree.child_iff _ _).1 hc
    rw [r5.parent] at hc'
    by_cases hm : c ∈ (withLinks h1 L).children (f r.replacement.entrypoint)
    · rw [if_pos hm] at hc'
      exact a.ne a.p_live top (Option.some.inj hc')
    · rw [if_neg hm] at hc'
      exact hm ((t4.child_iff _ _).2 hc')
  have l5 : h5.live = h1.live := r5.live
  have en5 : h5.entrypoint = h.entrypoint := r5.entry.trans a.root_entry.2
  have ro5 : h5.moduleRoot = h.moduleRoot := by rw [r5.rest]; exact a.root_entry.1
  obtain ⟨h6, e6, w6⟩ := removeOne_ok (n := f r.replacement.entrypoint) r5.tree.ok (by rw [l5]; exact a.live_node top)
    (by rw [en5]; exact (a.ne a.ht.entry_live top).symm)
  obtain ⟨t6, p6⟩ := w6.tree r5.tree (by rw [ro5, List.mem_singleton]; exact a.ne a.ht.root_live top)
    (by rw [en5, List.mem_singleton]; exact a.ne a.ht.entry_live top) (by
      intro x q hq hm
      rw [List.mem_singleton] at hm
      subst hm
      have := (r5.tree.child_iff _ _).2 hq
      rw [show h5.hier.children (f r.replacement.entrypoint) = [] from hnone] at this
      cases this)
  have up : ∀ x q, Above r.replacement.hier.parent q r.replacement.entrypoint → r.replacement.hier.parent x = some q →
      h1.hier.parent (f x) = some (f q) := by
    intro x q hq hx
    rw [← a.t1.child_iff, a.children q hq]
    exact List.mem_map.2 ⟨x, (a.rt.child_iff _ _).2 hx, rfl⟩
  have neTop : ∀ x q, Above r.replacement.hier.parent q r.replacement.entrypoint → r.replacement.hier.parent x = some q →
      f x ∉ [f r.replacement.entrypoint] := by
    intro x q hq hx hm
    rw [List.mem_singleton] at hm
    have := a.inj _ _ (below hq hx) top hm
    subst this
    exact a.rt.acyclic _ _ hx hq
  refine ⟨h5, h6, e5, hnone, e6, t6, ?_, ?_, ?_, ?_, ?_, ?_, ?_, ?_⟩
  · intro n
    rw [w6.live, l5, a.live, List.mem_singleton]
    constructor
    · rintro ⟨h2 | ⟨x, hx, rfl⟩, h3⟩
      · exact .inl h2
      · exact .inr ⟨x, ⟨hx, fun e => h3 (by rw [e])⟩, rfl⟩
    · rintro (h2 | ⟨x, ⟨hx, hx'⟩, rfl⟩)
      · exact ⟨.inl h2, a.ne h2 top⟩
      · exact ⟨.inr ⟨x, hx, rfl⟩, fun e => hx' (a.inj _ _ hx top e)⟩
  · intro n hn
    have h2 : n ∉ [f r.replacement.entrypoint] := by rw [List.mem_singleton]; exact a.ne hn top
    have h3 : n ∉ (withLinks h1 L).children (f r.replacement.entrypoint) := by
      intro hm
      obtain ⟨c, hc, e⟩ := (cs n).1 hm
      exact a.ne hn (below top hc) e.symm
    rw [p6, if_neg h2, r5.parent, if_neg h3]
    exact (a.host n hn).2.2.2.2
  · intro x hx
    rw [p6, if_neg (neTop x _ top hx), r5.parent, if_pos ((cs _).2 ⟨x, hx, rfl⟩)]
  · intro x q hq hx
    have h3 : f x ∉ (withLinks h1 L).children (f r.replacement.entrypoint) := by
      intro hm
      obtain ⟨c, hc, e⟩ := (cs _).1 hm
      have := a.inj _ _ (below top hc) (below hq.1 hx) e
      subst this
      rw [hx] at hc
      exact hq.2 (Option.some.inj hc)
    rw [p6, if_neg (neTop x q hq.1 hx), r5.parent, if_neg h3]
    exact up x q hq.1 hx
  · intro n hn
    rw [w6.node n (by rw [List.mem_singleton]; exact hn), r5.rest]
    rfl
  · obtain ⟨b1, b2, _, b4⟩ := w6.ports
    rw [b1, b2, b4, r5.rest]
    exact ⟨rfl, rfl, rfl⟩
  · rw [w6.root_entry.1, w6.root_entry.2]
    exact ⟨ro5, en5⟩
  · intro l
    rw [w6.links, List.mem_singleton, List.mem_singleton, r5.rest]
    rfl

/-- The adoptions are done and the nodes are removed. -/
theorem Brings.finish (a : Brings h r p f R h1) {L : List Link} {h6 : Hugr Ops.Op Meta} (b : Placed h r p f h1 L h6)
    {map : List (Nat × Nat)}
    (hmap : ∀ x, Above r.replacement.hier.parent x r.replacement.entrypoint → map.lookup x = some (f x))
    {D : List Nat} (hD : D.Nodup) (hDR : ∀ x, x ∈ D ↔ x ∈ R) : ∃ h7 g,
    each (adopt map) h6 r.adoptions = some h7 ∧ each (fun g n => g.removeNode opsInfo.toOpInfo n) h7 D = some g ∧
    IsTree g ∧ (∀ n, g.live n = true ↔ (h.live n = true ∧ ¬ Removes h r n) ∨ ∃ x, Brought r x ∧ f x = n) ∧
    (∀ n, h.live n = true → ¬ Removes h r n → (∀ v ∈ r.adopted, h.hier.parent n ≠ some v) →
      g.hier.parent n = h.hier.parent n) ∧
    (∀ a ∈ r.adoptions, ∀ n, h.hier.parent n = some a.2 → g.hier.parent n = some (f a.1)) ∧
    (∀ x, r.replacement.hier.parent x = some r.replacement.entrypoint → g.hier.parent (f x) = some p) ∧
    (∀ x q, Brought r q → r.replacement.hier.parent x = some q → g.hier.parent (f x) = some (f q)) ∧
    (∀ n, ¬ Removes h r n → g.ops n = h6.ops n) ∧ (g.ins = h6.ins ∧ g.outs = h6.outs ∧ g.metadata = h6.metadata) ∧
    (g.moduleRoot = h.moduleRoot ∧ g.entrypoint = h.entrypoint) ∧
    ∀ l, l ∈ g.links ↔ l ∈ h6.links ∧ ¬ Removes h r l.src ∧ ¬ Removes h r l.dst := by
  have hD' : ∀ x, x ∈ D ↔ Removes h r x := fun x => (hDR x).trans (a.mem x)
  have adl : ∀ b ∈ r.adoptions, b.2 ∈ r.adopted := fun b hb => List.mem_map.2 ⟨b, hb, rfl⟩
  have vlive : ∀ v ∈ r.adopted, h.live v = true := by
    intro v hv
    obtain ⟨⟨s, hs, hvs⟩, _⟩ := a.wp.adoptees v hv
    cases hvs with
    | refl => exact (a.ht.parent_live _ _ (a.sib _ hs)).1
    | step hp _ => exact (a.ht.parent_live _ _ hp).1
  have brp : ∀ x, Brought r x → ∃ q, r.replacement.hier.parent x = some q ∧
      (q = r.replacement.entrypoint ∨ Brought r q) := by
    rintro x ⟨hx, hne⟩
    cases hx with
    | refl => exact absurd rfl hne
    | step hp hq =>
      rename_i q
      refine ⟨q, hp, ?_⟩
      by_cases he : q = r.replacement.entrypoint
      · exact .inl he
      · exact .inr ⟨hq, he⟩
  have parOf : ∀ x, Brought r x → (r.replacement.hier.parent x = some r.replacement.entrypoint ∧ h6.hier.parent (f x) = some p) ∨
      ∃ q, Brought r q ∧ r.replacement.hier.parent x = some q ∧ h6.hier.parent (f x) = some (f q) := by
    intro x hx
    obtain ⟨q, hq, rfl | hb⟩ := brp x hx
    · exact .inl ⟨hq, b.top x hq⟩
    · exact .inr ⟨q, hb, hq, b.inner x q hb hq⟩
  -- a copy is not in an adopted node, and not in a removed one
  have notIn : ∀ x, Brought r x → ∀ v, h.live v = true → (∃ s ∈ r.removal, Above h.hier.parent v s) →
      h6.hier.parent (f x) ≠ some v := by
    rintro x hx v hv ⟨s, hs, hvs⟩ e
    rcases parOf x hx with ⟨_, e'⟩ | ⟨q, hb, _, e'⟩
    · rw [e'] at e
      cases e
      exact a.p_above hs hvs
    · rw [e'] at e
      exact a.ne hv hb.1 (Option.some.inj e).symm
  obtain ⟨h7, e7, par, r7, q1, q2⟩ := adopts_ok (map := map) (f := f)
    (A := fun n => (h.live n = true ∧ ¬ ∃ s ∈ r.removal, Above h.hier.parent n s) ∨ ∃ x, Brought r x ∧ f x = n)
    r.adoptions h6 b.tree (by
      rintro n q (⟨hn, hs⟩ | ⟨x, hx, rfl⟩) hq
      · rw [b.host n hn] at hq
        refine .inl ⟨(a.ht.parent_live _ _ hq).2, ?_⟩
        rintro ⟨s, hs', hqs⟩
        exact hs ⟨s, hs', .step hq hqs⟩
      · rcases parOf x hx with ⟨_, e'⟩ | ⟨q', hb, _, e'⟩
        · rw [e'] at hq
          cases hq
          refine .inl ⟨a.p_live, ?_⟩
          rintro ⟨s, hs, hps⟩
          exact a.p_above hs hps
        · rw [e'] at hq
          cases hq
          exact .inr ⟨q', hb, rfl⟩) a.wp.adoptedOnce (by
      intro d hd
      have hin := a.inside.2.2 d hd
      have hv := adl d hd
      obtain ⟨hvs, _⟩ := a.wp.adoptees d.2 hv
      refine ⟨hmap _ hin.1, (b.live _).2 (.inr ⟨_, hin, rfl⟩), .inr ⟨_, hin, rfl⟩, ?_, ?_, ?_⟩
      · obtain ⟨c, hc⟩ := List.exists_mem_of_ne_nil _ (a.adopts d.2 hv)
        have hc' := (a.ht.child_iff _ _).1 hc
        have : c ∈ h6.children d.2 := (b.tree.child_iff _ _).2 (by rw [b.host c (a.ht.parent_live _ _ hc').1]; exact hc')
        intro e
        rw [e] at this
        cases this
      · intro c hc
        rintro (⟨hcl, hs⟩ | ⟨x, hx, rfl⟩)
        · rw [b.host c hcl] at hc
          obtain ⟨s, hs', hvs⟩ := hvs
          exact hs ⟨s, hs', .step hc hvs⟩
        · exact notIn x hx d.2 (vlive _ hv) hvs hc
      · intro d' hd' e
        exact a.ne (vlive _ (adl d' hd')) hin.1 e.symm)
  have l7 : h7.live = h6.live := r7.live
  have innerPar : ∀ x, Brought r x → h7.hier.parent (f x) = h6.hier.parent (f x) := by
    intro x hx
    rw [r7.parent, q2]
    intro d hd
    exact notIn x hx d.2 (vlive _ (adl d hd)) (a.wp.adoptees d.2 (adl d hd)).1
  have hostPar : ∀ n, h.live n = true → (∀ v ∈ r.adopted, h.hier.parent n ≠ some v) →
      h7.hier.parent n = h.hier.parent n := by
    intro n hn hv
    rw [r7.parent, q2 n, b.host n hn]
    intro d hd
    rw [b.host n hn]
    exact hv _ (adl d hd)
  have adPar : ∀ d ∈ r.adoptions, ∀ n, h.hier.parent n = some d.2 → h7.hier.parent n = some (f d.1) := by
    intro d hd n hn
    rw [r7.parent, q1 d hd n (by rw [b.host n (a.ht.parent_live _ _ hn).1]; exact hn)]
  obtain ⟨g, e8, w8⟩ := removeAll_ok D h7 r7.tree.ok hD (by
    intro n hn
    have hr := (hD' n).1 hn
    refine ⟨by rw [l7]; exact (b.live n).2 (.inl (a.live_removed hr)), ?_⟩
    rw [r7.entry, b.root_entry.2]
    rintro rfl
    exact a.entry hr)
  have ro7 : h7.moduleRoot = h.moduleRoot := by rw [r7.rest]; exact b.root_entry.1
  have en7 : h7.entrypoint = h.entrypoint := r7.entry.trans b.root_entry.2
  obtain ⟨t8, p8⟩ := w8.tree r7.tree (by
      rw [ro7, hD']
      rintro ⟨⟨s, hs, hrs⟩, _⟩
      have hsp := a.sib s hs
      cases hrs with
      | refl => rw [a.ht.root_top] at hsp; cases hsp
      | step hp _ => rw [a.ht.root_top] at hp; cases hp)
    (by rw [en7, hD']; exact a.entry) (by
      intro x q hq hqD
      have hqr := (hD' q).1 hqD
      rw [hD']
      have hql := a.live_removed hqr
      have hxl := (r7.tree.parent_live _ _ hq).1
      rw [l7] at hxl
      rcases (b.live x).1 hxl with hx | ⟨y, hy, rfl⟩
      · by_cases hv : ∃ v ∈ r.adopted, h.hier.parent x = some v
        · obtain ⟨v, hv, hxv⟩ := hv
          obtain ⟨d, hd, rfl⟩ := List.mem_map.1 hv
          rw [adPar d hd x hxv] at hq
          exact absurd (Option.some.inj hq).symm (a.ne hql (a.inside.2.2 d hd).1)
        · have hnv : ∀ v ∈ r.adopted, h.hier.parent x ≠ some v := fun v hv' e => hv ⟨v, hv', e⟩
          rw [hostPar x hx hnv] at hq
          obtain ⟨⟨s, hs, hqs⟩, hno⟩ := hqr
          refine ⟨⟨s, hs, .step hq hqs⟩, fun v hv' hne hxv => ?_⟩
          cases hxv with
          | refl => exact hne rfl
          | step hp hqv =>
            rw [hq] at hp
            cases hp
            by_cases hqe : q = v
            · subst hqe
              exact hnv q hv' hq
            · exact hno v hv' hqe hqv
      · rw [innerPar y hy] at hq
        exact absurd hq (notIn y hy q hql hqr.1))
  have copyStays : ∀ x, Brought r x → ¬ Removes h r (f x) := by
    intro x hx hr
    exact a.ne (a.live_removed hr) hx.1 rfl
  have brought : ∀ x q, Above r.replacement.hier.parent q r.replacement.entrypoint → r.replacement.hier.parent x = some q →
      Brought r x := by
    intro x q hq hx
    refine ⟨.step hx hq, ?_⟩
    rintro rfl
    exact a.rt.acyclic _ _ hx hq
  refine ⟨h7, g, e7, e8, t8, ?_, ?_, ?_, ?_, ?_, ?_, ?_, ?_, ?_⟩
  · intro n
    rw [w8.live, l7, b.live, hD']
    constructor
    · rintro ⟨h2 | h2, h3⟩
      · exact .inl ⟨h2, h3⟩
      · exact .inr h2
    · rintro (⟨h2, h3⟩ | ⟨x, hx, rfl⟩)
      · exact ⟨.inl h2, h3⟩
      · exact ⟨.inr ⟨x, hx, rfl⟩, copyStays x hx⟩
  · intro n hn hr hv
    rw [p8, if_neg (fun hd => hr ((hD' n).1 hd))]
    exact hostPar n hn hv
  · intro d hd n hn
    have hnr : n ∉ D := by
      rw [hD']
      intro hr
      refine hr.2 d.2 (adl d hd) ?_ (.step hn (.refl _))
      rintro rfl
      exact a.ht.acyclic _ _ hn (.refl _)
    rw [p8, if_neg hnr]
    exact adPar d hd n hn
  · intro x hx
    have hb := brought x _ (.refl _) hx
    have hnr : f x ∉ D := by rw [hD']; exact copyStays x hb
    rw [p8, if_neg hnr, innerPar x hb]
    exact b.top x hx
  · intro x q hq hx
    have hb := brought x _ hq.1 hx
    have hnr : f x ∉ D := by rw [hD']; exact copyStays x hb
    rw [p8, if_neg hnr, innerPar x hb]
    exact b.inner x q hq hx
  · intro n hn
    rw [w8.node n (by rw [hD']; exact hn), r7.rest]
  · obtain ⟨b1, b2, _, b4⟩ := w8.ports
    rw [b1, b2, b4, r7.rest]
    exact ⟨rfl, rfl, rfl⟩
  · rw [w8.root_entry.1, w8.root_entry.2]
    exact ⟨ro7, en7⟩
  · intro l
    rw [w8.links, hD', hD', r7.rest]

end Verif.Patch
