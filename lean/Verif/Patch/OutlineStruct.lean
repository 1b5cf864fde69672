import Verif.Patch.OutlineAt

/-!
# Outlining blocks gives the specified Hugr: the steps
-/
namespace Verif.Patch

open Verif.Graph Verif.Ops Verif.Passes Verif.Validate

variable {Meta : Type} {C : Validate.Context} {h g : Hugr Ops.Op Meta}

/-! ## Moving down -/

/-- Nodes above a node that was not moved and is not below what was moved are the same. -/
theorem above_keep {f f' : Nat → Option Nat} {c : Nat} (hf : ∀ x, x ≠ c → f' x = f x) {p x : Nat}
    (ha : Above f' p x) (hn : ¬ Above f p c) : Above f p x := by
  induction ha with
  | refl => exact .refl _
  | @step n q m hp _ ih =>
    have hnc : n ≠ c := by rintro rfl; exact hn (.refl _)
    rw [hf n hnc] at hp
    exact .step hp (ih fun ha => hn (.step hp ha))

theorem moveDown {p : Nat} : ∀ (cs : List Nat) (h : Hugr Ops.Op Meta), IsTree h → h.live p = true → cs.Nodup →
    (∀ c ∈ cs, h.live c = true ∧ ¬ Above h.hier.parent p c ∧ c ∉ h.hier.children p) →
    ∃ g, each (fun g c => g.setParent c p) h cs = some g ∧ IsTree g ∧
      (∀ m, g.hier.parent m = if m ∈ cs then some p else h.hier.parent m) ∧
      g.hier.children p = h.hier.children p ++ cs ∧
      (∀ m, m ≠ p → g.hier.children m = (h.hier.children m).filter (· ∉ cs)) ∧
      g = { h with hier := g.hier }
  | [], h, ht, _, _, _ => ⟨h, rfl, ht, by simp, by simp, by simp, rfl⟩
  | c :: cs, h, ht, hp, hn, hc => by
    rw [List.nodup_cons] at hn
    obtain ⟨c1, c2, c3⟩ := hc c (by simp)
    obtain ⟨hiff, hmove⟩ := C20_set_parent h ht c p
    obtain ⟨h1, hs⟩ := hiff.2 ⟨c1, hp, c2⟩
    obtain ⟨ht1, hm⟩ := hmove h1 hs
    have hlive : h1.live = h.live := by rw [hm.rest]
    have hch : h1.hier.children p = h.hier.children p ++ [c] := by
      rw [hm.target]
      congr 1
      rw [List.filter_eq_self]
      intro x hx
      simp only [ne_eq, decide_not, Bool.not_eq_eq_eq_not, Bool.not_true, decide_eq_false_iff_not]
      rintro rfl
      exact c3 hx
    obtain ⟨g, e1, e2, e3, e4, e5, e6⟩ := moveDown cs h1 ht1 (by rw [hlive]; exact hp) hn.2 fun x hx => by
      obtain ⟨x1, x2, x3⟩ := hc x (by simp [hx])
      refine ⟨by rw [hlive]; exact x1, fun ha => x2 (above_keep (c := c) (fun y hy => ?_) ha c2), ?_⟩
      · rw [hm.parent, if_neg hy]
      · rw [hch, List.mem_append, List.mem_singleton]
        rintro (hx' | rfl)
        · exact x3 hx'
        · exact hn.1 hx
    refine ⟨g, ?_, e2, ?_, ?_, ?_, ?_⟩
    · simp only [each, hs]; exact e1
    · intro m
      rw [e3, hm.parent]
      by_cases h1 : m ∈ cs <;> by_cases h2 : m = c <;> simp [h1, h2]
    · rw [e4, hch, List.append_assoc]; rfl
    · intro m hmp
      rw [e5 m hmp, hm.others m hmp, List.filter_filter]
      apply List.filter_congr
      intro x _
      by_cases h1 : x ∈ cs <;> by_cases h2 : x = c <;> simp [h1, h2]
    · rw [e6, hm.rest]

/-! ## The new block -/

/-- The new nodes are different and new. -/
def OutlineNew.Fresh (N : OutlineNew) (h : Hugr Ops.Op Meta) : Prop := N.news.Nodup ∧ ∀ x ∈ N.news, h.live x = false

theorem OutlineNew.nodes_fst (N : OutlineNew) (G : Nat) (ins outs : List Types.Ty) :
    (N.nodes G ins outs).map Prod.fst = N.news := rfl

theorem OutlineNew.Fresh.ne {N : OutlineNew} (hf : N.Fresh h) {x : Nat} (hx : h.live x = true) : x ∉ N.news := by
  intro hm; rw [hf.2 x hm] at hx; cases hx

theorem link_ends (ht : IsTree h) (hv : Valid C h) {l : Link} (hl : l ∈ h.links) :
    CanStart h l.src l.srcPort ∧ CanEnd h l.dst l.dstPort := by
  obtain ⟨kind, h1, h2, p, hp, he⟩ := hv.kinds l hl
  have hs : h.live l.src = true := (ht.parent_live _ _ hp).1
  have hd : h.live l.dst = true := by
    rcases he with he | ⟨q, _, he, _⟩ <;> exact (ht.parent_live _ _ he).1
  refine ⟨⟨hs, ?_⟩, hd, ?_⟩
  · rw [(hv.ports _ hs).2]; exact (List.getElem?_eq_some_iff.1 h1).1
  · rw [(hv.ports _ hd).1]; exact (List.getElem?_eq_some_iff.1 h2).1

/-- What is there when the new block is added. -/
structure WithBlock (h : Hugr Ops.Op Meta) (G : Nat) (ins outs : List Types.Ty) (N : OutlineNew) (g : Hugr Ops.Op Meta) :
    Prop where
  tree : IsTree g
  live : ∀ x, g.live x = true ↔ h.live x = true ∨ x ∈ N.news
  new : ∀ e ∈ N.nodes G ins outs, g.ops e.1 = e.2.2 ∧ g.ins e.1 = opsInfo.inputs e.2.2 ∧ g.outs e.1 = opsInfo.outputs e.2.2 ∧
    g.hier.parent e.1 = some e.2.1
  old : ∀ x, x ∉ N.news → g.ops x = h.ops x ∧ g.ins x = h.ins x ∧ g.outs x = h.outs x ∧ g.hier.parent x = h.hier.parent x
  children : ∀ p, g.children p = h.children p ++ ((N.nodes G ins outs).filter fun e => e.2.1 = p).map Prod.fst
  links : g.links = h.links ++ N.wires ins.length outs.length
  metadata : g.metadata = h.metadata
  moduleRoot : g.moduleRoot = h.moduleRoot
  entrypoint : g.entrypoint = h.entrypoint

theorem addBlock_eq {G : Nat} {ins outs : List Types.Ty} {N : OutlineNew} (ht : IsTree h) (hf : N.Fresh h)
    (hG : h.live G = true) : ∃ g, addBlock h G ins outs N = some g ∧ WithBlock h G ins outs N g := by
  obtain ⟨g, g1, g2, g3, g4, g5, g6, g7, g8, g9, g10⟩ := addNodes_eq (N.nodes G ins outs) h ht hf.1
    (fun e he => hf.2 e.1 (List.mem_map_of_mem (f := Prod.fst) he))
    (by
      intro k e hk
      have hlt := (List.getElem?_eq_some_iff.1 hk).1
      have : k < 7 := hlt
      rcases k with _ | _ | _ | _ | _ | _ | _ | k
      · cases hk; simp [hG]
      · cases hk; simp [OutlineNew.nodes]
      · cases hk; simp [OutlineNew.nodes]
      · cases hk; simp [OutlineNew.nodes]
      · cases hk; simp [OutlineNew.nodes]
      · cases hk; simp [OutlineNew.nodes]
      · cases hk; simp [OutlineNew.nodes]
      · omega)
  have hl : ∀ x ∈ N.news, g.live x = true := fun x hx => (g3 x).2 (.inr hx)
  have hc := Graph.connectAll_ok (N.wires ins.length outs.length) g (by
    have n1 := g4 (N.inp, N.block, .input ins) (by simp [OutlineNew.nodes])
    have n2 := g4 (N.out, N.block, .output (sumOf [[]] :: outs)) (by simp [OutlineNew.nodes])
    have n3 := g4 (N.cfg, N.block, .cfg ⟨ins, outs⟩) (by simp [OutlineNew.nodes])
    have n4 := g4 (N.const, N.block, .const (sumOf [[]])) (by simp [OutlineNew.nodes])
    have n5 := g4 (N.load, N.block, .loadConstant (sumOf [[]])) (by simp [OutlineNew.nodes])
    intro l hl'
    simp only [OutlineNew.wires, straight, List.mem_append, List.mem_map, List.mem_range, List.mem_cons,
      List.not_mem_nil, or_false] at hl'
    rcases hl' with (⟨p, hp, rfl⟩ | rfl | rfl) | ⟨p, hp, rfl⟩
    · refine ⟨hl _ (by simp [OutlineNew.news]), ?_, hl _ (by simp [OutlineNew.news]), ?_⟩
      · rw [n1.2.2.1, Builder.outputs_eq rfl]; simp [Op.ports]; omega
      · rw [n3.2.1, Builder.inputs_eq rfl]; simp [Op.ports]; omega
    · refine ⟨hl _ (by simp [OutlineNew.news]), ?_, hl _ (by simp [OutlineNew.news]), ?_⟩
      · rw [n4.2.2.1, Builder.outputs_eq rfl]; simp [Op.ports]
      · rw [n5.2.1, Builder.inputs_eq rfl]; simp [Op.ports]
    · refine ⟨hl _ (by simp [OutlineNew.news]), ?_, hl _ (by simp [OutlineNew.news]), ?_⟩
      · rw [n5.2.2.1, Builder.outputs_eq rfl]; simp [Op.ports]
      · rw [n2.2.1, Builder.inputs_eq rfl]; simp [Op.ports]
    · refine ⟨hl _ (by simp [OutlineNew.news]), ?_, hl _ (by simp [OutlineNew.news]), ?_⟩
      · rw [n3.2.2.1, Builder.outputs_eq rfl]; simp [Op.ports]; omega
      · rw [n2.2.1, Builder.inputs_eq rfl]; simp [Op.ports]; omega)
  refine ⟨{ g with links := g.links ++ N.wires ins.length outs.length }, ?_, ?_⟩
  · simp only [addBlock, g1, hc]
  · exact ⟨tree_of_eq g2 rfl rfl rfl rfl rfl, g3, g4, g5, g6, by rw [← g7], g8, g9, g10⟩

/-- The new links are between new nodes. -/
theorem OutlineNew.wires_new {N : OutlineNew} {i o : Nat} {l : Link} (hl : l ∈ N.wires i o) : l.src ∈ N.news ∧ l.dst ∈ N.news := by
  simp only [OutlineNew.wires, straight, List.mem_append, List.mem_map, List.mem_range, List.mem_cons,
    List.not_mem_nil, or_false] at hl
  rcases hl with (⟨p, hp, rfl⟩ | rfl | rfl) | ⟨p, hp, rfl⟩ <;> simp [OutlineNew.news]

/-! ## The way in -/

/-- Where links into the blocks go. -/
def intoBlock (N : OutlineNew) (bs : List Nat) (entry : Nat) (l : Link) : Link :=
  if l.dst = entry ∧ l.src ∉ bs then { l with dst := N.block, dstPort := 0 } else l

structure Entered (h : Hugr Ops.Op Meta) (G : Nat) (bs : List Nat) (entry : Nat) (ins outs : List Types.Ty) (N : OutlineNew)
    (h1 g : Hugr Ops.Op Meta) : Prop where
  tree : IsTree g
  parent : g.hier.parent = h1.hier.parent
  childrenG : g.children G = if (h.children G).head? = some entry then N.block :: h.children G else h.children G ++ [N.block]
  children : ∀ x, x ≠ G → g.children x = h1.children x
  links : g.links.Perm (h.links.map (intoBlock N bs entry) ++ N.wires ins.length outs.length)
  rest : g = { h1 with hier := g.hier, links := g.links }

theorem entryEdges_eq {G entry exit port outside : Nat} {bs : List Nat} {ins outs : List Types.Ty} {N : OutlineNew}
    {h1 : Hugr Ops.Op Meta} (ht : IsTree h) (hv : Valid C h) (hb : AllBlocks h bs) (hf : N.Fresh h)
    (he : entry ≠ h.entrypoint) (z : SingleEntryExit h G bs entry exit port outside) (w : WithBlock h G ins outs N h1) :
    ∃ g, entryEdges h1 bs G entry N.block = some g ∧ Entered h G bs entry ins outs N h1 g := by
  have hentry := z.siblings _ z.entry_mem
  have hel := (ht.parent_live _ _ hentry).1
  have hGl := (ht.parent_live _ _ hentry).2
  obtain ⟨x, y, r, hop⟩ := hb entry z.entry_mem
  have hins : h1.ins entry = 1 := by
    rw [(w.old entry (hf.ne hel)).2.1, (hv.ports _ hel).1, hop]; rfl
  have hlo : h1.linkedOutputs entry 0 = h.linkedOutputs entry 0 := by
    unfold Hugr.linkedOutputs
    rw [w.links, List.filter_append]
    have : ((N.wires ins.length outs.length).filter fun l => l.dst = entry && l.dstPort = 0) = [] := by
      rw [List.filter_eq_nil_iff]
      intro l hl hc
      simp only [Bool.and_eq_true, decide_eq_true_eq] at hc
      exact hf.ne hel (hc.1 ▸ (OutlineNew.wires_new hl).2)
    rw [this, List.append_nil]
  have hP : ∀ s, s ∈ (h1.linkedOutputs entry 0).filter (fun s => s.1 ∉ bs) ↔ ⟨s.1, s.2, entry, 0⟩ ∈ h.links ∧ s.1 ∉ bs := by
    intro s
    rw [hlo, List.mem_filter, mem_linkedOutputs]
    simp
  have hcount : ∀ l ∈ h.links, l.dst = entry → h.links.countP (fun k => k.at l.src .outgoing l.srcPort) = 1 := by
    intro l hl hd
    exact out_once ht hv hl (into_block hv hl (row := x) (.inl ⟨y, r, hd ▸ hop⟩)).2
  have hnw : ∀ s, h.live s = true → ∀ p, (N.wires ins.length outs.length).countP (fun k => k.at s .outgoing p) = 0 := by
    intro s hs p
    rw [List.countP_eq_zero]
    intro l hl hc
    simp only [Link.at, Bool.and_eq_true, beq_iff_eq] at hc
    exact hf.ne hs (hc.1 ▸ (OutlineNew.wires_new hl).1)
  have hB := w.new (N.block, G, .dataflowBlock ins outs [[]]) (by simp [OutlineNew.nodes])
  have hBl : h1.live N.block = true := (w.live _).2 (.inr (by simp [OutlineNew.news]))
  have hend : CanEnd h1 N.block 0 := ⟨hBl, by
    rw [hB.2.1, Builder.inputs_eq rfl]; simp [Op.ports]⟩
  obtain ⟨ks, k1, k2⟩ := retarget_eq hend ((h1.linkedOutputs entry 0).filter fun s => s.1 ∉ bs) h1.links
    (by
      rw [List.nodup_iff_count_le_one]
      intro s
      by_cases hs : s ∈ (h1.linkedOutputs entry 0).filter (fun s => s.1 ∉ bs)
      · have h2 := hcount _ ((hP s).1 hs).1 rfl
        refine (List.Sublist.count_le _ List.filter_sublist).trans ?_
        rw [hlo]
        unfold Hugr.linkedOutputs
        rw [List.count_eq_countP, List.countP_map, List.countP_filter, ← h2]
        apply List.countP_mono_left
        intro l _ hl
        simp only [Function.comp_apply, Bool.and_eq_true, beq_iff_eq, Prod.ext_iff] at hl
        simp [Link.at, hl.1]
      · rw [List.count_eq_zero_of_not_mem hs]; omega)
    (fun s hs => by
      obtain ⟨s1, _⟩ := (hP s).1 hs
      have hc := (link_ends ht hv s1).1
      refine ⟨(w.live _).2 (.inl hc.1), ?_⟩
      rw [(w.old _ (hf.ne hc.1)).2.2.1]
      exact hc.2)
    (fun s hs => by
      obtain ⟨s1, _⟩ := (hP s).1 hs
      have hc := (link_ends ht hv s1).1
      rw [w.links, List.countP_append, hnw _ hc.1]
      exact hcount _ s1 rfl)
  rw [setLinks_self] at k1
  have hlinks : ks.Perm (h.links.map (intoBlock N bs entry) ++ N.wires ins.length outs.length) := by
    refine k2.trans (List.Perm.of_eq ?_)
    rw [w.links, List.map_append]
    congr 1
    · apply List.map_congr_left
      intro l hl
      unfold shift intoBlock
      have : (l.src, l.srcPort) ∈ (h1.linkedOutputs entry 0).filter (fun s => s.1 ∉ bs) ↔ l.dst = entry ∧ l.src ∉ bs := by
        rw [hP]
        constructor
        · rintro ⟨q1, q2⟩
          refine ⟨?_, q2⟩
          rw [count_unique (hcount _ q1 rfl) hl q1 ⟨rfl, rfl⟩ ⟨rfl, rfl⟩]
        · rintro ⟨q1, q2⟩
          refine ⟨?_, q2⟩
          have := (into_block hv hl (row := x) (.inl ⟨y, r, q1 ▸ hop⟩)).1
          rw [← q1, ← this]; exact hl
      simp only [this]
    · conv_rhs => rw [← List.map_id (N.wires ins.length outs.length)]
      apply List.map_congr_left
      intro l hl
      unfold shift
      rw [if_neg]; · rfl
      intro hm
      have := (link_ends ht hv ((hP _).1 hm).1).1.1
      exact hf.ne this (OutlineNew.wires_new hl).1
  have hts : IsTree (SetLinks h1 ks) := tree_of_eq w.tree rfl rfl rfl rfl rfl
  have hkids : h1.children G = h.children G ++ [N.block] := by
    rw [w.children]
    congr 1
    have n1 : N.block ≠ G := fun e => hf.ne hGl (by simp [OutlineNew.news, e])
    have n2 : N.cfg ≠ G := fun e => hf.ne hGl (by simp [OutlineNew.news, ← e])
    simp [OutlineNew.nodes, n1, n2]
  have hmem : entry ∈ h.children G := (ht.child_iff _ _).2 hentry
  obtain ⟨c, rest, hc⟩ : ∃ c rest, h.children G = c :: rest := by
    cases h' : h.children G with
    | nil => rw [h'] at hmem; cases hmem
    | cons c rest => exact ⟨c, rest, rfl⟩
  unfold entryEdges
  rw [if_pos hins, k1]
  simp only [hkids, hc, List.cons_append]
  by_cases hce : entry = c
  · subst hce
    rw [if_pos rfl]
    obtain ⟨hiff, hmove⟩ := C20_move_before (SetLinks h1 ks) hts N.block entry
    have hBne : N.block ≠ entry := fun e => hf.ne hel (by simp [OutlineNew.news, ← e])
    have hpar : (SetLinks h1 ks).hier.parent entry = some G := by
      show h1.hier.parent entry = some G
      rw [(w.old _ (hf.ne hel)).2.2.2]; exact hentry
    obtain ⟨g, hg⟩ := hiff.2 ⟨hBl, fun e => hf.ne ht.entry_live (by
        have e' : N.block = h1.entrypoint := e
        rw [w.entrypoint] at e'
        simp [OutlineNew.news, ← e']), (w.live _).2 (.inl hel), fun e => he (by
        have e' : entry = h1.entrypoint := e
        rw [e', w.entrypoint]), hBne, G, hpar, fun ha => hts.acyclic N.block G hB.2.2.2 ha⟩
    obtain ⟨g1, q, a, b, g2, g3, g4⟩ := hmove g hg
    rw [hpar] at g2; cases g2
    have hfl : ((SetLinks h1 ks).hier.children G).filter (· ≠ N.block) = h.children G := by
      show (h1.children G).filter (· ≠ N.block) = _
      rw [hkids, List.filter_append]
      have : (h.children G).filter (· ≠ N.block) = h.children G := by
        rw [List.filter_eq_self]
        intro x hx
        simp only [ne_eq, decide_not, Bool.not_eq_eq_eq_not, Bool.not_true, decide_eq_false_iff_not]
        rintro rfl
        exact hf.ne (ht.parent_live _ _ ((ht.child_iff _ _).1 hx)).1 (by simp [OutlineNew.news])
      rw [this]; simp
    rw [hfl] at g3
    have hab : a = [] ∧ b = rest := by
      have hnd := ht.child_once G
      have g3' : entry :: rest = a ++ entry :: b := hc.symm.trans g3
      have hnd' : (entry :: rest).Nodup := hc ▸ hnd
      cases a with
      | nil => simp only [List.nil_append, List.cons.injEq] at g3'; exact ⟨rfl, g3'.2.symm⟩
      | cons a as =>
        simp only [List.cons_append, List.cons.injEq] at g3'
        obtain ⟨_, rfl⟩ := g3'
        rw [List.nodup_cons] at hnd'
        exact absurd (by simp) hnd'.1
    obtain ⟨rfl, rfl⟩ := hab
    refine ⟨g, hg, g1, ?_, ?_, ?_, ?_, ?_⟩
    · funext m
      rw [g4.parent]
      split
      · rename_i e; rw [e]; exact hB.2.2.2.symm
      · rfl
    · rw [if_pos (by rw [hc]; rfl)]
      show g.hier.children G = _
      rw [g4.target, hc]; rfl
    · intro m hm
      show g.hier.children m = h1.hier.children m
      rw [g4.others m hm]
      show (h1.hier.children m).filter _ = _
      rw [List.filter_eq_self]
      intro x hx
      simp only [ne_eq, decide_not, Bool.not_eq_eq_eq_not, Bool.not_true, decide_eq_false_iff_not]
      rintro rfl
      have := (w.tree.child_iff _ _).1 hx
      rw [hB.2.2.2] at this; cases this
      exact hm rfl
    · rw [g4.rest]; exact hlinks
    · have e := g4.rest
      have el : g.links = ks := by rw [e]; rfl
      rw [e]
      simp only [SetLinks]
  · rw [if_neg hce]
    refine ⟨_, rfl, hts, rfl, ?_, fun _ _ => rfl, hlinks, rfl⟩
    rw [if_neg (by rw [hc]; simpa using Ne.symm hce)]
    exact hkids.trans (by rw [hc])

/-! ## The way out -/

theorem linkedInputs_perm {g : Hugr Ops.Op Meta} {ls : List Link} {n p : Nat} {t : Nat × Nat} (hp : g.links.Perm ls)
    (hl : (ls.filter fun l => l.src = n && l.srcPort = p) = [⟨n, p, t.1, t.2⟩]) : g.linkedInputs n p = [t] := by
  unfold Hugr.linkedInputs
  have : (g.links.filter fun l => l.src = n && l.srcPort = p) = [⟨n, p, t.1, t.2⟩] := by
    have := hp.filter fun l => l.src = n && l.srcPort = p
    rw [hl] at this
    exact List.perm_singleton.1 this
  rw [this]; rfl

theorem exitEdges_eq {G entry exit port outside : Nat} {bs : List Nat} {ins outs : List Types.Ty} {N : OutlineNew}
    {h1 h2 : Hugr Ops.Op Meta} (ht : IsTree h) (hv : Valid C h) (hb : AllBlocks h bs) (hf : N.Fresh h)
    (he : entry ≠ h.entrypoint) (z : SingleEntryExit h G bs entry exit port outside) (w : WithBlock h G ins outs N h1)
    (v : Entered h G bs entry ins outs N h1 h2) :
    ∃ g, exitEdges h2 bs entry exit outside N = some g ∧ IsTree g ∧ Outlined h G bs entry exit port outside ins outs N g := by
  have hbl : ∀ b ∈ bs, h.live b = true := fun b hb => (ht.parent_live _ _ (z.siblings b hb)).1
  have hGl := (ht.parent_live _ _ (z.siblings _ z.entry_mem)).2
  have hxl := hbl exit z.exit_mem
  obtain ⟨x, y, r, hop⟩ := hb exit z.exit_mem
  have hlive : ∀ m, h2.live m = true ↔ h.live m = true ∨ m ∈ N.news := by
    intro m; rw [v.rest]; exact w.live m
  have hold : ∀ m, m ∉ N.news → h2.ops m = h.ops m ∧ h2.ins m = h.ins m ∧ h2.outs m = h.outs m ∧
      h2.hier.parent m = h.hier.parent m := by
    intro m hm
    obtain ⟨q1, q2, q3, q4⟩ := w.old m hm
    refine ⟨?_, ?_, ?_, ?_⟩
    · rw [v.rest]; exact q1
    · rw [v.rest]; exact q2
    · rw [v.rest]; exact q3
    · rw [v.parent]; exact q4
  have hnew : ∀ e ∈ N.nodes G ins outs, h2.ops e.1 = e.2.2 ∧ h2.ins e.1 = opsInfo.inputs e.2.2 ∧
      h2.outs e.1 = opsInfo.outputs e.2.2 ∧ h2.hier.parent e.1 = some e.2.1 := by
    intro e he
    obtain ⟨q1, q2, q3, q4⟩ := w.new e he
    refine ⟨?_, ?_, ?_, ?_⟩
    · rw [v.rest]; exact q1
    · rw [v.rest]; exact q2
    · rw [v.rest]; exact q3
    · rw [v.parent]; exact q4
  have houts : h2.outs exit = r.length := by
    rw [(hold exit (hf.ne hxl)).2.2.1, (hv.ports _ hxl).2, hop]; simp [Op.ports]
  -- links from the exit are as before
  have hfrom : ∀ p, ((h.links.map (intoBlock N bs entry) ++ N.wires ins.length outs.length).filter
      fun l => l.src = exit && l.srcPort = p) = h.links.filter fun l => l.src = exit && l.srcPort = p := by
    intro p
    rw [List.filter_append]
    have e1 : ((N.wires ins.length outs.length).filter fun l => l.src = exit && l.srcPort = p) = [] := by
      rw [List.filter_eq_nil_iff]
      intro l hl hc
      simp only [Bool.and_eq_true, decide_eq_true_eq] at hc
      exact hf.ne hxl (hc.1 ▸ (OutlineNew.wires_new hl).1)
    rw [e1, List.append_nil, List.filter_map]
    have e2 : ∀ l : Link, (intoBlock N bs entry l).src = l.src ∧ (intoBlock N bs entry l).srcPort = l.srcPort := by
      intro l; unfold intoBlock; split <;> exact ⟨rfl, rfl⟩
    have e3 : (h.links.filter ((fun l => decide (l.src = exit) && decide (l.srcPort = p)) ∘ intoBlock N bs entry)) =
        h.links.filter fun l => l.src = exit && l.srcPort = p := by
      apply List.filter_congr
      intro l _
      simp only [Function.comp_apply, (e2 l).1, (e2 l).2]
    rw [e3]
    conv_rhs => rw [← List.map_id (h.links.filter fun l => l.src = exit && l.srcPort = p)]
    apply List.map_congr_left
    intro l hl
    have hs := (List.mem_filter.1 hl).2
    simp only [Bool.and_eq_true, decide_eq_true_eq] at hs
    unfold intoBlock
    rw [if_neg (fun hc => hc.2 (hs.1 ▸ z.exit_mem))]
    rfl
  have hport : ∀ p < r.length, ∃ l ∈ h.links, l.src = exit ∧ l.srcPort = p ∧ h2.linkedInputs exit p = [(l.dst, 0)] := by
    intro p hp
    obtain ⟨l, l1, rfl, rfl⟩ := block_port ht hv hxl hop hp
    obtain ⟨k1, _, _, _, k4⟩ := from_block hv l1 hop
    refine ⟨l, l1, rfl, rfl, linkedInputs_perm v.links ?_⟩
    rw [hfrom, filter_unique (out_once ht hv l1 k1) l1 ⟨rfl, rfl⟩]
    cases l
    simp only at k4
    rw [k4]
  have hpl : port < r.length := (from_block hv z.left hop).2.1
  have hex : exitPort h2 exit outside = some port := by
    unfold exitPort
    rw [if_pos (by
      rw [houts, List.all_eq_true]
      intro p hp
      obtain ⟨l, _, _, _, e⟩ := hport p (List.mem_range.1 hp)
      rw [e]; rfl)]
    have : ((List.range (h2.outs exit)).filter fun p => h2.linkedInputs exit p = [(outside, 0)]) = [port] := by
      rw [houts]
      refine filter_one List.nodup_range (List.mem_range.2 hpl) fun p hp => ?_
      obtain ⟨l, l1, l2, l3, e⟩ := hport p (List.mem_range.1 hp)
      rw [decide_eq_true_iff, e]
      simp only [List.cons.injEq, Prod.mk.injEq, and_true]
      constructor
      · intro hd
        have := (z.leaves l l1 (l2 ▸ z.exit_mem)).1 (hd ▸ z.outside_not)
        exact l3.symm.trans this.2
      · intro hp'
        have hk := (from_block hv z.left hop).1
        have := count_unique (out_once ht hv z.left hk) l1 z.left ⟨l2, l3.trans hp'⟩ ⟨rfl, rfl⟩
        rw [this]
    rw [this]
  obtain ⟨hsx, hdo⟩ := link_ends ht hv z.left
  have hd := disconnect_eq (h := h2) (n := exit) (port := port) (dir := .outgoing) ((hlive _).2 (.inl hxl))
    (by show port < h2.outs exit; rw [houts]; exact hpl)
  have hB := hnew (N.block, G, .dataflowBlock ins outs [[]]) (by simp [OutlineNew.nodes])
  have hE := hnew (N.exit, N.cfg, .exitBlock outs) (by simp [OutlineNew.nodes])
  have hF := hnew (N.cfg, N.block, .cfg ⟨ins, outs⟩) (by simp [OutlineNew.nodes])
  have hNl : ∀ m ∈ N.news, h2.live m = true := fun m hm => (hlive m).2 (.inr hm)
  have hc := connect_eq (h := SetLinks h2 (h2.links.filter fun l => !l.at exit .outgoing port))
    (l := ⟨N.block, 0, outside, 0⟩)
    ⟨hNl _ (by simp [OutlineNew.news]), by show 0 < h2.outs N.block; rw [hB.2.2.1, Builder.outputs_eq rfl]; simp [Op.ports]⟩
    ⟨(hlive _).2 (.inl hdo.1), by show 0 < h2.ins outside; rw [(hold _ (hf.ne hdo.1)).2.1]; exact hdo.2⟩
  simp only [setLinks_links, setLinks_setLinks] at hc
  generalize hks : (h2.links.filter fun l => !l.at exit .outgoing port) ++ [⟨N.block, 0, outside, 0⟩] = ks at hc
  have hnd := hf.1
  simp only [OutlineNew.news, List.nodup_cons, List.mem_cons, List.not_mem_nil, or_false, not_or, List.nodup_nil,
    not_false_eq_true, and_true] at hnd
  have nG : ∀ m ∈ N.news, m ≠ G := fun m hm e => hf.ne hGl (e ▸ hm)
  have nG' : ∀ m ∈ N.news, G ≠ m := fun m hm e => hf.ne hGl (e ▸ hm)
  have hdead : ∀ m ∈ N.news, h.children m = [] := fun m hm => (ht.dead (hf.2 m hm)).2
  have hkc : h2.children N.cfg = [N.exit] := by
    rw [v.children _ (nG _ (by simp [OutlineNew.news])), w.children, hdead _ (by simp [OutlineNew.news])]
    have := nG' N.cfg (by simp [OutlineNew.news])
    simp [OutlineNew.nodes, this, hnd]
  have hkb : h2.children N.block = [N.inp, N.out, N.cfg, N.const, N.load] := by
    rw [v.children _ (nG _ (by simp [OutlineNew.news])), w.children, hdead _ (by simp [OutlineNew.news])]
    have := nG' N.block (by simp [OutlineNew.news])
    have h3 : N.cfg ≠ N.block := fun e => hnd.1.2.2.1 e.symm
    simp [OutlineNew.nodes, this, h3]
  have hts : IsTree (SetLinks h2 ks) := tree_of_eq v.tree rfl rfl rfl rfl rfl
  have hbp : ∀ b ∈ bs, h2.hier.parent b = some G := fun b hb => by
    rw [(hold b (hf.ne (hbl b hb))).2.2.2]; exact z.siblings b hb
  have hup : ∀ b ∈ bs, ¬ Above h2.hier.parent N.cfg b := by
    intro b hb ha
    cases ha with
    | refl => exact hf.ne (hbl _ hb) (by simp [OutlineNew.news])
    | step hp ha =>
      rw [hF.2.2.2] at hp; cases hp
      cases ha with
      | refl => exact hf.ne (hbl _ hb) (by simp [OutlineNew.news])
      | step hp ha =>
        rw [hB.2.2.2] at hp; cases hp
        exact v.tree.acyclic b G (hbp b hb) ha
  obtain ⟨hiff, hmove⟩ := C20_move_before (SetLinks h2 ks) hts entry N.exit
  obtain ⟨h3, hg3⟩ := hiff.2 ⟨(hlive _).2 (.inl (hbl _ z.entry_mem)), fun e => he (by
      have e' : entry = h2.entrypoint := e
      rw [e', v.rest]; exact w.entrypoint), hNl _ (by simp [OutlineNew.news]), fun e => hf.ne ht.entry_live (by
      have e' : N.exit = h2.entrypoint := e
      rw [v.rest] at e'
      have e'' : N.exit = h1.entrypoint := e'
      rw [w.entrypoint] at e''
      simp [OutlineNew.news, ← e'']), fun e => hf.ne (hbl _ z.entry_mem) (by simp [OutlineNew.news, e]),
    N.cfg, hE.2.2.2, hup _ z.entry_mem⟩
  obtain ⟨t3, q, a, b, g2, g3, g4⟩ := hmove h3 hg3
  have : q = N.cfg := by
    have g2' : h2.hier.parent N.exit = some q := g2
    rw [hE.2.2.2] at g2'; exact (Option.some.inj g2').symm
  subst this
  have hab : a = [] ∧ b = [] := by
    have : (h2.children N.cfg).filter (· ≠ entry) = a ++ N.exit :: b := g3
    rw [hkc] at this
    have hne : N.exit ≠ entry := fun e => hf.ne (hbl _ z.entry_mem) (by simp [OutlineNew.news, ← e])
    simp only [ne_eq, hne, not_false_eq_true, decide_true, List.filter_cons_of_pos, List.filter_nil] at this
    cases a with
    | nil => simp only [List.nil_append, List.cons.injEq, true_and] at this; exact ⟨rfl, this.symm⟩
    | cons a as => simp at this
  obtain ⟨rfl, rfl⟩ := hab
  have hl3 : h3.live = h2.live := by rw [g4.rest]; rfl
  obtain ⟨h4, e1, e2, e3, e4, e5, e6⟩ := moveDown (p := N.cfg) (bs.filter (· ≠ entry)) h3 t3
    (by rw [hl3]; exact hNl _ (by simp [OutlineNew.news])) (z.once.filter _) (fun c hc => by
      obtain ⟨hcb, hce⟩ := List.mem_filter.1 hc
      simp only [ne_eq, decide_not, Bool.not_eq_eq_eq_not, Bool.not_true, decide_eq_false_iff_not] at hce
      refine ⟨by rw [hl3]; exact (hlive _).2 (.inl (hbl _ hcb)), fun ha => ?_, ?_⟩
      · refine hup c hcb (above_keep (c := entry) (fun y hy => ?_) ha (hup _ z.entry_mem))
        rw [g4.parent, if_neg hy]; rfl
      · rw [g4.target]
        simp only [List.nil_append, List.mem_cons, List.not_mem_nil, or_false, not_or]
        exact ⟨hce, fun e => hf.ne (hbl _ hcb) (by simp [OutlineNew.news, e])⟩)
  have h4e : h4 = { h2 with hier := h4.hier, links := ks } := by
    rw [e6, g4.rest]; rfl
  have hfin := connect_eq (h := h4) (l := ⟨exit, port, N.exit, 0⟩)
    ⟨by rw [h4e]; exact (hlive _).2 (.inl hxl), by rw [h4e]; show port < h2.outs exit; rw [houts]; exact hpl⟩
    ⟨by rw [h4e]; exact hNl _ (by simp [OutlineNew.news]), by
      rw [h4e]; show 0 < h2.ins N.exit; rw [hE.2.1, Builder.inputs_eq rfl]; simp [Op.ports]⟩
  refine ⟨SetLinks h4 (h4.links ++ [⟨exit, port, N.exit, 0⟩]), ?_, ?_⟩
  · unfold exitEdges
    rw [hex]
    simp only [hd, hc]
    have : (SetLinks h2 ks).children N.cfg = [N.exit] := hkc
    simp only [this, hg3, e1]
    exact hfin
  · have hch3 : ∀ m, m ≠ N.cfg → h4.hier.children m = (h2.hier.children m).filter (· ∉ bs) := by
      intro m hm
      rw [e5 m hm, g4.others m hm]
      show ((h2.hier.children m).filter _).filter _ = _
      rw [List.filter_filter]
      apply List.filter_congr
      intro c _
      by_cases q2 : c = entry
      · rw [q2]; simp [z.entry_mem]
      · by_cases q1 : c ∈ bs <;> simp [q1, q2]
    have hkeep : ∀ m, m ≠ G → ∀ c ∈ h2.hier.children m, c ∉ bs := by
      intro m hm c hc hcb
      have := (v.tree.child_iff _ _).1 hc
      rw [hbp c hcb] at this
      cases this
      exact hm rfl
    refine ⟨tree_of_eq e2 rfl rfl rfl rfl rfl, ?_⟩
    constructor
    · intro m; show h4.live m = true ↔ _; rw [h4e]; exact hlive m
    · intro e he
      obtain ⟨q1, q2, q3, _⟩ := hnew e he
      refine ⟨?_, ?_, ?_⟩
      · show h4.ops _ = _; rw [h4e]; exact q1
      · show h4.ins _ = _; rw [h4e]; exact q2
      · show h4.outs _ = _; rw [h4e]; exact q3
    · intro m hm
      obtain ⟨q1, q2, q3, _⟩ := hold m hm
      refine ⟨?_, ?_, ?_⟩
      · show h4.ops _ = _; rw [h4e]; exact q1
      · show h4.ins _ = _; rw [h4e]; exact q2
      · show h4.outs _ = _; rw [h4e]; exact q3
    · show h4.hier.children N.cfg = _
      rw [e4, g4.target]; rfl
    · show h4.hier.children N.block = _
      rw [hch3 _ hnd.1.2.2.1]
      refine Eq.trans ?_ hkb
      show _ = h2.hier.children N.block
      rw [List.filter_eq_self]
      intro c hc
      simpa using hkeep _ (nG _ (by simp [OutlineNew.news])) c hc
    · show h4.hier.children G = _
      rw [hch3 _ (nG' _ (by simp [OutlineNew.news]))]
      have := v.childrenG
      show (h2.children G).filter _ = _
      rw [this]
      have hBn : N.block ∉ bs := fun hb => hf.ne (hbl _ hb) (by simp [OutlineNew.news])
      split <;> simp [hBn]
    · intro m m1 m2 m3
      show h4.hier.children m = _
      rw [hch3 _ m1]
      have e : h2.hier.children m = h.children m := by
        show h2.children m = _
        rw [v.children _ m3, w.children]
        simp [OutlineNew.nodes, Ne.symm m1, Ne.symm m2, Ne.symm m3]
      rw [← e, List.filter_eq_self]
      intro c hc
      simpa using hkeep m m3 c hc
    · show (h4.links ++ _).Perm _
      have el : h4.links = ks := by rw [h4e]
      rw [el, ← hks]
      have hcount : h2.links.countP (fun l => l.at exit .outgoing port) = 1 := by
        rw [v.links.countP_eq, List.countP_eq_length_filter]
        have e := hfrom port
        have hk := (from_block hv z.left hop).1
        rw [filter_unique (out_once ht hv z.left hk) z.left ⟨rfl, rfl⟩] at e
        have e' := congrArg List.length e
        exact e'
      have hsh := shift_one (d := N.exit) (s := (exit, port)) hcount
      have step : ((h2.links.filter fun l : Link => !l.at exit .outgoing port) ++ [(⟨N.block, 0, outside, 0⟩ : Link)] ++
          [(⟨exit, port, N.exit, 0⟩ : Link)]).Perm (h2.links.map (shift N.exit [(exit, port)]) ++ [(⟨N.block, 0, outside, 0⟩ : Link)]) := by
        refine List.Perm.trans ?_ (hsh.append_right _)
        rw [List.append_assoc, List.append_assoc]
        exact List.Perm.append_left _ (List.Perm.swap _ _ _)
      refine step.trans (List.Perm.append_right _ ((v.links.map _).trans (List.Perm.of_eq ?_)))
      rw [List.map_append, List.map_map]
      congr 1
      · apply List.map_congr_left
        intro l hl
        simp only [Function.comp_apply]
        unfold intoBlock shift OutlineNew.redirect
        by_cases q1 : l.dst = entry ∧ l.src ∉ bs
        · have : l.src ≠ exit := fun e => q1.2 (e ▸ z.exit_mem)
          simp [q1, this]
        · simp only [q1, if_false, List.mem_singleton, Prod.mk.injEq]
      · conv_rhs => rw [← List.map_id (N.wires ins.length outs.length)]
        apply List.map_congr_left
        intro l hl
        unfold shift
        rw [if_neg]; · rfl
        intro hm
        simp only [List.mem_singleton, Prod.mk.injEq] at hm
        exact hf.ne hxl (hm.1 ▸ (OutlineNew.wires_new hl).1)
    · show h4.metadata = _; rw [h4e, v.rest]; exact w.metadata
    · show h4.moduleRoot = _; rw [h4e, v.rest]; exact w.moduleRoot
    · show h4.entrypoint = _; rw [h4e, v.rest]; exact w.entrypoint

/-- Outlining succeeds and gives what it should. -/
theorem outline_ok {G entry exit port outside : Nat} {bs : List Nat} {ins outs : List Types.Ty} {N : OutlineNew}
    (ht : IsTree h) (hv : Valid C h) (hb : AllBlocks h bs) (hf : N.Fresh h) (he : entry ≠ h.entrypoint)
    (z : SingleEntryExit h G bs entry exit port outside) (hi : BlockInput (h.ops entry) ins)
    (ho : BlockInput (h.ops outside) outs) :
    ∃ g, outlineCfg h bs N = .ok g ∧ IsTree g ∧ Outlined h G bs entry exit port outside ins outs N g := by
  have hp := z.siblings _ z.entry_mem
  obtain ⟨h1, e1, w⟩ := addBlock_eq (ins := ins) (outs := outs) ht hf (ht.parent_live _ _ hp).2
  obtain ⟨h2, e2, v⟩ := entryEdges_eq ht hv hb hf he z w
  obtain ⟨g, e3, t3, o3⟩ := exitEdges_eq ht hv hb hf he z w v
  refine ⟨g, ?_, t3, o3⟩
  obtain ⟨x, y, r, hop⟩ := hb entry z.entry_mem
  have : x = ins := by
    rcases hi with ⟨a, b, e⟩ | e
    · rw [hop] at e; cases e; rfl
    · rw [hop] at e; cases e
  subst this
  unfold outlineCfg
  rw [z.compute ht hv hb]
  simp only [hop, getParent_eq ht, hp]
  rcases ho with ⟨a, b, e⟩ | e <;> simp only [e, e1, e2, e3]

end Verif.Patch
