import Verif.Patch.MoveInProps

/-!
# C76: the dataflow graph before the control-flow graph

What moving the entry block out gives before the order edges are added and the new dataflow graph is inlined.
-/
namespace Verif.Patch

open Verif.Graph Verif.Ops Verif.Passes Verif.Validate Verif.Dataflow

variable {Meta : Type} {h : Hugr Ops.Op Meta} {C : Validate.Context}

/-! ## Specification -/

/-- `g` is `h` where the contents of the entry block `E` of the control-flow graph `G` are in a new dataflow graph `d`
beside `G`, and `S` is the entry block now. The first value that the block output at `o`, a tuple of the types `row`, is
unpacked by `w`. What went into `G` goes into `d`, and `d` gives `G` what `S` takes. -/
structure EntryMoved (h : Hugr Ops.Op Meta) (p G E S o d w : Nat) (more : List Nat) (sig : Types.Signature)
    (row other : List Types.Ty) (g : Hugr Ops.Op Meta) : Prop where
  live : ∀ x, g.live x = true ↔ (h.live x = true ∧ x ≠ E) ∨ x = d ∨ x = w
  ops : ∀ x, g.live x = true → g.ops x =
    if x = w then unpackOp row else if x = d then .dfg ⟨sig.input, row ++ other⟩ else
    if x = G then .cfg ⟨row ++ other, sig.output⟩ else if x = o then .output (row ++ other) else h.ops x
  parent : ∀ x, g.live x = true → g.hier.parent x =
    if x = w ∨ h.hier.parent x = some E then some d else if x = d then some p else h.hier.parent x
  children : ∀ x, g.live x = true → g.children x =
    if x = G then S :: more.filter (· ≠ S) else if x = d then h.children E ++ [w]
    else if x = w then [] else if x = p then h.children p ++ [d] else h.children x
  ports : ∀ x, g.live x = true →
    g.ins x = (if x = w then 2 else if x = d then sig.input.length + 1 else if x = G ∨ x = o then (row ++ other).length + 1
      else h.ins x) ∧
    g.outs x = if x = w then row.length + 1 else if x = d then (row ++ other).length + 1 else h.outs x
  metadata : ∀ x, g.live x = true → x ≠ d → x ≠ w → g.metadata x = h.metadata x
  roots : g.moduleRoot = h.moduleRoot ∧ g.entrypoint = h.entrypoint
  links : g.links.Perm (((h.links.filter fun l => decide (l.src ≠ E)).map fun l => takeIn G d (redirect o w row.length l)) ++
    ((List.range row.length).map fun k => ⟨w, k, o, k⟩) ++ (List.range ((row ++ other).length + 1)).map fun k => ⟨d, k, G, k⟩)

/-- The control-flow graph `G` in `p` starts with the block `E`, which goes only to the block `S`, and nothing goes to `E`. -/
structure FirstAt (C : Validate.Context) (h : Hugr Ops.Op Meta) (p G E S i o : Nat) (more inner : List Nat)
    (sig : Types.Signature) (row other : List Types.Ty) : Prop where
  tree : IsTree h
  valid : Valid C h
  entry : h.entrypoint = G
  op : h.ops G = .cfg sig
  parent : h.hier.parent G = some p
  children : h.children G = E :: more
  mem : S ∈ more
  opE : h.ops E = .dataflowBlock sig.input other [row]
  inside : h.children E = i :: o :: inner
  opO : h.ops o = .output (sumOf [row] :: other)
  pred : ∀ l ∈ h.links, l.dst ≠ E

namespace FirstAt

variable {p G E S i o : Nat} {more inner : List Nat} {sig : Types.Signature} {row other : List Types.Ty}
  (z : FirstAt C h p G E S i o more inner sig row other)

include z

theorem upE : h.hier.parent E = some G :=
  (z.tree.child_iff _ _).1 (by show E ∈ h.children G; rw [z.children]; simp)

theorem upS : h.hier.parent S = some G :=
  (z.tree.child_iff _ _).1 (by show S ∈ h.children G; rw [z.children]; simp [z.mem])

theorem upO : h.hier.parent o = some E :=
  (z.tree.child_iff _ _).1 (by show o ∈ h.children E; rw [z.inside]; simp)

theorem nodup : (E :: more).Nodup := by
  have := z.tree.child_once G
  rwa [show h.hier.children G = _ from z.children] at this

theorem ES : E ≠ S := by
  rintro rfl; exact (List.nodup_cons.1 z.nodup).1 z.mem

theorem EG : E ≠ G := by
  have := z.opE; rintro rfl; rw [z.op] at this; cases this

theorem SG : S ≠ G := by
  intro e
  have := z.upS
  rw [e] at this
  exact z.tree.acyclic _ _ this (.refl _)

theorem liveG : h.live G = true := (z.tree.parent_live _ _ z.upE).2
theorem liveE : h.live E = true := (z.tree.parent_live _ _ z.upE).1
theorem liveS : h.live S = true := (z.tree.parent_live _ _ z.upS).1
theorem liveO : h.live o = true := (z.tree.parent_live _ _ z.upO).1
theorem liveP : h.live p = true := (z.tree.parent_live _ _ z.parent).2

theorem pG : p ≠ G := by
  rintro rfl; exact z.tree.acyclic _ _ z.parent (.refl _)

theorem pE : p ≠ E := by
  rintro rfl; exact z.tree.acyclic _ _ z.parent (.of_parent z.upE)

theorem inE {x : Nat} (hx : h.hier.parent x = some E) : x ≠ E ∧ x ≠ G ∧ x ≠ p ∧ x ≠ S := by
  have hac := z.tree.acyclic
  refine ⟨?_, ?_, ?_, ?_⟩
  · rintro rfl; exact hac _ _ hx (.refl _)
  · rintro rfl; exact hac _ _ hx (.of_parent z.upE)
  · rintro rfl; exact hac _ _ hx (.step z.upE (.of_parent z.parent))
  · rintro rfl
    have := z.upS
    rw [hx] at this
    exact z.EG (Option.some.inj this)

theorem portsG : h.ins G = sig.input.length + 1 ∧ h.outs G = sig.output.length + 1 := by
  have := z.valid.ports G z.liveG
  rw [z.op] at this
  simpa [Op.ports] using this

/-- The first four steps: the contents of `E` are in `d`, and `E` is removed. -/
theorem emptied {d : Nat} (hd : h.live d = false) :
    ∃ k2 k3 k4, each (fun g c => g.setParent c d) (added h d p (.dfg ⟨sig.input, row ++ other⟩) (h.children p ++ [d]))
        ((added h d p (.dfg ⟨sig.input, row ++ other⟩) (h.children p ++ [d])).children E) = some k2 ∧
      k2.moveBeforeSibling S E = some k3 ∧ k3.removeNode opsInfo.toOpInfo E = some k4 ∧ IsTree k4 ∧
      (∀ x, k4.live x = true ↔ (h.live x = true ∧ x ≠ E) ∨ x = d) ∧
      (∀ x, x ≠ E → k4.ops x = if x = d then .dfg ⟨sig.input, row ++ other⟩ else h.ops x) ∧
      (∀ x, k4.ins x = if x = d then sig.input.length + 1 else h.ins x) ∧
      (∀ x, k4.outs x = if x = d then (row ++ other).length + 1 else h.outs x) ∧
      (k4.links = h.links.filter fun l => decide (l.src ≠ E)) ∧
      (∀ x, x ≠ E → k4.hier.parent x = if h.hier.parent x = some E then some d else if x = d then some p else h.hier.parent x) ∧
      (∀ x, x ≠ E → k4.hier.children x = if x = G then S :: more.filter (· ≠ S) else if x = d then h.hier.children E
        else if x = p then h.hier.children p ++ [d] else h.hier.children x) ∧
      (∀ x, x ≠ d → k4.metadata x = h.metadata x) ∧ k4.moduleRoot = h.moduleRoot ∧ k4.entrypoint = h.entrypoint := by
  have nd : ∀ {x}, h.live x = true → x ≠ d := fun a e => by rw [e, hd] at a; cases a
  obtain ⟨_, t1⟩ := addNodeWithParent_eq (h := h) (idx := d) (p := p) (op := .dfg ⟨sig.input, row ++ other⟩) z.tree hd z.liveP
  let k1 := added h d p (.dfg ⟨sig.input, row ++ other⟩) (h.children p ++ [d])
  have par1 : ∀ x, x ≠ d → k1.hier.parent x = h.hier.parent x := by
    intro x hxd
    simp only [k1, added, upd, if_neg hxd]
  have ch1 : k1.hier.children E = h.hier.children E := by
    simp only [k1, added, upd, if_neg (Ne.symm z.pE)]
  have kid : ∀ {c}, c ∈ h.hier.children E ↔ h.hier.parent c = some E := fun {c} => z.tree.child_iff _ _
  have kidl : ∀ {c}, h.hier.parent c = some E → h.live c = true := fun hc => (z.tree.parent_live _ _ hc).1
  obtain ⟨k2, e2, t2, p2, cd2, c2, s2⟩ := moveKids (P := E) (d := d) (nd z.liveE) (h.hier.children E) k1 t1
    (by simp [k1, added, upd]) (z.tree.child_once E) (by
      intro c hc
      have hcE := kid.1 hc
      have a1 : k1.hier.parent c = some E := by rw [par1 c (nd (kidl hcE))]; exact hcE
      refine ⟨a1, fun ha => ?_⟩
      have a2 : k1.hier.parent E = some G := by rw [par1 E (nd z.liveE)]; exact z.upE
      have a3 : k1.hier.parent G = some p := by rw [par1 G (nd z.liveG)]; exact z.parent
      rcases above_cases ha with e | ⟨q, hq, hqc⟩
      · exact nd (kidl hcE) e.symm
      · have : k1.hier.parent d = some p := by simp [k1, added, upd]
        rw [this] at hq; cases hq
        exact t1.acyclic _ _ a1 (.step a2 (.step a3 hqc)))
  have up2 : ∀ x, x ≠ d → h.hier.parent x ≠ some E → k2.hier.parent x = h.hier.parent x := by
    intro x h1 h2
    rw [p2, if_neg (fun e => h2 (kid.1 e)), par1 x h1]
  have notE : ∀ {x}, h.hier.parent x = some G → h.hier.parent x ≠ some E := by
    intro x h1 h2
    rw [h1] at h2
    exact z.EG (Option.some.inj h2).symm
  have upE2 : k2.hier.parent E = some G := by rw [up2 E (nd z.liveE) (notE z.upE)]; exact z.upE
  have upS2 : k2.hier.parent S = some G := by rw [up2 S (nd z.liveS) (notE z.upS)]; exact z.upS
  have live2 : ∀ x, k2.live x = true ↔ h.live x = true ∨ x = d := by
    intro x
    rw [s2]
    simp only [k1, added, upd]
    by_cases a : x = d <;> simp [a]
  have en2 : k2.entrypoint = h.entrypoint := by rw [s2]; rfl
  have mr2 : k2.moduleRoot = h.moduleRoot := by rw [s2]; rfl
  obtain ⟨m1, m2⟩ := C20_move_before k2 t2 S E
  obtain ⟨k3, e3⟩ := m1.2 ⟨(live2 S).2 (.inl z.liveS), by rw [en2, z.entry]; exact z.SG, (live2 E).2 (.inl z.liveE),
    by rw [en2, z.entry]; exact z.EG, Ne.symm z.ES, G, upE2, t2.acyclic _ _ upS2⟩
  obtain ⟨t3, q, a, b, q1, q2, mv⟩ := m2 k3 e3
  have hq : q = G := by
    rw [upE2] at q1; exact (Option.some.inj q1).symm
  subst hq
  have chG2 : k2.hier.children q = E :: more := by
    rw [c2 q (nd z.liveG)]
    have : k1.hier.children q = E :: more := by
      simp only [k1, added, upd, if_neg (Ne.symm z.pG)]
      exact z.children
    rw [this, List.filter_eq_self]
    intro c hc
    simp only [decide_eq_true_eq]
    intro hcE
    exact notE ((z.tree.child_iff _ _).1 (by show c ∈ h.children q; rw [z.children]; exact hc)) (kid.1 hcE)
  have hab : a = [] ∧ b = more.filter (· ≠ S) := by
    rw [chG2, List.filter_cons_of_pos (by simpa using z.ES)] at q2
    cases a with
    | nil =>
      simp only [List.nil_append, List.cons.injEq, true_and] at q2
      exact ⟨rfl, q2.symm⟩
    | cons x a =>
      simp only [List.cons_append, List.cons.injEq] at q2
      have hE : E ∈ more.filter (· ≠ S) := by rw [q2.2]; simp
      exact absurd (List.mem_filter.1 hE).1 (List.nodup_cons.1 z.nodup).1
  obtain ⟨rfl, rfl⟩ := hab
  have chE3 : k3.children E = [] := by
    change k3.hier.children E = []
    rw [mv.others E z.EG, c2 E (nd z.liveE), ch1, List.filter_filter, List.filter_eq_nil_iff]
    intro c hc
    simp [hc]
  have r3 := mv.rest
  have hEr : E ≠ h.moduleRoot := by
    intro e; have := z.upE; rw [e, z.tree.root_top] at this; cases this
  obtain ⟨k4, e4, r4⟩ := removeLeaf t3 (n := E) (by rw [r3]; exact (live2 E).2 (.inl z.liveE))
    (by rw [r3]; show E ≠ k2.entrypoint; rw [en2, z.entry]; exact z.EG) (by rw [r3]; show E ≠ k2.moduleRoot; rw [mr2]; exact hEr) chE3
  have hch : k1.children E = h.hier.children E := ch1
  refine ⟨k2, k3, k4, by change each _ k1 (k1.children E) = _; rw [hch]; exact e2, e3, e4, r4.tree, ?_, ?_, ?_, ?_, ?_, ?_, ?_, ?_, ?_, ?_⟩
  · intro x
    rw [r4.live, r3]
    change k2.live x = true ∧ _ ↔ _
    rw [live2]
    constructor
    · rintro ⟨h1 | h1, h2⟩
      · exact .inl ⟨h1, h2⟩
      · exact .inr h1
    · rintro (⟨h1, h2⟩ | rfl)
      · exact ⟨.inl h1, h2⟩
      · exact ⟨.inr rfl, Ne.symm (nd z.liveE)⟩
  · intro x hx
    rw [r4.ops x hx, r3]
    change k2.ops x = _
    rw [s2]
    rfl
  · intro x
    rw [r4.ins, r3]
    change k2.ins x = _
    rw [s2]
    simp only [k1, added, upd]
    by_cases a : x = d
    · rw [if_pos a, if_pos a, Builder.inputs_eq rfl]; simp [Op.ports]
    · rw [if_neg a, if_neg a]
  · intro x
    rw [r4.outs, r3]
    change k2.outs x = _
    rw [s2]
    simp only [k1, added, upd]
    by_cases a : x = d
    · rw [if_pos a, if_pos a, Builder.outputs_eq rfl]; simp [Op.ports]; omega
    · rw [if_neg a, if_neg a]
  · rw [r4.links, r3]
    change k2.links.filter _ = _
    rw [s2]
    change h.links.filter _ = _
    apply List.filter_congr
    intro l hl
    have := z.pred l hl
    by_cases a : l.src = E <;> simp [a, this]
  · intro x hx
    rw [r4.parent x hx, mv.parent]
    by_cases a : x = S
    · rw [if_pos a, a, if_neg (notE z.upS), if_neg (nd z.liveS), z.upS]
    · rw [if_neg a, p2]
      by_cases b : h.hier.parent x = some E
      · rw [if_pos (kid.2 b), if_pos b]
      · rw [if_neg (fun e => b (kid.1 e)), if_neg b]
        rfl
  · intro x hx
    rw [r4.children]
    by_cases a : x = q
    · subst a
      rw [mv.target, if_pos rfl, List.nil_append, List.filter_cons_of_pos (by simpa using Ne.symm z.ES),
        List.filter_cons_of_neg (by simp), List.filter_eq_self.2]
      intro c hc
      have : c ∈ more := (List.mem_filter.1 hc).1
      simp only [ne_eq, decide_not, Bool.not_eq_eq_eq_not, Bool.not_true, decide_eq_false_iff_not]
      rintro rfl
      exact (List.nodup_cons.1 z.nodup).1 this
    · rw [mv.others x a, if_neg a, List.filter_filter, List.filter_eq_self.2]
      · by_cases b : x = d
        · subst b
          rw [if_pos rfl, cd2]
          have : k1.hier.children x = [] := by
            simp only [k1, added, upd, if_neg (Ne.symm (nd z.liveP))]
            exact (z.tree.dead hd).2
          rw [this]; rfl
        · rw [if_neg b, c2 x b, List.filter_eq_self.2]
          · rfl
          · intro c hc
            simp only [decide_eq_true_eq]
            intro hcE
            have h1 := (t1.child_iff _ _).1 hc
            have h2 := kid.1 hcE
            rw [par1 c (nd (kidl h2)), h2] at h1
            exact hx (Option.some.inj h1).symm
      · intro c hc
        have hp : k2.hier.parent c = some x := (t2.child_iff _ _).1 hc
        have c1 : c ≠ S := by rintro rfl; rw [upS2] at hp; exact a (Option.some.inj hp).symm
        have c2 : c ≠ E := by rintro rfl; rw [upE2] at hp; exact a (Option.some.inj hp).symm
        simp [c1, c2]
  · intro x hx
    rw [r4.metadata, r3]
    change k2.metadata x = _
    rw [s2]
    rfl
  · rw [r4.moduleRoot, r3]; exact mr2
  · rw [r4.entrypoint, r3]; exact en2

theorem to_o {l : Link} (hl : l ∈ h.links) (hd : l.dst = o) : ∃ kind, srcKind h l = some kind ∧
    ((h.ops o).ports .incoming)[l.dstPort]? = some kind ∧ l.src ≠ E := by
  obtain ⟨kind, k1, k2, _⟩ := z.valid.kinds l hl
  rw [hd] at k2
  refine ⟨kind, k1, k2, fun e => ?_⟩
  unfold srcKind at k1
  rw [e, z.opE] at k1
  have h1 : kind = .controlFlow := by
    have := List.mem_of_getElem? k1
    simpa [Op.ports] using this
  have h2 := List.mem_of_getElem? k2
  rw [z.opO, h1] at h2
  simp [Op.ports] at h2

theorem entryBefore_eq {d w : Nat} (hd : h.live d = false) (hw : h.live w = false) (hdw : d ≠ w) :
    ∃ g, entryBefore h G E S d w p sig sig.input (row ++ other) = some g ∧ IsTree g ∧
      EntryMoved h p G E S o d w more sig row other g := by
  have hlok := linksOk_of z.tree z.valid
  have nd : ∀ {x}, h.live x = true → x ≠ d := fun a e => by rw [e, hd] at a; cases a
  have nw : ∀ {x}, h.live x = true → x ≠ w := fun a e => by rw [e, hw] at a; cases a
  obtain ⟨e1, _⟩ := addNodeWithParent_eq (h := h) (idx := d) (p := p) (op := .dfg ⟨sig.input, row ++ other⟩) z.tree hd z.liveP
  obtain ⟨k2, k3, k6, e2, e3, e4, t6, live6, ops6, ins6, outs6, links6, par6, ch6, meta6, mr6, en6⟩ := z.emptied hd
  have mem6 : ∀ {l}, l ∈ k6.links ↔ l ∈ h.links ∧ l.src ≠ E := by
    intro l; rw [links6, List.mem_filter]; simp
  have ok6 : LinksOk k6 := by
    intro l hl
    obtain ⟨h1, h2⟩ := mem6.1 hl
    obtain ⟨a, b, c, f⟩ := hlok l h1
    refine ⟨(live6 _).2 (.inl ⟨a, h2⟩), ?_, (live6 _).2 (.inl ⟨c, z.pred l h1⟩), ?_⟩
    · rw [outs6, if_neg (nd a)]; exact b
    · rw [ins6, if_neg (nd c)]; exact f
  obtain ⟨oE, oG, oP, oS⟩ := z.inE z.upO
  have lo := z.liveO
  have ko : k6.ops o = .output (sumOf [row] :: other) := by
    rw [ops6 o oE, if_neg (nd lo)]; exact z.opO
  have vo := z.valid.ports o lo
  rw [z.opO] at vo
  have kup : k6.hier.parent o = some d := by rw [par6 o oE, if_pos z.upO]
  have one : ∀ q < (sumOf [row] :: other).length, (k6.linkedOutputs o q).length = 1 := by
    intro q hq
    have hk : ((h.ops o).ports .incoming)[q]? = some (.value ((sumOf [row] :: other)[q])) := by
      rw [z.opO]
      change ((sumOf [row] :: other).map Kind.value ++ [.stateOrder])[q]? = _
      rw [List.getElem?_append_left (by simpa using hq), List.getElem?_map, List.getElem?_eq_getElem hq]; rfl
    have := z.valid.inDegree o q _ lo hk
    unfold Hugr.linkedOutputs
    rw [List.length_map, links6, List.filter_filter]
    have e : (h.links.filter fun l => (decide (l.dst = o) && decide (l.dstPort = q)) && decide (l.src ≠ E)) = linksTo h o q := by
      unfold linksTo
      apply List.filter_congr
      intro l hl
      by_cases h1 : l.dst = o
      · obtain ⟨_, _, _, q2⟩ := z.to_o hl h1
        simp [q2]
      · simp [h1]
    rw [e]; exact this
  obtain ⟨ls, e5, t7, perm7⟩ := unpack_any (k := k6) (D := d) (o := o) (w := w) (row := row) (other := other) (outs := row ++ other) t6 ok6 ko
    ((live6 o).2 (.inl ⟨lo, oE⟩)) kup (by rw [ins6, if_neg (nd lo), vo.1]; simp [Op.ports])
    (by
      intro l hl e
      have := (hlok l (mem6.1 hl).1).2.1
      rw [e, vo.2] at this
      simp [Op.ports] at this)
    one (by
      intro l hl h1 h2
      obtain ⟨a, a'⟩ := mem6.1 hl
      obtain ⟨kind, q1, q2, _⟩ := z.to_o a h1
      have ls := (hlok l a).1
      rw [ops6 _ a', if_neg (nd ls)]
      refine ⟨z.valid.tags _ ls, ?_⟩
      rw [z.opO, h2] at q2
      have : kind = .value (sumOf [row]) := by simpa [Op.ports] using q2.symm
      rw [← this]; exact q1)
    (by
      rw [Bool.eq_false_iff]; intro e
      rcases (live6 w).1 e with ⟨a, _⟩ | a
      · rw [hw] at a; cases a
      · exact hdw a.symm) rfl
  let u := unpackedTo k6 d o w row (row ++ other)
  have liveu : ∀ x, u.live x = true ↔ (h.live x = true ∧ x ≠ E) ∨ x = d ∨ x = w := by
    intro x
    simp only [u, unpackedTo, added, upd]
    by_cases a : x = w
    · simp [a]
    · simp only [if_neg a, a, or_false]; exact live6 x
  have insu : ∀ x, u.ins x = if x = w then 2 else if x = o then (row ++ other).length + 1 else
      if x = d then sig.input.length + 1 else h.ins x := by
    intro x
    simp only [u, unpackedTo, added, upd]
    by_cases a : x = w
    · rw [if_pos a, if_pos a, Builder.inputs_eq rfl]; simp [Op.ports, unpackOp]
    · rw [if_neg a, if_neg a, ins6]
  have outsu : ∀ x, u.outs x = if x = w then row.length + 1 else if x = d then (row ++ other).length + 1 else h.outs x := by
    intro x
    simp only [u, unpackedTo, added, upd]
    by_cases a : x = w
    · rw [if_pos a, if_pos a, Builder.outputs_eq rfl]; simp [Op.ports, unpackOp]
    · rw [if_neg a, if_neg a, outs6]
  have memls : ∀ l ∈ ls, (∃ l' ∈ h.links, l'.src ≠ E ∧ l = redirect o w row.length l') ∨ ∃ q < row.length, l = ⟨w, q, o, q⟩ := by
    intro l hl
    rcases List.mem_append.1 (perm7.mem_iff.1 hl) with hm | hm
    · obtain ⟨l', a, b⟩ := List.mem_map.1 hm
      obtain ⟨c, f⟩ := mem6.1 a
      exact .inl ⟨l', c, f, b.symm⟩
    · obtain ⟨q, a, b⟩ := List.mem_map.1 hm
      exact .inr ⟨q, List.mem_range.1 a, b.symm⟩
  have rsrc : ∀ l, (redirect o w row.length l).src = l.src ∧ (redirect o w row.length l).srcPort = l.srcPort := by
    intro l; unfold redirect
    by_cases a : l.dst = o <;> by_cases b : l.dstPort = 0 <;> simp [a, b]
  have oku : LinksOk (SetLinks u ls) := by
    intro l hl
    rcases memls l hl with ⟨l', a, b, rfl⟩ | ⟨q, a, rfl⟩
    · obtain ⟨c1, c2, c3, c4⟩ := ok6 l' (mem6.2 ⟨a, b⟩)
      obtain ⟨f1, f2⟩ := rsrc l'
      have l1 : u.live l'.src = true := (liveu _).2 (by rcases (live6 _).1 c1 with q | q <;> simp [q])
      have hls := (hlok l' a).1
      have hld := (hlok l' a).2.2.1
      have o1 : l'.srcPort < u.outs l'.src := by
        rw [outsu, if_neg (nw hls)]; rw [outs6] at c2; exact c2
      refine ⟨by rw [f1]; exact l1, by rw [f1, f2]; exact o1, ?_, ?_⟩
      · unfold redirect
        by_cases e : l'.dst = o
        · rw [if_pos e]
          by_cases e' : l'.dstPort = 0
          · rw [if_pos e']; exact (liveu w).2 (by simp)
          · rw [if_neg e']
            exact (liveu _).2 (by rcases (live6 _).1 c3 with q | q <;> simp [q])
        · rw [if_neg e]
          exact (liveu _).2 (by rcases (live6 _).1 c3 with q | q <;> simp [q])
      · unfold redirect
        by_cases e : l'.dst = o
        · rw [if_pos e]
          by_cases e' : l'.dstPort = 0
          · rw [if_pos e']
            change l'.dstPort < u.ins w
            rw [insu, if_pos rfl, e']; omega
          · rw [if_neg e']
            change row.length + (l'.dstPort - 1) < u.ins l'.dst
            rw [insu, if_neg (nw hld), if_pos e]
            have := (hlok l' a).2.2.2
            rw [e, vo.1] at this
            simp [Op.ports] at this
            simp; omega
        · rw [if_neg e]
          change l'.dstPort < u.ins l'.dst
          rw [insu, if_neg (nw hld), if_neg e]
          rw [ins6] at c4; exact c4
    · refine ⟨(liveu w).2 (by simp), ?_, (liveu o).2 (.inl ⟨lo, oE⟩), ?_⟩
      · change q < u.outs w
        rw [outsu, if_pos rfl]; omega
      · change q < u.ins o
        rw [insu, if_neg (nw lo), if_pos rfl]; simp; omega
  have hGl := z.liveG
  have uGi : u.ins G = sig.input.length + 1 := by
    rw [insu, if_neg (nw hGl), if_neg (Ne.symm oG), if_neg (nd hGl)]; exact z.portsG.1
  have udi : u.ins d = sig.input.length + 1 := by rw [insu, if_neg hdw, if_neg (Ne.symm (nd lo)), if_pos rfl]
  obtain ⟨g, e6, perm8, g0, g1, g2, g3, g4, g5, g6, g7, g8⟩ := C76_entry_links_partial (h := SetLinks u ls) (G := G) (d := d) (sig := sig)
    (ins := row ++ other) oku (nd hGl) ((liveu G).2 (.inl ⟨hGl, Ne.symm z.EG⟩)) ((liveu d).2 (by simp)) uGi
    (by change u.ins d = u.ins G; rw [udi, uGi]) (by change u.outs d = _; rw [outsu, if_neg hdw, if_pos rfl])
  have lv : ∀ x, g.live x = true ↔ (h.live x = true ∧ x ≠ E) ∨ x = d ∨ x = w := by rw [g1]; exact liveu
  have notE : ∀ {x}, g.live x = true → x ≠ E := by
    intro x hx
    rcases (lv x).1 hx with q | rfl | rfl
    · exact q.2
    · exact Ne.symm (nd z.liveE)
    · exact Ne.symm (nw z.liveE)
  refine ⟨g, ?_, tree_of_eq t7 g1 g2 g5 g6 g0, lv, ?_, ?_, ?_, ?_, ?_, ⟨?_, ?_⟩, ?_⟩
  · have hio : getIo h E = some (i, o) := by
      unfold getIo
      rw [z.opE, z.inside]; rfl
    unfold entryBefore
    rw [e1, hio]; simp only; rw [e2]; simp only; rw [e3]; simp only; rw [e4]; simp only; rw [e5]
    exact e6
  · intro x hx
    rw [g7]
    change (if x = G then _ else u.ops x) = _
    by_cases f : x = G
    · subst f
      rw [if_pos rfl, if_neg (nw hGl), if_neg (nd hGl), if_pos rfl]
    rw [if_neg f]
    simp only [u, unpackedTo, added, upd]
    by_cases a : x = w
    · rw [if_pos a, if_pos a]
    rw [if_neg a, if_neg a]
    by_cases b : x = o
    · subst b
      rw [if_pos rfl, if_neg (nd lo), if_neg oG, if_pos rfl]
    rw [if_neg b, ops6 x (notE hx), if_neg f, if_neg b]
  · intro x hx
    rw [g2]
    change u.hier.parent x = _
    simp only [u, unpackedTo, added, upd]
    by_cases a : x = w
    · rw [if_pos a, if_pos (.inl a)]
    rw [if_neg a]
    change k6.hier.parent x = _
    rw [par6 x (notE hx)]
    simp only [a, false_or]
  · intro x hx
    change g.hier.children x = _
    rw [g2]
    change u.hier.children x = _
    simp only [u, unpackedTo, added, upd]
    by_cases a : x = d
    · subst a
      rw [if_pos rfl, if_neg (Ne.symm (nd hGl)), if_pos rfl]
      change k6.hier.children x ++ [w] = _
      rw [ch6 x (notE hx), if_neg (Ne.symm (nd hGl)), if_pos rfl]
      rfl
    rw [if_neg a]
    change k6.hier.children x = _
    rw [ch6 x (notE hx)]
    by_cases b : x = G
    · rw [if_pos b, if_pos b]
    rw [if_neg b, if_neg b, if_neg a, if_neg a]
    by_cases f : x = w
    · subst f
      rw [if_pos rfl, if_neg (Ne.symm (nw z.liveP))]
      exact (z.tree.dead hw).2
    · rw [if_neg f]; rfl
  · intro x _
    refine ⟨?_, ?_⟩
    · rw [g8]
      change (if x = G then _ else u.ins x) = _
      rw [insu]
      by_cases c : x = G
      · subst c
        rw [if_pos rfl, if_neg (nw hGl), if_neg (nd hGl), if_pos (.inl rfl)]
      rw [if_neg c]
      by_cases a : x = w
      · rw [if_pos a, if_pos a]
      rw [if_neg a, if_neg a]
      by_cases b : x = o
      · subst b; rw [if_pos rfl, if_neg (nd lo), if_pos (.inr rfl)]
      · rw [if_neg b, if_neg (by rintro (e | e); exacts [c e, b e] : ¬ (x = G ∨ x = o))]
    · rw [g3]
      exact outsu x
  · intro x _ a b
    rw [g4]
    change k6.metadata x = _
    exact meta6 x a
  · rw [g5]; exact mr6
  · rw [g6]; exact en6
  · refine perm8.trans (List.Perm.append_right _ ?_)
    change (ls.map _).Perm _
    refine (perm7.map _).trans (List.Perm.of_eq ?_)
    rw [List.map_append, links6, List.map_map, List.map_map]
    congr 1
    apply List.map_congr_left
    intro q _
    simp only [Function.comp_apply, takeIn]
    rw [if_neg oG]

end FirstAt

/-! ## C76 -/

/-- The entry block `E` of the control-flow graph `G` can be moved out: it goes only to the block `S`, and nothing goes to
it. -/
structure StartsWith (h : Hugr Ops.Op Meta) (G E S : Nat) (sig : Types.Signature) : Prop where
  op : h.ops G = .cfg sig
  children : ∃ more, h.children G = E :: more
  next : (h.links.filter fun l => l.src = E).map Link.dst = [S]
  first : ∀ l ∈ h.links, l.dst ≠ E

theorem StartsWith.at' {G E S : Nat} {sig : Types.Signature} (ht : IsTree h) (hv : Valid C h)
    (hm : h.ops h.moduleRoot = .module) (hG : h.entrypoint = G) (hs : StartsWith h G E S sig) :
    ∃ p i o more inner row other, FirstAt C h p G E S i o more inner sig row other := by
  obtain ⟨more, hch⟩ := hs.children
  have hGl : h.live G = true := hG ▸ ht.entry_live
  have hne : G ≠ h.moduleRoot := by
    intro e; have := hs.op; rw [e, hm] at this; cases this
  obtain ⟨p, hp⟩ := ht.has_parent G hGl hne
  have hc := hv.children G hGl
  unfold ChildrenOk at hc
  rw [hs.op] at hc
  obtain ⟨entry, exit, rest, other, rows, c1, hop, _⟩ := hc
  rw [hch] at c1
  cases c1
  have hEG : h.hier.parent E = some G := (ht.child_iff _ _).1 (by show E ∈ h.children G; rw [hch]; simp)
  have hEl : h.live E = true := (ht.parent_live _ _ hEG).1
  obtain ⟨l, hl, hd⟩ : ∃ l, (h.links.filter fun l => l.src = E) = [l] ∧ l.dst = S := by
    have hs := hs.next
    cases hfil : h.links.filter fun l => l.src = E with
    | nil => rw [hfil] at hs; cases hs
    | cons l ls =>
      rw [hfil, List.map_cons] at hs
      cases ls with
      | cons _ _ => cases hs
      | nil => cases hs; exact ⟨l, rfl, rfl⟩
  have only : ∀ k ∈ h.links, k.src = E → k = l := by
    intro k hk e
    have : k ∈ h.links.filter fun l => l.src = E := List.mem_filter.2 ⟨hk, by simpa using e⟩
    rw [hl] at this; simpa using this
  obtain ⟨hlm, hls⟩ : l ∈ h.links ∧ l.src = E := by
    have : l ∈ h.links.filter fun l => l.src = E := by rw [hl]; simp
    obtain ⟨q1, q2⟩ := List.mem_filter.1 this
    exact ⟨q1, by simpa using q2⟩
  have hSG : h.hier.parent S = some G := by
    obtain ⟨kind, k1, _, q, hq, hor⟩ := hv.kinds l hlm
    have hk : kind = .controlFlow := by
      unfold srcKind at k1
      rw [hls, hop] at k1
      have := List.mem_of_getElem? k1
      have hx : ¬ rows = [] ∧ kind = .controlFlow := by simpa [Op.ports] using this
      exact hx.2
    subst hk
    rw [hls, hEG] at hq
    cases hq
    rcases hor with h1 | ⟨_, _, _, _, ⟨h2, _⟩ | ⟨⟨t, h2, _⟩, _⟩⟩
    · rw [hd] at h1; exact h1
    · cases h2
    · cases h2
  have hSm : S ∈ exit :: rest := by
    have : S ∈ h.children G := (ht.child_iff _ _).2 hSG
    rw [hch] at this
    rcases List.mem_cons.1 this with e | e
    · exact absurd (hd.trans e) (hs.first l hlm)
    · exact e
  have hcE := hv.children E hEl
  unfold ChildrenOk at hcE
  rw [hop] at hcE
  obtain ⟨i, o, inner, i1, _, i3, _⟩ : ∃ inp out rest, h.children E = inp :: out :: rest ∧
    h.ops inp = .input sig.input ∧ h.ops out = .output (sumOf rows :: other) ∧ ∀ c ∈ rest, ¬ IsIO (h.ops c) := hcE
  have port : ∀ q, q < rows.length → l.srcPort = q := by
    intro q hq
    have hk : ((h.ops E).ports .outgoing)[q]? = some .controlFlow := by
      rw [hop]; simp [Op.ports, hq]
    have := hv.outDegree E q _ hEl hk
    have hpos : 0 < (linksFrom h E q).length := by
      have : (linksFrom h E q).length = 1 := this
      omega
    obtain ⟨k, hk⟩ := List.exists_mem_of_length_pos hpos
    obtain ⟨q1, q2⟩ := List.mem_filter.1 hk
    simp only [Bool.and_eq_true, decide_eq_true_eq] at q2
    rw [← only k q1 q2.1]; exact q2.2
  have hlt : l.srcPort < rows.length := by
    have := (linksOk_of ht hv l hlm).2.1
    rw [hls, (hv.ports E hEl).2, hop] at this
    simpa [Op.ports] using this
  have hlen : rows.length = 1 := by
    by_contra hc
    have h0 := port 0 (by omega)
    have h1 := port 1 (by omega)
    omega
  obtain ⟨r, rfl⟩ := List.length_eq_one_iff.1 hlen
  exact ⟨p, i, o, _, inner, r, other, ht, hv, hG, hs.op, hp, hch, hSm, hop, i1, i3, hs.first⟩

/-- **C76** When the entry block goes only to one other block and nothing goes to it, then putting its contents into a
dataflow graph before the control-flow graph does not panic and gives what is described. Partial: this is followed by
adding order edges and inlining the new dataflow graph. -/
theorem C76_entry_moved_partial (ht : IsTree h) (hv : Valid C h) (hm : h.ops h.moduleRoot = .module) {E S d w : Nat}
    {sig : Types.Signature} (hs : StartsWith h h.entrypoint E S sig) (hd : h.live d = false) (hw : h.live w = false)
    (hdw : d ≠ w) :
    ∃ g p i o more row other, h.hier.parent h.entrypoint = some p ∧ h.children h.entrypoint = E :: more ∧ HasIO h E i o ∧
      h.ops E = .dataflowBlock sig.input other [row] ∧
      entryBefore h h.entrypoint E S d w p sig sig.input (row ++ other) = some g ∧ IsTree g ∧
      EntryMoved h p h.entrypoint E S o d w more sig row other g := by
  obtain ⟨p, i, o, more, inner, row, other, z⟩ := hs.at' ht hv hm rfl
  obtain ⟨g, h1, h2, h3⟩ := z.entryBefore_eq hd hw hdw
  exact ⟨g, p, i, o, more, row, other, z.parent, z.children, ⟨_, z.inside⟩, z.opE, h1, h2, h3⟩

/-- The block 5 of `entryHistory` goes only to 7. -/
theorem entry_starts : StartsWith (built entryHistory) 4 5 7 ⟨[bool], [bool]⟩ := by
  refine ⟨rfl, ⟨[6, 7], by decide +kernel⟩, by decide +kernel, by decide +kernel⟩

example : ∃ g p i o more row other, entryBefore (built entryHistory) 4 5 7 20 21 p ⟨[bool], [bool]⟩ [bool] (row ++ other) = some g ∧
    HasIO (built entryHistory) 5 i o ∧
    EntryMoved (built entryHistory) p 4 5 7 o 20 21 more ⟨[bool], [bool]⟩ row other g := by
  obtain ⟨g, p, i, o, more, row, other, _, _, h3, _, h5, _, h7⟩ := C76_entry_moved_partial (d := 20) (w := 21) entry_ok.1 entry_ok.2 rfl
    (by exact entry_starts) (by decide +kernel) (by decide +kernel) (by decide)
  exact ⟨g, p, i, o, more, row, other, h5, h3, h7⟩

end Verif.Patch
