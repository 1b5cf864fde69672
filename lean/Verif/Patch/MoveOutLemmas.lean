import Verif.Patch.MoveOutUnpack

/-!
# What moving the last block out of a control-flow graph gives
-/
namespace Verif.Patch

open Verif.Graph Verif.Ops Verif.Passes Verif.Validate Verif.Dataflow

variable {Meta : Type} {C : Validate.Context} {h g k : Hugr Ops.Op Meta}

/-! ## Specification -/

/-- A link from `G` comes from `d` now. -/
def passOn (G d : Nat) (l : Link) : Link := if l.src = G then { l with src := d } else l

/-- `g` is `h` where the contents of the block `P` of the control-flow graph `G` are in a new dataflow graph `d`
beside `G`. `P` is the exit now, instead of `X`. The first value that the block output at `o`, a tuple of the types
`row`, is unpacked by `w`. What `G` gave is given by `d`, and `G` gives `d` what the block took. -/
structure ExitMoved (h : Hugr Ops.Op Meta) (p G E X P o d w : Nat) (more : List Nat) (sig : Types.Signature)
    (ins row : List Types.Ty) (g : Hugr Ops.Op Meta) : Prop where
  live : ∀ x, g.live x = true ↔ (h.live x = true ∧ x ≠ X) ∨ x = d ∨ x = w
  ops : ∀ x, g.live x = true → g.ops x =
    if x = w then unpackOp row else if x = d then .dfg ⟨ins, sig.output⟩ else if x = G then .cfg ⟨sig.input, ins⟩
    else if x = P then .exitBlock ins else if x = o then .output sig.output else h.ops x
  /-- Nothing is left of what goes. -/
  gone : ∀ x, g.live x = false → g.ops x = if x = X then .module else h.ops x
  parent : ∀ x, g.live x = true → g.hier.parent x =
    if x = w ∨ h.hier.parent x = some P then some d else if x = d then some p else h.hier.parent x
  children : ∀ x, g.live x = true → g.children x =
    if x = G then E :: P :: more.filter (· ≠ P) else if x = P then [] else if x = d then h.children P ++ [w]
    else if x = w then [] else if x = p then h.children p ++ [d] else h.children x
  ports : ∀ x, g.live x = true →
    g.ins x = (if x = w then 2 else if x = d then ins.length + 1 else if x = o then sig.output.length + 1 else h.ins x) ∧
    g.outs x = if x = w then row.length + 1 else if x = d then sig.output.length + 1 else if x = G then ins.length + 1
      else if x = P then 0 else h.outs x
  metadata : ∀ x, g.live x = true → x ≠ d → x ≠ w → g.metadata x = h.metadata x
  roots : g.moduleRoot = h.moduleRoot ∧ g.entrypoint = h.entrypoint
  links : g.links.Perm (((h.links.filter fun l => decide (l.src ≠ P)).map fun l => passOn G d (redirect o w row.length l)) ++
    ((List.range row.length).map fun k => ⟨w, k, o, k⟩) ++ (List.range (ins.length + 1)).map fun k => ⟨G, k, d, k⟩)

/-- What is inside the block `P` of `G` uses nothing from the other blocks, and only constants and functions from
outside `G`. -/
def Closed (h : Hugr Ops.Op Meta) (G P : Nat) : Prop :=
  ∀ l ∈ h.links, Above h.hier.parent l.dst P → l.dst ≠ P → ¬ Above h.hier.parent l.src P →
    ¬ Above h.hier.parent l.src G ∧ ∃ kind, srcKind h l = some kind ∧ kind.isStatic = true

/-- The control-flow graph `G` in `p` starts with `E`, has the exit `X`, and its last block `P` is another than `E`. -/
structure LastAt (C : Validate.Context) (h : Hugr Ops.Op Meta) (p G E X P i o : Nat) (more inner : List Nat)
    (sig : Types.Signature) (ins row other : List Types.Ty) : Prop where
  tree : IsTree h
  valid : Valid C h
  entry : h.entrypoint = G
  op : h.ops G = .cfg sig
  parent : h.hier.parent G = some p
  children : h.children G = E :: X :: more
  mem : P ∈ more
  opX : h.ops X = .exitBlock sig.output
  opP : h.ops P = .dataflowBlock ins other [row]
  inside : h.children P = i :: o :: inner
  opI : h.ops i = .input ins
  opO : h.ops o = .output (sumOf [row] :: other)
  outs : sig.output = row ++ other
  /-- The only link from `P` is the only link to `X`. -/
  link : ⟨P, 0, X, 0⟩ ∈ h.links
  succ : ∀ l ∈ h.links, l.src = P → l = ⟨P, 0, X, 0⟩
  pred : ∀ l ∈ h.links, l.dst = X → l = ⟨P, 0, X, 0⟩
  /-- The results that are used have a port at the new control-flow graph. -/
  kept : ∀ l ∈ h.links, l.src = G → l.srcPort ≤ ins.length
  closed : Closed h G P

/-! ## Moving nodes -/

theorem moveKids {P d : Nat} (hPd : P ≠ d) : ∀ (cs : List Nat) (h : Hugr Ops.Op Meta), IsTree h →
    h.live d = true → cs.Nodup → (∀ c ∈ cs, h.hier.parent c = some P ∧ ¬ Above h.hier.parent d c) →
    ∃ g, each (fun g c => g.setParent c d) h cs = some g ∧ IsTree g ∧
      (∀ m, g.hier.parent m = if m ∈ cs then some d else h.hier.parent m) ∧
      g.hier.children d = h.hier.children d ++ cs ∧
      (∀ m, m ≠ d → g.hier.children m = (h.hier.children m).filter (· ∉ cs)) ∧
      g = { h with hier := g.hier }
  | [], h, ht, _, _, _ => ⟨h, rfl, ht, by simp, by simp, by simp, rfl⟩
  | c :: cs, h, ht, hd, hn, hc => by
    obtain ⟨hcP, hcd⟩ := hc c (by simp)
    obtain ⟨hiff, hmove⟩ := C20_set_parent h ht c d
    obtain ⟨h1, hs⟩ := hiff.2 ⟨(ht.parent_live _ _ hcP).1, hd, hcd⟩
    obtain ⟨ht1, hm⟩ := hmove h1 hs
    have hch : h1.hier.children d = h.hier.children d ++ [c] := by
      rw [hm.target]
      congr 1
      rw [List.filter_eq_self]
      intro x hx
      have := (ht.child_iff d x).1 hx
      simp only [ne_eq, decide_not, Bool.not_eq_eq_eq_not, Bool.not_true, decide_eq_false_iff_not]
      rintro rfl
      rw [this] at hcP; cases hcP
      exact hPd rfl
    have hup : ∀ x, Above h1.hier.parent d x ↔ Above h.hier.parent d x := by
      intro x
      refine above_iff_of_eq (live := fun m => Above h.hier.parent d m) (fun m hm' => ?_) (fun m q h1 h2 => h1.trans (.of_parent h2)) (.refl _)
      rw [hm.parent, if_neg (by rintro rfl; exact hcd hm')]
    have hcs : ∀ x ∈ cs, h1.hier.parent x = some P ∧ ¬ Above h1.hier.parent d x := by
      intro x hx
      obtain ⟨a, b⟩ := hc x (by simp [hx])
      refine ⟨?_, fun e => b ((hup x).1 e)⟩
      rw [hm.parent, if_neg (by rintro rfl; exact (List.nodup_cons.1 hn).1 hx)]
      exact a
    obtain ⟨g, e1, e2, e3, e4, e5, e6⟩ := moveKids hPd cs h1 ht1 (by rw [hm.rest]; exact hd) (List.nodup_cons.1 hn).2 hcs
    refine ⟨g, ?_, e2, ?_, ?_, ?_, ?_⟩
    · simp only [each, hs]; exact e1
    · intro m
      rw [e3, hm.parent]
      by_cases h1 : m ∈ cs <;> by_cases h2 : m = c <;> simp [h1, h2]
    · rw [e4, hch, List.append_assoc]; rfl
    · intro m hmp
      rw [e5 m hmp, hm.others m hmp, List.filter_filter]
      apply List.filter_congr
      intro x _
      by_cases h1 : x ∈ cs <;> by_cases h2 : x = c <;> simp [h1, h2]
    · rw [e6, hm.rest]

/-! ## Moving links -/

theorem moveOuts {G d : Nat} (hGd : G ≠ d) : ∀ (ps : List Nat) (h : Hugr Ops.Op Meta), h.live G = true →
    (∀ q ∈ ps, q < h.outs G) → LinksOk h → h.live d = true → (∀ l ∈ h.links, l.src = G → l.srcPort < h.outs d) →
    ∃ ls, each (moveOut G d) h ps = some (SetLinks h ls) ∧
      ls.Perm (h.links.map fun l => if l.src = G ∧ l.srcPort ∈ ps then { l with src := d } else l)
  | [], h, _, _, _, _, _ => ⟨h.links, rfl, by simp⟩
  | q :: ps, h, hG, hq, hl, hd, hs => by
    have e1 := disconnect_eq (h := h) (dir := .outgoing) hG (by exact hq q (by simp))
    let h1 := SetLinks h (h.links.filter fun l => !l.at G .outgoing q)
    have e2 := connectMany (fun t : Nat × Nat => (⟨d, q, t.1, t.2⟩ : Link)) (h.linkedInputs G q) h1 (by
      intro t ht
      have hm := mem_linkedInputs.1 ht
      exact ⟨⟨hd, hs ⟨G, q, t.1, t.2⟩ hm rfl⟩, (hl _ hm).2.2.1, (hl _ hm).2.2.2⟩)
    let l2 := (h.links.filter fun l => !l.at G .outgoing q) ++ (h.linkedInputs G q).map fun t => (⟨d, q, t.1, t.2⟩ : Link)
    have perm : l2.Perm (h.links.map fun l => if l.src = G ∧ l.srcPort = q then { l with src := d } else l) := by
      refine List.Perm.symm (((List.filter_append_perm (fun l : Link => !l.at G .outgoing q) h.links).symm.map _).trans (List.Perm.of_eq ?_))
      rw [List.map_append]
      congr 1
      · conv => rhs; rw [← List.map_id (h.links.filter _)]
        apply List.map_congr_left
        intro l hl
        have := (List.mem_filter.1 hl).2
        simp only [Link.at, Bool.not_eq_eq_eq_not, Bool.not_true, Bool.and_eq_false_imp] at this
        rw [if_neg]; · rfl
        rintro ⟨a, b⟩
        simp [a, b] at this
      · unfold Hugr.linkedInputs
        rw [List.map_map]
        have : (h.links.filter fun l => !(!l.at G .outgoing q)) = h.links.filter fun l => decide (l.src = G) && decide (l.srcPort = q) := by
          apply List.filter_congr
          intro l _
          by_cases a : l.src = G <;> by_cases b : l.srcPort = q <;> simp [a, b, Link.at]
        rw [this]
        apply List.map_congr_left
        intro l hl
        have := (List.mem_filter.1 hl).2
        simp only [Bool.and_eq_true, decide_eq_true_eq] at this
        rw [if_pos this]
        simp [this.2]
    have hmem : ∀ l ∈ l2, ∃ l' ∈ h.links, l = if l'.src = G ∧ l'.srcPort = q then { l' with src := d } else l' := by
      intro l hl
      obtain ⟨l', a, b⟩ := List.mem_map.1 (perm.mem_iff.1 hl)
      exact ⟨l', a, b.symm⟩
    have ok2 : LinksOk (SetLinks h l2) := by
      intro l hl'
      obtain ⟨l', a, rfl⟩ := hmem l hl'
      obtain ⟨c1, c2, c3, c4⟩ := hl l' a
      by_cases e : l'.src = G ∧ l'.srcPort = q
      · rw [if_pos e]; exact ⟨hd, hs l' a e.1, c3, c4⟩
      · rw [if_neg e]; exact ⟨c1, c2, c3, c4⟩
    obtain ⟨ls, e3, e4⟩ := moveOuts hGd ps (SetLinks h l2) hG (fun x hx => hq x (by simp [hx])) ok2 hd (by
      intro l hl' e
      obtain ⟨l', a, rfl⟩ := hmem l hl'
      by_cases e2 : l'.src = G ∧ l'.srcPort = q
      · rw [if_pos e2] at e; exact absurd e (Ne.symm hGd)
      · rw [if_neg e2] at e ⊢; exact hs l' a e)
    refine ⟨ls, ?_, ?_⟩
    · simp only [each, moveOut, e1]
      have e2' : each (fun (g : Hugr Ops.Op Meta) (t : Nat × Nat) => g.connect ⟨d, q, t.1, t.2⟩)
        (SetLinks h (h.links.filter fun l => !l.at G .outgoing q)) (h.linkedInputs G q) = some (SetLinks h l2) := e2
      rw [e2']
      exact e3
    · refine e4.trans ((perm.map _).trans (List.Perm.of_eq ?_))
      rw [List.map_map]
      apply List.map_congr_left
      intro l _
      simp only [Function.comp_apply, List.mem_cons]
      by_cases a : l.src = G
      · by_cases b : l.srcPort = q
        · simp [a, b, Ne.symm hGd]
        · simp [a, b]
      · simp [a]

/-! ## The block becomes the exit -/

/-- `g` is `h` where `P` is the exit of `G` instead of `X`. -/
structure NewExit (h : Hugr Ops.Op Meta) (G E X P : Nat) (more : List Nat) (sig : Types.Signature) (ins : List Types.Ty)
    (g : Hugr Ops.Op Meta) : Prop where
  tree : IsTree g
  live : ∀ x, g.live x = true ↔ h.live x = true ∧ x ≠ X
  ops : ∀ x, g.ops x = if x = X then .module else if x = P then .exitBlock ins else if x = G then .cfg ⟨sig.input, ins⟩ else h.ops x
  parent : ∀ x, x ≠ X → g.hier.parent x = h.hier.parent x
  children : ∀ x, g.hier.children x = if x = G then E :: P :: more.filter (· ≠ P) else h.hier.children x
  insEq : g.ins = h.ins
  outsEq : ∀ x, g.outs x = if x = P then 0 else if x = G then ins.length + 1 else h.outs x
  metadata : g.metadata = h.metadata
  roots : g.moduleRoot = h.moduleRoot ∧ g.entrypoint = h.entrypoint
  links : g.links = h.links.filter fun l => decide (l.src ≠ P)

namespace LastAt

variable {p G E X P i o : Nat} {more inner : List Nat} {sig : Types.Signature} {ins row other : List Types.Ty}

variable (z : LastAt C h p G E X P i o more inner sig ins row other)

include z

theorem upP : h.hier.parent P = some G :=
  (z.tree.child_iff _ _).1 (by show P ∈ h.children G; rw [z.children]; simp [z.mem])

theorem upX : h.hier.parent X = some G :=
  (z.tree.child_iff _ _).1 (by show X ∈ h.children G; rw [z.children]; simp)

theorem upE : h.hier.parent E = some G :=
  (z.tree.child_iff _ _).1 (by show E ∈ h.children G; rw [z.children]; simp)

theorem upO : h.hier.parent o = some P :=
  (z.tree.child_iff _ _).1 (by show o ∈ h.children P; rw [z.inside]; simp)

theorem upI : h.hier.parent i = some P :=
  (z.tree.child_iff _ _).1 (by show i ∈ h.children P; rw [z.inside]; simp)

theorem nodup : (E :: X :: more).Nodup := by
  have := z.tree.child_once G
  rwa [show h.hier.children G = _ from z.children] at this

theorem EP : E ≠ P := by
  rintro rfl; exact (List.nodup_cons.1 z.nodup).1 (by simp [z.mem])

theorem XP : X ≠ P := by
  rintro rfl; exact (List.nodup_cons.1 (List.nodup_cons.1 z.nodup).2).1 z.mem

theorem EX : E ≠ X := by
  rintro rfl; exact (List.nodup_cons.1 z.nodup).1 (by simp)

theorem PG : P ≠ G := by
  have := z.opP; rintro rfl; rw [z.op] at this; cases this

theorem XG : X ≠ G := by
  have := z.opX; rintro rfl; rw [z.op] at this; cases this

theorem X_leaf {x : Nat} : h.hier.parent x ≠ some X := by
  intro e
  have hc := z.valid.children X (z.tree.parent_live _ _ z.upX).1
  unfold ChildrenOk at hc
  rw [z.opX] at hc
  have hm : x ∈ h.children X := (z.tree.child_iff _ _).2 e
  rw [show h.children X = [] from hc] at hm; cases hm

theorem liveG : h.live G = true := (z.tree.parent_live _ _ z.upP).2
theorem liveP : h.live P = true := (z.tree.parent_live _ _ z.upP).1
theorem liveX : h.live X = true := (z.tree.parent_live _ _ z.upX).1

theorem portsP : h.ins P = 1 ∧ h.outs P = 1 := by
  have := z.valid.ports P z.liveP
  rw [z.opP] at this
  simpa [Op.ports] using this

theorem portsX : h.ins X = 1 ∧ h.outs X = 0 := by
  have := z.valid.ports X z.liveX
  rw [z.opX] at this
  simpa [Op.ports] using this

theorem portsG : h.ins G = sig.input.length + 1 ∧ h.outs G = sig.output.length + 1 := by
  have := z.valid.ports G z.liveG
  rw [z.op] at this
  simpa [Op.ports] using this

theorem newExit_eq : ∃ g, newExit h G P X sig ins = some g ∧ NewExit h G E X P more sig ins g := by
  have hlok := linksOk_of z.tree z.valid
  let h1 : Hugr Ops.Op Meta := { h with ops := upd h.ops G (.cfg ⟨sig.input, ins⟩) }
  have e1 : h.replaceOp G (.cfg ⟨sig.input, ins⟩) = some (h1, h.ops G) := by
    unfold Hugr.replaceOp; rw [if_pos z.liveG]
  let h2 : Hugr Ops.Op Meta := { h1 with outs := upd h.outs G (ins.length + 1) }
  have hnew : addSigned (h.outs G) ((ins.length : Int) - (sig.output.length : Nat)) = ins.length + 1 := by
    rw [z.portsG.2]; unfold addSigned; omega
  have e2 : h1.addPorts G .outgoing ((ins.length : Int) - (sig.output.length : Nat)) = some (h2, (h.outs G, ins.length + 1)) := by
    unfold Hugr.addPorts
    rw [if_pos (by exact z.liveG)]
    simp only
    change some (h1.resizePorts G (h.ins G) (addSigned (h.outs G) _), (h.outs G, addSigned (h.outs G) _)) = _
    rw [hnew]
    have hl : (h.links.filter fun l => (l.dst != G || decide (l.dstPort < h.ins G)) && (l.src != G || decide (l.srcPort < ins.length + 1))) = h.links := by
      rw [List.filter_eq_self]
      intro l hl
      obtain ⟨_, _, _, q4⟩ := hlok l hl
      have q5 := z.kept l hl
      by_cases a : l.dst = G <;> by_cases b : l.src = G
      · have := q5 b; rw [a] at q4; simp [q4]; right; omega
      · rw [a] at q4; simp [q4, b]
      · have := q5 b; simp [a]; right; omega
      · simp [a, b]
    have hi : upd h.ins G (h.ins G) = h.ins := by
      funext x; unfold upd; split
      · rename_i e; rw [e]
      · rfl
    unfold Hugr.resizePorts
    simp only [h2, h1]
    rw [hl, hi]
  let h3 : Hugr Ops.Op Meta := { h2 with ops := upd h1.ops P (.exitBlock ins) }
  have e3 : h2.replaceOp P (.exitBlock ins) = some (h3, h1.ops P) := by
    unfold Hugr.replaceOp; rw [if_pos (by exact z.liveP)]
  let h4 : Hugr Ops.Op Meta := { h3 with outs := upd h2.outs P 0, links := h.links.filter fun l => decide (l.src ≠ P) }
  have e4 : h3.setNumPorts P 1 0 = some h4 := by
    unfold Hugr.setNumPorts
    rw [if_pos (by exact z.liveP)]
    have hi : upd h.ins P 1 = h.ins := by
      funext x; unfold upd; split
      · rename_i e; rw [e, z.portsP.1]
      · rfl
    have hl : (h.links.filter fun l => (l.dst != P || decide (l.dstPort < 1)) && (l.src != P || decide (l.srcPort < 0))) =
        h.links.filter fun l => decide (l.src ≠ P) := by
      apply List.filter_congr
      intro l hl
      obtain ⟨_, _, _, q4⟩ := hlok l hl
      by_cases a : l.dst = P
      · rw [a, z.portsP.1] at q4
        have : l.dstPort = 0 := by omega
        by_cases b : l.src = P <;> simp [b, this]
      · by_cases b : l.src = P <;> simp [a, b]
    unfold Hugr.resizePorts
    simp only [h4, h3, h2, h1]
    rw [hl, hi]
  have t4 : IsTree h4 := tree_of_eq z.tree rfl rfl rfl rfl rfl
  obtain ⟨m1, m2⟩ := C20_move_before h4 t4 P X
  obtain ⟨h5, e5⟩ := m1.2 ⟨z.liveP, by show P ≠ h.entrypoint; rw [z.entry]; exact z.PG, z.liveX,
    by show X ≠ h.entrypoint; rw [z.entry]; exact z.XG, Ne.symm z.XP, G, z.upX, z.tree.acyclic _ _ z.upP⟩
  obtain ⟨t5, q, a, b, q1, q2, mv⟩ := m2 h5 e5
  have hq : q = G := by
    have : h.hier.parent X = some q := q1
    rw [z.upX] at this; exact (Option.some.inj this).symm
  subst hq
  have hfil : (h.hier.children q).filter (· ≠ P) = E :: X :: more.filter (· ≠ P) := by
    rw [show h.hier.children q = _ from z.children]
    rw [List.filter_cons_of_pos (by simpa using z.EP), List.filter_cons_of_pos (by simpa using z.XP)]
  have hab : a = [E] ∧ b = more.filter (· ≠ P) := by
    have q3 : a ++ X :: b = E :: X :: more.filter (· ≠ P) := q2.symm.trans hfil
    cases a with
    | nil =>
      simp only [List.nil_append, List.cons.injEq] at q3
      exact absurd q3.1.symm z.EX
    | cons x a =>
      simp only [List.cons_append, List.cons.injEq] at q3
      obtain ⟨rfl, q3⟩ := q3
      cases a with
      | nil =>
        simp only [List.nil_append, List.cons.injEq, true_and] at q3
        exact ⟨rfl, q3⟩
      | cons y a =>
        simp only [List.cons_append, List.cons.injEq] at q3
        have hX : X ∈ more.filter (· ≠ P) := by rw [← q3.2]; simp
        exact absurd (List.mem_filter.1 hX).1 (List.nodup_cons.1 (List.nodup_cons.1 z.nodup).2).1
  obtain ⟨rfl, rfl⟩ := hab
  have hXc : h5.children X = [] := by
    change h5.hier.children X = []
    rw [mv.others X z.XG]
    have : h.hier.children X = [] := by
      rw [List.eq_nil_iff_forall_not_mem]
      intro c hc
      exact z.X_leaf ((z.tree.child_iff _ _).1 hc)
    change (h.hier.children X).filter _ = []
    rw [this]; rfl
  have r5 := mv.rest
  have hXr : X ≠ h.moduleRoot := by
    intro e; have := z.upX; rw [e, z.tree.root_top] at this; cases this
  obtain ⟨h6, e6, r6⟩ := removeLeaf t5 (n := X) (by rw [r5]; exact z.liveX)
    (by rw [r5]; show X ≠ h.entrypoint; rw [z.entry]; exact z.XG) (by rw [r5]; exact hXr) hXc
  refine ⟨h6, ?_, r6.tree, ?_, ?_, ?_, ?_, ?_, ?_, ?_, ⟨?_, ?_⟩, ?_⟩
  · unfold newExit
    rw [e1]; simp only; rw [e2]; simp only; rw [e3]; simp only; rw [e4]; simp only; rw [e5]
    exact e6
  · intro x; rw [r6.live, r5]
  · intro x
    by_cases a : x = X
    · subst a; rw [r6.gone, if_pos rfl]
    · rw [r6.ops x a, r5, if_neg a]
      rfl
  · intro x a
    rw [r6.parent x a, mv.parent]
    by_cases b : x = P
    · subst b; rw [if_pos rfl]; exact z.upP.symm
    · rw [if_neg b]
  · intro x
    rw [r6.children]
    by_cases a : x = q
    · subst a
      rw [mv.target, if_pos rfl]
      rw [List.cons_append, List.nil_append, List.filter_cons_of_pos (by simpa using z.EX),
        List.filter_cons_of_pos (by simpa using Ne.symm z.XP), List.filter_cons_of_neg (by simp), List.filter_eq_self.2]
      intro c hc
      have : c ∈ more := (List.mem_filter.1 hc).1
      simp only [ne_eq, decide_not, Bool.not_eq_eq_eq_not, Bool.not_true, decide_eq_false_iff_not]
      rintro rfl
      exact (List.nodup_cons.1 (List.nodup_cons.1 z.nodup).2).1 this
    · rw [mv.others x a, if_neg a, List.filter_filter, List.filter_eq_self.2]
      intro c hc
      have hp : h.hier.parent c = some x := (z.tree.child_iff _ _).1 hc
      have c1 : c ≠ P := by rintro rfl; rw [z.upP] at hp; exact a (Option.some.inj hp).symm
      have c2 : c ≠ X := by rintro rfl; rw [z.upX] at hp; exact a (Option.some.inj hp).symm
      simp [c1, c2]
  · rw [r6.ins, r5]
  · intro x; rw [r6.outs, r5]; rfl
  · rw [r6.metadata, r5]
  · rw [r6.moduleRoot, r5]
  · rw [r6.entrypoint, r5]
  · rw [r6.links, r5, List.filter_eq_self]
    intro l hl
    obtain ⟨q3, q4⟩ := List.mem_filter.1 hl
    simp only [ne_eq, decide_not, Bool.not_eq_eq_eq_not, Bool.not_true, decide_eq_false_iff_not] at q4
    have c1 : l.src ≠ X := by
      intro e
      have := (hlok l q3).2.1
      rw [e, z.portsX.2] at this; omega
    have c2 : l.dst ≠ X := by
      intro e
      have := z.pred l q3 e
      exact q4 (by rw [this])
    simp [c1, c2]

theorem live_o : h.live o = true := (z.tree.parent_live _ _ z.upO).1

theorem not_in {x y : Nat} (h1 : h.hier.parent x = some P) (h2 : Above h.hier.parent y x) : y ≠ G ∧ y ≠ P ∧ y ≠ X ∧ y ≠ E ∧ y ≠ p := by
  have hac := z.tree.acyclic
  have hyP : Above h.hier.parent y P := h2.trans (.of_parent h1)
  refine ⟨?_, ?_, ?_, ?_, ?_⟩
  · rintro rfl; exact hac _ _ z.upP hyP
  · rintro rfl; exact hac _ _ h1 h2
  · rintro rfl
    rcases above_cases hyP with e | ⟨q, hq, hqP⟩
    · exact z.XP e
    · rw [z.upX] at hq; cases hq; exact hac _ _ z.upP hqP
  · rintro rfl
    rcases above_cases hyP with e | ⟨q, hq, hqP⟩
    · exact z.EP e
    · rw [z.upE] at hq; cases hq; exact hac _ _ z.upP hqP
  · rintro rfl
    exact hac _ _ z.parent (hyP.trans (.of_parent z.upP))

/-- What the output takes comes from the block. -/
theorem to_o {l : Link} (hl : l ∈ h.links) (hd : l.dst = o) : ∃ kind, srcKind h l = some kind ∧
    ((h.ops o).ports .incoming)[l.dstPort]? = some kind ∧ l.src ≠ G ∧ l.src ≠ P ∧ l.src ≠ X := by
  obtain ⟨kind, k1, k2, _⟩ := z.valid.kinds l hl
  rw [hd] at k2
  have hnot : ¬ kind.isStatic = true := by
    have := List.mem_of_getElem? k2
    rw [z.opO] at this
    simp only [Op.ports, List.mem_append, List.mem_map, List.mem_singleton] at this
    rcases this with ⟨t, _, rfl⟩ | rfl <;> simp [Kind.isStatic]
  have hsP : Above h.hier.parent l.src P := by
    by_contra hc
    obtain ⟨_, k', e1, e2⟩ := z.closed l hl (hd ▸ .of_parent z.upO) (hd ▸ (z.not_in z.upO (.refl _)).2.1) hc
    rw [k1] at e1; cases e1; exact hnot e2
  have hP : l.src ≠ P := by
    intro e
    have := z.succ l hl e
    rw [this] at hd
    exact (z.not_in z.upO (.refl _)).2.2.1 hd.symm
  obtain ⟨c, c1, c2⟩ := hsP.last hP
  obtain ⟨q1, q2, q3, _⟩ := z.not_in c2 c1
  exact ⟨kind, k1, k2, q1, q2, q3⟩

theorem exitOut_eq {d w : Nat} (hd : h.live d = false) (hw : h.live w = false) (hdw : d ≠ w) :
    ∃ g, exitOut h G P X d w = some g ∧ IsTree g ∧ ExitMoved h p G E X P o d w more sig ins row g := by
  have hac := z.tree.acyclic
  have hlok := linksOk_of z.tree z.valid
  obtain ⟨k, e1, y⟩ := z.newExit_eq
  have hlp : h.live p = true := (z.tree.parent_live _ _ z.parent).2
  have nd : ∀ {x}, h.live x = true → x ≠ d := fun a e => by rw [e, hd] at a; cases a
  have nw : ∀ {x}, h.live x = true → x ≠ w := fun a e => by rw [e, hw] at a; cases a
  have pX : p ≠ X := by rintro rfl; exact z.X_leaf z.parent
  have kd : k.live d = false := by
    rw [Bool.eq_false_iff]; intro e
    have := ((y.live d).1 e).1
    rw [hd] at this; cases this
  obtain ⟨e2, t5⟩ := addNodeWithParent_eq (h := k) (idx := d) (p := p) (op := .dfg ⟨ins, sig.output⟩) y.tree kd ((y.live p).2 ⟨hlp, pX⟩)
  let k5 := added k d p (.dfg ⟨ins, sig.output⟩) (k.children p ++ [d])
  have pP : p ≠ P := by
    rintro rfl; exact hac _ _ z.parent (.of_parent z.upP)
  have pG : p ≠ G := by
    rintro rfl; exact hac _ _ z.parent (.refl _)
  have par5 : ∀ x, x ≠ X → x ≠ d → k5.hier.parent x = h.hier.parent x := by
    intro x hx hxd
    simp only [k5, added, upd, if_neg hxd]
    exact y.parent x hx
  have ch5 : k5.hier.children P = h.hier.children P := by
    simp only [k5, added, upd, if_neg (Ne.symm pP)]
    rw [y.children, if_neg z.PG]
  have kid : ∀ {c}, c ∈ h.hier.children P ↔ h.hier.parent c = some P := fun {c} => z.tree.child_iff _ _
  have kidl : ∀ {c}, h.hier.parent c = some P → h.live c = true := fun hc => (z.tree.parent_live _ _ hc).1
  obtain ⟨k6, e3, t6, p6, cd6, c6, s6⟩ := moveKids (P := P) (d := d) (nd z.liveP) (h.hier.children P) k5 t5
    (by simp [k5, added, upd]) (z.tree.child_once P) (by
      intro c hc
      have hcP := kid.1 hc
      obtain ⟨q1, q2, q3, q4, q5⟩ := z.not_in hcP (.refl _)
      have a1 : k5.hier.parent c = some P := by rw [par5 c q3 (nd (kidl hcP))]; exact hcP
      refine ⟨a1, fun ha => ?_⟩
      have a2 : k5.hier.parent P = some G := by rw [par5 P (Ne.symm z.XP) (nd z.liveP)]; exact z.upP
      have a3 : k5.hier.parent G = some p := by rw [par5 G (Ne.symm z.XG) (nd z.liveG)]; exact z.parent
      rcases above_cases ha with e | ⟨q, hq, hqc⟩
      · exact nd (kidl hcP) e.symm
      · have : k5.hier.parent d = some p := by simp [k5, added, upd]
        rw [this] at hq; cases hq
        exact t5.acyclic _ _ a1 (.step a2 (.step a3 hqc)))
  have live6 : ∀ x, k6.live x = true ↔ (h.live x = true ∧ x ≠ X) ∨ x = d := by
    intro x
    rw [s6]
    simp only [k5, added, upd]
    by_cases a : x = d
    · simp [a]
    · simp only [if_neg a, a, or_false]; exact y.live x
  have ops6 : ∀ x, k6.ops x = if x = d then .dfg ⟨ins, sig.output⟩ else if x = X then .module else if x = P then .exitBlock ins
      else if x = G then .cfg ⟨sig.input, ins⟩ else h.ops x := by
    intro x
    rw [s6]
    simp only [k5, added, upd]
    by_cases a : x = d
    · simp [a]
    · simp only [if_neg a]; exact y.ops x
  have ins6 : ∀ x, k6.ins x = if x = d then ins.length + 1 else h.ins x := by
    intro x
    rw [s6]
    simp only [k5, added, upd]
    by_cases a : x = d
    · rw [if_pos a, if_pos a, Builder.inputs_eq rfl]; simp [Op.ports]
    · rw [if_neg a, if_neg a, y.insEq]
  have outs6 : ∀ x, k6.outs x = if x = d then sig.output.length + 1 else if x = P then 0 else if x = G then ins.length + 1 else h.outs x := by
    intro x
    rw [s6]
    simp only [k5, added, upd]
    by_cases a : x = d
    · rw [if_pos a, if_pos a, Builder.outputs_eq rfl]; simp [Op.ports]
    · rw [if_neg a, if_neg a, y.outsEq]
  have links6 : k6.links = h.links.filter fun l => decide (l.src ≠ P) := by rw [s6]; exact y.links
  have mem6 : ∀ {l}, l ∈ k6.links ↔ l ∈ h.links ∧ l.src ≠ P := by
    intro l; rw [links6, List.mem_filter]; simp
  have srcX : ∀ l ∈ h.links, l.src ≠ X := by
    intro l hl e
    have := (hlok l hl).2.1
    rw [e, z.portsX.2] at this; omega
  have dstX : ∀ l ∈ h.links, l.src ≠ P → l.dst ≠ X := fun l hl hP e => hP (by rw [z.pred l hl e])
  have ok6 : LinksOk k6 := by
    intro l hl
    obtain ⟨h1, h2⟩ := mem6.1 hl
    obtain ⟨a, b, c, f⟩ := hlok l h1
    refine ⟨(live6 _).2 (.inl ⟨a, srcX l h1⟩), ?_, (live6 _).2 (.inl ⟨c, dstX l h1 h2⟩), ?_⟩
    · rw [outs6, if_neg (nd a), if_neg h2]
      by_cases e : l.src = G
      · rw [if_pos e]; have := z.kept l h1 e; omega
      · rw [if_neg e]; exact b
    · rw [ins6, if_neg (nd c)]; exact f
  obtain ⟨oG, oP, oX, oE, op⟩ := z.not_in z.upO (.refl _)
  have ko : k6.ops o = .output (sumOf [row] :: other) := by
    rw [ops6, if_neg (nd z.live_o), if_neg oX, if_neg oP, if_neg oG]; exact z.opO
  have vo := z.valid.ports o z.live_o
  rw [z.opO] at vo
  have kup : k6.hier.parent o = some d := by rw [p6, if_pos (kid.2 z.upO)]
  have one : ∀ q < (sumOf [row] :: other).length, (k6.linkedOutputs o q).length = 1 := by
    intro q hq
    have hk : ((h.ops o).ports .incoming)[q]? = some (.value ((sumOf [row] :: other)[q])) := by
      rw [z.opO]
      change ((sumOf [row] :: other).map Kind.value ++ [.stateOrder])[q]? = _
      rw [List.getElem?_append_left (by simpa using hq), List.getElem?_map, List.getElem?_eq_getElem hq]; rfl
    have := z.valid.inDegree o q _ z.live_o hk
    unfold Hugr.linkedOutputs
    rw [List.length_map, links6, List.filter_filter]
    have e : (h.links.filter fun l => (decide (l.dst = o) && decide (l.dstPort = q)) && decide (l.src ≠ P)) = linksTo h o q := by
      unfold linksTo
      apply List.filter_congr
      intro l hl
      by_cases h1 : l.dst = o
      · obtain ⟨_, _, _, _, q2, _⟩ := z.to_o hl h1
        simp [q2]
      · simp [h1]
    rw [e]; exact this
  obtain ⟨ls, e4, t7, perm7⟩ := unpack_any (k := k6) (D := d) (o := o) (w := w) (row := row) (other := other) (outs := sig.output) t6 ok6 ko
    ((live6 o).2 (.inl ⟨z.live_o, oX⟩)) kup (by rw [ins6, if_neg (nd z.live_o), vo.1]; simp [Op.ports])
    (by
      intro l hl e
      have := (hlok l (mem6.1 hl).1).2.1
      rw [e, vo.2] at this
      simp [Op.ports] at this)
    one (by
      intro l hl h1 h2
      obtain ⟨a, _⟩ := mem6.1 hl
      obtain ⟨kind, q1, q2, q3, q4, q5⟩ := z.to_o a h1
      have ls := (hlok l a).1
      rw [ops6, if_neg (nd ls), if_neg q5, if_neg q4, if_neg q3]
      refine ⟨z.valid.tags _ ls, ?_⟩
      rw [z.opO, h2] at q2
      have : kind = .value (sumOf [row]) := by simpa [Op.ports] using q2.symm
      rw [← this]; exact q1)
    (by
      rw [Bool.eq_false_iff]; intro e
      rcases (live6 w).1 e with ⟨a, _⟩ | a
      · rw [hw] at a; cases a
      · exact hdw a.symm) z.outs
  let u := unpackedTo k6 d o w row sig.output
  have liveu : ∀ x, u.live x = true ↔ (h.live x = true ∧ x ≠ X) ∨ x = d ∨ x = w := by
    intro x
    simp only [u, unpackedTo, added, upd]
    by_cases a : x = w
    · simp [a]
    · simp only [if_neg a, a, or_false]; exact live6 x
  have insu : ∀ x, u.ins x = if x = w then 2 else if x = o then sig.output.length + 1 else if x = d then ins.length + 1 else h.ins x := by
    intro x
    simp only [u, unpackedTo, added, upd]
    by_cases a : x = w
    · rw [if_pos a, if_pos a, Builder.inputs_eq rfl]; simp [Op.ports, unpackOp]
    · rw [if_neg a, if_neg a, ins6]
  have outsu : ∀ x, u.outs x = if x = w then row.length + 1 else if x = d then sig.output.length + 1 else if x = P then 0
      else if x = G then ins.length + 1 else h.outs x := by
    intro x
    simp only [u, unpackedTo, added, upd]
    by_cases a : x = w
    · rw [if_pos a, if_pos a, Builder.outputs_eq rfl]; simp [Op.ports, unpackOp]
    · rw [if_neg a, if_neg a, outs6]
  have memls : ∀ l ∈ ls, (∃ l' ∈ h.links, l'.src ≠ P ∧ l = redirect o w row.length l') ∨ ∃ q < row.length, l = ⟨w, q, o, q⟩ := by
    intro l hl
    rcases List.mem_append.1 (perm7.mem_iff.1 hl) with hm | hm
    · obtain ⟨l', a, b⟩ := List.mem_map.1 hm
      obtain ⟨c, f⟩ := mem6.1 a
      exact .inl ⟨l', c, f, b.symm⟩
    · obtain ⟨q, a, b⟩ := List.mem_map.1 hm
      exact .inr ⟨q, List.mem_range.1 a, b.symm⟩
  have rsrc : ∀ l, (redirect o w row.length l).src = l.src ∧ (redirect o w row.length l).srcPort = l.srcPort := by
    intro l; unfold redirect
    by_cases a : l.dst = o <;> by_cases b : l.dstPort = 0 <;> simp [a, b]
  have lo := z.live_o
  have oku : LinksOk (SetLinks u ls) := by
    intro l hl
    rcases memls l hl with ⟨l', a, b, rfl⟩ | ⟨q, a, rfl⟩
    · obtain ⟨c1, c2, c3, c4⟩ := ok6 l' (mem6.2 ⟨a, b⟩)
      obtain ⟨f1, f2⟩ := rsrc l'
      have l1 : u.live l'.src = true := (liveu _).2 (by rcases (live6 _).1 c1 with q | q <;> simp [q])
      have hls := (hlok l' a).1
      have hld := (hlok l' a).2.2.1
      have o1 : l'.srcPort < u.outs l'.src := by
        rw [outsu, if_neg (nw hls)]; rw [outs6] at c2; exact c2
      refine ⟨by rw [f1]; exact l1, by rw [f1, f2]; exact o1, ?_, ?_⟩
      · unfold redirect
        by_cases e : l'.dst = o
        · rw [if_pos e]
          by_cases e' : l'.dstPort = 0
          · rw [if_pos e']; exact (liveu w).2 (by simp)
          · rw [if_neg e']
            exact (liveu _).2 (by rcases (live6 _).1 c3 with q | q <;> simp [q])
        · rw [if_neg e]
          exact (liveu _).2 (by rcases (live6 _).1 c3 with q | q <;> simp [q])
      · unfold redirect
        by_cases e : l'.dst = o
        · rw [if_pos e]
          by_cases e' : l'.dstPort = 0
          · rw [if_pos e']
            change l'.dstPort < u.ins w
            rw [insu, if_pos rfl, e']; omega
          · rw [if_neg e']
            change row.length + (l'.dstPort - 1) < u.ins l'.dst
            rw [insu, if_neg (nw hld), if_pos e, z.outs]
            have := (hlok l' a).2.2.2
            rw [e, vo.1] at this
            simp [Op.ports] at this
            simp; omega
        · rw [if_neg e]
          change l'.dstPort < u.ins l'.dst
          rw [insu, if_neg (nw hld), if_neg e]
          rw [ins6] at c4; exact c4
    · refine ⟨(liveu w).2 (by simp), ?_, (liveu o).2 (.inl ⟨lo, oX⟩), ?_⟩
      · change q < u.outs w
        rw [outsu, if_pos rfl]; omega
      · change q < u.ins o
        rw [insu, if_neg (nw lo), if_pos rfl, z.outs]; simp; omega
  have hGl := z.liveG
  have uG : u.outs G = ins.length + 1 := by
    rw [outsu, if_neg (nw hGl), if_neg (nd hGl), if_neg (Ne.symm z.PG), if_pos rfl]
  have ud : u.outs d = sig.output.length + 1 := by rw [outsu, if_neg hdw, if_pos rfl]
  have udi : u.ins d = ins.length + 1 := by rw [insu, if_neg hdw, if_neg (Ne.symm (nd lo)), if_pos rfl]
  have fromG : ∀ l ∈ ls, l.src = G → l.srcPort < sig.output.length + 1 ∧ l.srcPort < ins.length + 1 := by
    intro l hl e
    rcases memls l hl with ⟨l', a, b, rfl⟩ | ⟨q, a, rfl⟩
    · obtain ⟨f1, f2⟩ := rsrc l'
      rw [f1] at e; rw [f2]
      have c1 := z.kept l' a e
      have c2 := (hlok l' a).2.1
      rw [e, z.portsG.2] at c2
      omega
    · exact absurd e (Ne.symm (nw hGl))
  obtain ⟨ls2, e5, perm8⟩ := moveOuts (G := G) (d := d) (nd hGl) (List.range (ins.length + 1)) (SetLinks u ls)
    ((liveu G).2 (.inl ⟨hGl, Ne.symm z.XG⟩)) (by intro q hq; change q < u.outs G; rw [uG]; exact List.mem_range.1 hq) oku
    ((liveu d).2 (by simp)) (by intro l hl e; change _ < u.outs d; rw [ud]; exact (fromG l hl e).1)
  have e6 := connectMany (fun q : Nat => (⟨G, q, d, q⟩ : Link)) (List.range (ins.length + 1)) (SetLinks u ls2) (by
    intro q hq
    have := List.mem_range.1 hq
    exact ⟨⟨(liveu G).2 (.inl ⟨hGl, Ne.symm z.XG⟩), by change q < u.outs G; rw [uG]; exact this⟩,
      (liveu d).2 (by simp), by change q < u.ins d; rw [udi]; exact this⟩)
  refine ⟨SetLinks u (ls2 ++ (List.range (ins.length + 1)).map fun q => ⟨G, q, d, q⟩), ?_, tree_of_eq t7 rfl rfl rfl rfl rfl,
    liveu, ?_, ?_, ?_, ?_, ?_, ?_, ⟨?_, ?_⟩, ?_⟩
  · have hio : getIo h P = some (i, o) := by
      unfold getIo
      rw [z.opP, z.inside]; rfl
    have hpar : h.getParent G = some p := by
      unfold Hugr.getParent
      rw [if_pos, z.parent]
      simp only [hGl, Bool.true_and, bne_iff_ne]
      intro e; have := z.parent; rw [e, z.tree.root_top] at this; cases this
    have hch : (added k d p (.dfg ⟨ins, sig.output⟩) (k.children p ++ [d])).children P = h.hier.children P := ch5
    unfold exitOut
    rw [z.op, hio, z.opP, hpar]
    simp only
    rw [e1]; simp only; rw [e2]; simp only; rw [hch, e3]; simp only; rw [e4]; simp only
    unfold moveLinks
    change (match each (moveOut G d) (SetLinks u ls) (List.range (u.outs G)) with | none => none | some h1 => _) = _
    rw [uG, e5]
    simp only
    change each _ (SetLinks u ls2) (List.range (u.ins d)) = _
    rw [udi]; exact e6
  · intro x hx
    change u.ops x = _
    have hx' := (liveu x).1 hx
    simp only [u, unpackedTo, added, upd]
    by_cases a : x = w
    · rw [if_pos a, if_pos a]
    rw [if_neg a, if_neg a]
    by_cases b : x = o
    · subst b
      rw [if_pos rfl, if_neg (nd lo), if_neg oG, if_neg oP, if_pos rfl]
    rw [if_neg b, ops6]
    by_cases c : x = d
    · rw [if_pos c, if_pos c]
    rw [if_neg c, if_neg c]
    have hX : x ≠ X := by
      rcases hx' with q | q | q
      · exact q.2
      · exact absurd q c
      · exact absurd q a
    rw [if_neg hX]
    by_cases f : x = P
    · rw [if_pos f, if_neg (by rw [f]; exact z.PG), if_pos f]
    · rw [if_neg f, if_neg f, if_neg b]
  · intro x hx
    change u.live x = false at hx
    change u.ops x = _
    have hx' : ¬ ((h.live x = true ∧ x ≠ X) ∨ x = d ∨ x = w) := fun e => by rw [(liveu x).2 e] at hx; cases hx
    simp only [not_or] at hx'
    obtain ⟨c1, c2, c3⟩ := hx'
    have nl : ∀ {m}, h.live m = true → m ≠ X → x ≠ m := fun a b e => c1 (by rw [e]; exact ⟨a, b⟩)
    simp only [u, unpackedTo, added, upd]
    rw [if_neg c3, if_neg (nl lo oX), ops6, if_neg c2]
    by_cases a : x = X
    · rw [if_pos a, if_pos a]
    · rw [if_neg a, if_neg a, if_neg (nl z.liveP (Ne.symm z.XP)), if_neg (nl hGl (Ne.symm z.XG))]
  · intro x hx
    have hx' := (liveu x).1 hx
    change u.hier.parent x = _
    simp only [u, unpackedTo, added, upd]
    by_cases a : x = w
    · rw [if_pos a, if_pos (.inl a)]
    rw [if_neg a]
    change k6.hier.parent x = _
    rw [p6]
    by_cases b : h.hier.parent x = some P
    · rw [if_pos (kid.2 b), if_pos (.inr b)]
    rw [if_neg (fun e => b (kid.1 e)), if_neg (by rintro (e | e); exacts [a e, b e])]
    by_cases c : x = d
    · rw [if_pos c, c]; simp [k5, added, upd]
    · rw [if_neg c]
      refine par5 x ?_ c
      rcases hx' with q | q | q
      · exact q.2
      · exact absurd q c
      · exact absurd q a
  · intro x hx
    have hx' := (liveu x).1 hx
    change u.hier.children x = _
    have dk : ∀ {m}, k.live m = false → k.hier.children m = [] := fun e => (y.tree.dead e).2
    have base : ∀ m, m ≠ d → k6.hier.children m = if m = G then E :: P :: more.filter (· ≠ P) else if m = P then []
        else if m = p then h.hier.children p ++ [d] else h.hier.children m := by
      intro m hm
      rw [c6 m hm]
      have nk : ∀ c ∈ k5.hier.children m, m ≠ P → c ∉ h.hier.children P := by
        intro c hc hmP hcP
        have h1 := (t5.child_iff _ _).1 hc
        have h2 := kid.1 hcP
        obtain ⟨_, _, q3, _⟩ := z.not_in h2 (.refl _)
        rw [par5 c q3 (nd (kidl h2)), h2] at h1
        exact hmP (Option.some.inj h1).symm
      by_cases b : m = P
      · subst b
        rw [if_neg z.PG, if_pos rfl, ch5, List.filter_eq_nil_iff]
        intro c hc; simp only [decide_eq_true_eq]; exact fun hno => hno hc
      rw [List.filter_eq_self.2 (by intro c hc; simp only [decide_eq_true_eq]; exact nk c hc b)]
      rw [if_neg b]
      simp only [k5, added, upd]
      by_cases f : m = p
      · subst f
        rw [if_pos rfl, if_neg pG, if_pos rfl]
        change k.hier.children m ++ [d] = _
        rw [y.children, if_neg pG]
      · rw [if_neg f, if_neg f]; exact y.children m
    simp only [u, unpackedTo, added, upd]
    by_cases a : x = d
    · subst a
      rw [if_pos rfl, if_neg (Ne.symm (nd hGl)), if_neg (Ne.symm (nd z.liveP)), if_pos rfl]
      change k6.hier.children x ++ [w] = _
      rw [cd6]
      have : k5.hier.children x = [] := by
        simp only [k5, added, upd, if_neg (Ne.symm (nd hlp))]
        exact dk kd
      rw [this]; rfl
    rw [if_neg a]
    change k6.hier.children x = _
    rw [base x a]
    by_cases b : x = G
    · rw [if_pos b, if_pos b]
    by_cases c : x = P
    · rw [if_neg b, if_neg b, if_pos c, if_pos c]
    rw [if_neg b, if_neg b, if_neg c, if_neg c, if_neg a]
    by_cases f : x = w
    · subst f
      rw [if_pos rfl, if_neg (Ne.symm (nw hlp))]
      exact (z.tree.dead hw).2
    · rw [if_neg f]; rfl
  · intro x _
    refine ⟨?_, outsu x |>.trans ?_⟩
    · refine (insu x).trans ?_
      by_cases a : x = w
      · rw [if_pos a, if_pos a]
      rw [if_neg a, if_neg a]
      by_cases b : x = o
      · subst b; rw [if_pos rfl, if_neg (nd lo), if_pos rfl]
      · rw [if_neg b, if_neg b]
    · by_cases a : x = w
      · rw [if_pos a, if_pos a]
      rw [if_neg a, if_neg a]
      by_cases b : x = d
      · rw [if_pos b, if_pos b]
      rw [if_neg b, if_neg b]
      by_cases c : x = P
      · subst c; rw [if_pos rfl, if_neg z.PG, if_pos rfl]
      · rw [if_neg c, if_neg c]
  · intro x _ a b
    change k6.metadata x = _
    rw [s6]
    change k.metadata x = _
    rw [y.metadata]
  · change k6.moduleRoot = _
    rw [s6]; exact y.roots.1
  · change k6.entrypoint = _
    rw [s6]; exact y.roots.2
  · change (ls2 ++ _).Perm _
    refine List.Perm.append_right _ (perm8.trans ?_)
    have hm : (ls.map fun l => if l.src = G ∧ l.srcPort ∈ List.range (ins.length + 1) then { l with src := d } else l) =
        ls.map (passOn G d) := by
      apply List.map_congr_left
      intro l hl
      unfold passOn
      by_cases a : l.src = G
      · rw [if_pos a, if_pos ⟨a, List.mem_range.2 (fromG l hl a).2⟩]
      · rw [if_neg a, if_neg (fun q => a q.1)]
    change (ls.map _).Perm _
    rw [hm]
    refine (perm7.map _).trans (List.Perm.of_eq ?_)
    rw [List.map_append, links6, List.map_map, List.map_map]
    congr 1
    apply List.map_congr_left
    intro q _
    simp only [Function.comp_apply, passOn]
    rw [if_neg (Ne.symm (nw hGl))]

end LastAt

end Verif.Patch
