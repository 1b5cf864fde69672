import Verif.Patch.MoveOutProps

/-!
# C76: moving the entry block before its control-flow graph

Two steps of it are described for every Hugr: which nodes come before the control-flow graph by an order edge, and which
links the control-flow graph and the new dataflow graph have.
-/
namespace Verif.Patch

open Verif.Graph Verif.Ops Verif.Passes Verif.Validate Verif.Dataflow

variable {Meta : Type} {h : Hugr Ops.Op Meta}

/-! ## Specification -/

/-- What went into `G` goes into `d`. -/
def takeIn (G d : Nat) (l : Link) : Link := if l.dst = G then { l with dst := d } else l

/-- The node is used outside of the block. -/
def UsedOutside (h : Hugr Ops.Op Meta) (E n : Nat) : Prop :=
  ∃ l ∈ h.links, l.src = n ∧ ¬ Above h.hier.parent l.dst E

/-! ## What is used in other blocks -/

theorem ancestorBlock_found {G b : Nat} (ht : IsTree h) (hb : h.hier.parent b = some G) : ∀ (fuel n : Nat) (V : List Nat),
    Above h.hier.parent n b → (n :: V).Nodup → (∀ v ∈ n :: V, h.live v = true ∧ Above h.hier.parent v n) →
    h.cap ≤ fuel + V.length → ∃ c, ancestorBlock h G fuel n = some c
  | 0, n, V, _, hnd, hV, hf => by
    have := nodup_live_length ht hnd (fun v hv => (hV v hv).1)
    simp only [List.length_cons] at this
    omega
  | fuel + 1, n, V, hn, hnd, hV, hf => by
    unfold ancestorBlock
    rw [getParent_eq ht]
    have hp : ∃ p, h.hier.parent n = some p ∧ (p = G ∨ Above h.hier.parent p b) := by
      rcases above_cases hn with rfl | ⟨p, h1, h2⟩
      · exact ⟨G, hb, .inl rfl⟩
      · exact ⟨p, h1, .inr h2⟩
    obtain ⟨p, h1, h2⟩ := hp
    rw [h1]
    simp only
    by_cases e : p = G
    · rw [if_pos e]; exact ⟨n, rfl⟩
    · rw [if_neg e]
      have h3 : Above h.hier.parent p b := h2.resolve_left e
      refine ancestorBlock_found ht hb fuel p (n :: V) h3 (List.nodup_cons.2 ⟨fun hm => ?_, hnd⟩) (fun v hv => ?_) ?_
      · exact ht.acyclic _ _ h1 (hV p hm).2
      · rcases List.mem_cons.1 hv with rfl | hv
        · exact ⟨(ht.parent_live _ _ h1).2, .refl _⟩
        · exact ⟨(hV v hv).1, (hV v hv).2.trans (.of_parent h1)⟩
      · simp only [List.length_cons]
        omega

theorem anyOutside_found {G E : Nat} (ht : IsTree h) : ∀ (ts : List Nat),
    (∀ t ∈ ts, ∃ b, h.hier.parent b = some G ∧ Above h.hier.parent t b) → ∃ b, anyOutside h G E ts = some b
  | [], _ => ⟨false, rfl⟩
  | t :: ts, hts => by
    obtain ⟨b, h1, h2⟩ := hts t (by simp)
    have hl : h.live t = true := by
      rcases above_cases h2 with rfl | ⟨p, h3, _⟩
      · exact (ht.parent_live _ _ h1).1
      · exact (ht.parent_live _ _ h3).1
    obtain ⟨c, hc⟩ := ancestorBlock_found ht h1 h.cap t [] h2 (by simp) (by
      intro v hv
      have : v = t := by simpa using hv
      subst this
      exact ⟨hl, .refl _⟩) (by simp)
    unfold anyOutside
    rw [hc]
    simp only
    by_cases e : c ≠ E
    · rw [if_pos e]; exact ⟨true, rfl⟩
    · rw [if_neg e]; exact anyOutside_found ht ts (fun t ht => hts t (by simp [ht]))

/-- **C76** In a valid Hugr, looking for the nodes of the entry block that are used outside of it does not panic: whatever
uses them is in a block of the control-flow graph. -/
theorem C76_entry_uses_found_partial {C : Validate.Context} {G E : Nat} (ht : IsTree h) (hv : Valid C h)
    (hE : h.hier.parent E = some G) : ∃ srcs, usedOutside h G E (h.children E) = some srcs := by
  have key : ∀ ns : List Nat, (∀ n ∈ ns, h.hier.parent n = some E) → ∃ srcs, usedOutside h G E ns = some srcs := by
    intro ns
    induction ns with
    | nil => exact fun _ => ⟨[], rfl⟩
    | cons n ns ih =>
      intro hns
      obtain ⟨rest, hr⟩ := ih (fun m hm => hns m (by simp [hm]))
      obtain ⟨b, hb⟩ := anyOutside_found (G := G) (E := E) ht (outputNeighbours h n) (by
        intro t ht'
        obtain ⟨l, hl, hs, rfl⟩ := mem_outputNeighbours.1 ht'
        obtain ⟨kind, _, _, p, hp, hor⟩ := hv.kinds l hl
        rw [hs, hns n (by simp)] at hp
        cases hp
        rcases hor with h1 | ⟨q, a, h1, h2, hor⟩
        · exact ⟨E, hE, .of_parent h1⟩
        · have up : Above h.hier.parent l.dst a := .step h1 h2
          have inE : h.hier.parent a = some E → ∃ b, h.hier.parent b = some G ∧ Above h.hier.parent l.dst b :=
            fun e => ⟨E, hE, up.trans (.of_parent e)⟩
          rcases hor with ⟨_, h3⟩ | ⟨_, ⟨h3, _⟩ | ⟨g, _, _, _, _, h3, h4, _⟩⟩
          · exact inE h3
          · exact inE h3
          · rw [hE] at h3
            cases h3
            exact ⟨a, h4, up⟩)
      unfold usedOutside
      rw [hb, hr]
      exact ⟨_, rfl⟩
  exact key _ (fun n hn => (ht.child_iff _ _).1 hn)

theorem anyOutside_iff {G E : Nat} (ht : IsTree h) (hE : h.hier.parent E = some G) : ∀ {ts : List Nat} {b : Bool},
    anyOutside h G E ts = some b → (b = true ↔ ∃ t ∈ ts, ¬ Above h.hier.parent t E)
  | [], b, hb => by
    cases hb
    simp
  | t :: ts, b, hb => by
    unfold anyOutside at hb
    cases hc : ancestorBlock h G h.cap t with
    | none => rw [hc] at hb; cases hb
    | some c =>
      rw [hc] at hb
      simp only at hb
      obtain ⟨h1, h2⟩ := ancestorBlock_some ht hc
      by_cases e : c = E
      · subst e
        rw [if_neg (fun q => q rfl)] at hb
        rw [anyOutside_iff ht hE hb]
        simp [h2]
      · rw [if_pos e] at hb
        cases hb
        refine ⟨fun _ => ⟨t, by simp, fun q => e (same_child ht h2 q h1 hE)⟩, fun _ => rfl⟩

/-- **C76** The nodes of the entry block that are put before the control-flow graph by an order edge are those that are used
outside of the block. Partial: only this step of moving the entry block out. -/
theorem C76_entry_order_sources_partial {G E : Nat} (ht : IsTree h) (hE : h.hier.parent E = some G) :
    ∀ {ns srcs : List Nat}, usedOutside h G E ns = some srcs → ∀ n, n ∈ srcs ↔ n ∈ ns ∧ UsedOutside h E n
  | [], srcs, hs, n => by
    cases hs
    simp
  | m :: ns, srcs, hs, n => by
    unfold usedOutside at hs
    cases hb : anyOutside h G E (outputNeighbours h m) with
    | none => rw [hb] at hs; cases hs
    | some b =>
      cases hr : usedOutside h G E ns with
      | none => rw [hb, hr] at hs; cases hs
      | some rest =>
        rw [hb, hr] at hs
        simp only [Option.some.injEq] at hs
        subst hs
        have ih := C76_entry_order_sources_partial ht hE hr n
        have hm : b = true ↔ UsedOutside h E m := by
          rw [anyOutside_iff ht hE hb]
          unfold UsedOutside
          constructor
          · rintro ⟨t, h1, h2⟩
            obtain ⟨l, l1, l2, rfl⟩ := mem_outputNeighbours.1 h1
            exact ⟨l, l1, l2, h2⟩
          · rintro ⟨l, l1, l2, l3⟩
            exact ⟨l.dst, mem_outputNeighbours.2 ⟨l, l1, l2, rfl⟩, l3⟩
        by_cases e : b = true
        · rw [if_pos e, List.mem_cons, List.mem_cons, ih]
          constructor
          · rintro (rfl | ⟨h1, h2⟩)
            · exact ⟨.inl rfl, hm.1 e⟩
            · exact ⟨.inr h1, h2⟩
          · rintro ⟨rfl | h1, h2⟩
            · exact .inl rfl
            · exact .inr ⟨h1, h2⟩
        · rw [if_neg e, ih, List.mem_cons]
          constructor
          · rintro ⟨h1, h2⟩
            exact ⟨.inr h1, h2⟩
          · rintro ⟨rfl | h1, h2⟩
            · exact absurd (hm.2 h2) e
            · exact ⟨h1, h2⟩

/-! ## Links -/

theorem moveIns {G d : Nat} (hGd : G ≠ d) : ∀ (ps : List Nat) (h : Hugr Ops.Op Meta), h.live G = true →
    (∀ q ∈ ps, q < h.ins G) → LinksOk h → h.live d = true → (∀ l ∈ h.links, l.dst = G → l.dstPort < h.ins d) →
    ∃ ls, each (moveIn G d) h ps = some (SetLinks h ls) ∧
      ls.Perm (h.links.map fun l => if l.dst = G ∧ l.dstPort ∈ ps then { l with dst := d } else l)
  | [], h, _, _, _, _, _ => ⟨h.links, rfl, by simp⟩
  | q :: ps, h, hG, hq, hl, hd, hs => by
    have e2 := connectMany (fun t : Nat × Nat => (⟨t.1, t.2, d, q⟩ : Link)) (h.linkedOutputs G q) h (by
      intro t ht
      have hm := mem_linkedOutputs.1 ht
      exact ⟨⟨(hl _ hm).1, (hl _ hm).2.1⟩, hd, hs ⟨t.1, t.2, G, q⟩ hm rfl⟩)
    let l1 := h.links ++ (h.linkedOutputs G q).map fun t => (⟨t.1, t.2, d, q⟩ : Link)
    have e1 := disconnect_eq (h := SetLinks h l1) (n := G) (dir := .incoming) (port := q) hG (by exact hq q (by simp))
    let l2 := l1.filter fun l => !l.at G .incoming q
    have hl2 : l2 = (h.links.filter fun l => !l.at G .incoming q) ++
        (h.linkedOutputs G q).map fun t => (⟨t.1, t.2, d, q⟩ : Link) := by
      simp only [l2, l1]
      rw [List.filter_append]
      congr 1
      rw [List.filter_eq_self]
      intro l hl
      obtain ⟨t, _, rfl⟩ := List.mem_map.1 hl
      simp [Link.at, Ne.symm hGd]
    have perm : l2.Perm (h.links.map fun l => if l.dst = G ∧ l.dstPort = q then { l with dst := d } else l) := by
      rw [hl2]
      refine List.Perm.symm (((List.filter_append_perm (fun l : Link => !l.at G .incoming q) h.links).symm.map _).trans (List.Perm.of_eq ?_))
      rw [List.map_append]
      congr 1
      · conv => rhs; rw [← List.map_id (h.links.filter _)]
        apply List.map_congr_left
        intro l hl
        have := (List.mem_filter.1 hl).2
        simp only [Link.at, Bool.not_eq_eq_eq_not, Bool.not_true, Bool.and_eq_false_imp] at this
        rw [if_neg]; · rfl
        rintro ⟨a, b⟩
        simp [a, b] at this
      · unfold Hugr.linkedOutputs
        rw [List.map_map]
        have : (h.links.filter fun l => !(!l.at G .incoming q)) = h.links.filter fun l => decide (l.dst = G) && decide (l.dstPort = q) := by
          apply List.filter_congr
          intro l _
          by_cases a : l.dst = G <;> by_cases b : l.dstPort = q <;> simp [a, b, Link.at]
        rw [this]
        apply List.map_congr_left
        intro l hl
        have := (List.mem_filter.1 hl).2
        simp only [Bool.and_eq_true, decide_eq_true_eq] at this
        rw [if_pos this]
        simp [this.2]
    have hmem : ∀ l ∈ l2, ∃ l' ∈ h.links, l = if l'.dst = G ∧ l'.dstPort = q then { l' with dst := d } else l' := by
      intro l hl
      obtain ⟨l', a, b⟩ := List.mem_map.1 (perm.mem_iff.1 hl)
      exact ⟨l', a, b.symm⟩
    have ok2 : LinksOk (SetLinks h l2) := by
      intro l hl'
      obtain ⟨l', a, rfl⟩ := hmem l hl'
      obtain ⟨c1, c2, c3, c4⟩ := hl l' a
      by_cases e : l'.dst = G ∧ l'.dstPort = q
      · rw [if_pos e]; exact ⟨c1, c2, hd, hs l' a e.1⟩
      · rw [if_neg e]; exact ⟨c1, c2, c3, c4⟩
    obtain ⟨ls, e3, e4⟩ := moveIns hGd ps (SetLinks h l2) hG (fun x hx => hq x (by simp [hx])) ok2 hd (by
      intro l hl' e
      obtain ⟨l', a, rfl⟩ := hmem l hl'
      by_cases e2 : l'.dst = G ∧ l'.dstPort = q
      · rw [if_pos e2] at e; exact absurd e (Ne.symm hGd)
      · rw [if_neg e2] at e ⊢; exact hs l' a e)
    refine ⟨ls, ?_, ?_⟩
    · simp only [each, moveIn]
      have e2' : each (fun (g : Hugr Ops.Op Meta) (t : Nat × Nat) => g.connect ⟨t.1, t.2, d, q⟩) h (h.linkedOutputs G q) =
        some (SetLinks h l1) := e2
      rw [e2']
      simp only [e1]
      exact e3
    · refine e4.trans ((perm.map _).trans (List.Perm.of_eq ?_))
      rw [List.map_map]
      apply List.map_congr_left
      intro l _
      simp only [Function.comp_apply, List.mem_cons]
      by_cases a : l.dst = G
      · by_cases b : l.dstPort = q
        · simp [a, b, Ne.symm hGd]
        · simp [a, b]
      · simp [a]

/-- **C76** When the entry block is moved out into the dataflow graph `d`, then what went into the control-flow graph `G`
goes into `d` now, and each output of `d`, with the order port, goes into the port of `G` with the same number. `G` takes
what the next block takes, and nothing else changes. Partial: only this step of moving the entry block out. -/
theorem C76_entry_links_partial {G d : Nat} {sig : Types.Signature} {ins : List Types.Ty} (hl : LinksOk h) (hGd : G ≠ d)
    (hG : h.live G = true) (hd : h.live d = true) (hGi : h.ins G = sig.input.length + 1) (hdi : h.ins d = h.ins G)
    (hdo : h.outs d = ins.length + 1) :
    ∃ g, moveInLinks h G d sig ins = some g ∧
      g.links.Perm (h.links.map (takeIn G d) ++ (List.range (ins.length + 1)).map fun k => (⟨d, k, G, k⟩ : Link)) ∧
      g.cap = h.cap ∧ g.live = h.live ∧ g.hier = h.hier ∧ g.outs = h.outs ∧ g.metadata = h.metadata ∧
      g.moduleRoot = h.moduleRoot ∧ g.entrypoint = h.entrypoint ∧
      (∀ n, g.ops n = if n = G then .cfg ⟨ins, sig.output⟩ else h.ops n) ∧
      ∀ n, g.ins n = if n = G then ins.length + 1 else h.ins n := by
  obtain ⟨ls, e1, perm⟩ := moveIns hGd (List.range (h.ins G)) h hG (fun q hq => List.mem_range.1 hq) hl hd (by
    intro l hm e
    rw [hdi, ← e]
    exact (hl l hm).2.2.2)
  have perm : ls.Perm (h.links.map (takeIn G d)) := by
    refine perm.trans (List.Perm.of_eq (List.map_congr_left fun l hm => ?_))
    unfold takeIn
    by_cases e : l.dst = G
    · have := (hl l hm).2.2.2
      rw [e] at this
      rw [if_pos e, if_pos ⟨e, List.mem_range.2 this⟩]
    · rw [if_neg e, if_neg (fun q => e q.1)]
  let h1 : Hugr Ops.Op Meta := SetLinks h ls
  let h2 : Hugr Ops.Op Meta := { h1 with ops := upd h.ops G (.cfg ⟨ins, sig.output⟩) }
  let h3 : Hugr Ops.Op Meta := { h2 with ins := upd h.ins G (ins.length + 1) }
  have e2 : h1.replaceOp G (.cfg ⟨ins, sig.output⟩) = some (h2, h.ops G) := by
    unfold Hugr.replaceOp; rw [if_pos (by exact hG)]; rfl
  have hnew : addSigned (h.ins G) ((ins.length : Int) - (sig.input.length : Nat)) = ins.length + 1 := by
    rw [hGi]; unfold addSigned; omega
  have e3 : h2.addPorts G .incoming ((ins.length : Int) - (sig.input.length : Nat)) = some (h3, (h.ins G, ins.length + 1)) := by
    unfold Hugr.addPorts
    rw [if_pos (by exact hG)]
    simp only
    change some (h2.resizePorts G (addSigned (h.ins G) _) (h.outs G), (h.ins G, addSigned (h.ins G) _)) = _
    rw [hnew]
    have hf : (ls.filter fun l => (l.dst != G || decide (l.dstPort < ins.length + 1)) && (l.src != G || decide (l.srcPort < h.outs G))) = ls := by
      rw [List.filter_eq_self]
      intro l hm
      obtain ⟨l', hm', rfl⟩ := List.mem_map.1 (perm.mem_iff.1 hm)
      have q := (hl l' hm').2.1
      have h4 : (takeIn G d l').dst ≠ G := by
        unfold takeIn
        by_cases e : l'.dst = G
        · rw [if_pos e]; exact Ne.symm hGd
        · rw [if_neg e]; exact e
      have h5 : (takeIn G d l').src = l'.src ∧ (takeIn G d l').srcPort = l'.srcPort := by
        unfold takeIn
        split <;> exact ⟨rfl, rfl⟩
      rw [h5.1, h5.2]
      by_cases b : l'.src = G
      · rw [b] at q; simp [h4, q]
      · simp [h4, b]
    have ho : upd h.outs G (h.outs G) = h.outs := by
      funext x; unfold upd; split
      · rename_i e; rw [e]
      · rfl
    change some ({ h2 with ins := upd h.ins G (ins.length + 1), outs := upd h.outs G (h.outs G), links := ls.filter fun l => (l.dst != G || decide (l.dstPort < ins.length + 1)) && (l.src != G || decide (l.srcPort < h.outs G)) }, _) = _
    rw [hf, ho]
    rfl
  have e4 := connectMany (fun k : Nat => (⟨d, k, G, k⟩ : Link)) (List.range (ins.length + 1)) h3 (by
    intro k hk
    have hk := List.mem_range.1 hk
    refine ⟨⟨hd, ?_⟩, hG, ?_⟩
    · change k < h.outs d
      rw [hdo]; exact hk
    · change k < upd h.ins G (ins.length + 1) G
      unfold upd
      rw [if_pos rfl]
      exact hk)
  refine ⟨SetLinks h3 (ls ++ (List.range (ins.length + 1)).map fun k => (⟨d, k, G, k⟩ : Link)), ?_, perm.append_right _, rfl, rfl, rfl,
    rfl, rfl, rfl, rfl, fun n => ?_, fun n => ?_⟩
  · unfold moveInLinks
    rw [e1]
    simp only [show (SetLinks h ls).replaceOp G (.cfg ⟨ins, sig.output⟩) = some (h2, h.ops G) from e2, e3]
    rw [show h3.outs d = ins.length + 1 from hdo]
    exact e4
  · rfl
  · rfl

/-! ## A case -/

/-- The block 5 goes to 7, with one value more than it takes. 7 goes back to itself or to the exit and uses the node 14
of 5. -/
def entryHistory : List (Cmd Ops.Op String) := mainHistory [bool] [bool] [[bool]]
  [ .addNodeWithParent 7 4 (.dataflowBlock [bool, bool] [] [[bool, bool], [bool]]),
    .addNodeWithParent 8 5 (.input [bool]), .addNodeWithParent 9 5 (.output [sumOf [[bool]], bool]),
    .addNodeWithParent 10 5 (.tag 0 [[bool]]),
    .addNodeWithParent 11 7 (.input [bool, bool]), .addNodeWithParent 12 7 (.output [sumOf [[bool, bool], [bool]]]),
    .addNodeWithParent 13 7 (.tag 1 [[bool, bool], [bool]]), .addNodeWithParent 14 5 (.tag 0 [[], []]),
    .connect ⟨5, 0, 7, 0⟩, .connect ⟨7, 0, 7, 0⟩, .connect ⟨7, 1, 6, 0⟩, .connect ⟨8, 0, 10, 0⟩,
    .connect ⟨10, 0, 9, 0⟩, .connect ⟨14, 0, 9, 1⟩, .connect ⟨13, 0, 12, 0⟩, .connect ⟨14, 0, 13, 0⟩ ]

theorem entry_ok : IsTree (built entryHistory) ∧ Valid unpackContext (built entryHistory) :=
  flows_ok (by decide +kernel) (by decide +kernel) (by decide +kernel)

/-- Moving the entry block out, up to the end: the node 10 and the new node 21 unpack what the block gave first, and 14,
which is used in the block 7, comes before the control-flow graph. -/
example : (normalizeMoves (built entryHistory) 20 21 22 23).map (fun g => (g.links, g.children 1, g.children 4)) =
    some ([⟨4, 0, 3, 0⟩, ⟨7, 0, 7, 0⟩, ⟨7, 1, 6, 0⟩, ⟨13, 0, 12, 0⟩, ⟨14, 0, 13, 0⟩, ⟨10, 0, 21, 0⟩, ⟨14, 1, 4, 2⟩,
      ⟨2, 0, 10, 0⟩, ⟨21, 1, 4, 2⟩, ⟨14, 1, 4, 2⟩, ⟨21, 0, 4, 0⟩, ⟨14, 0, 4, 1⟩], [2, 3, 4, 10, 14, 21], [7, 6]) := by
  decide +kernel

/-- The uses of the nodes of 5 are found, and 14 is used outside. -/
example : usedOutside (built entryHistory) 4 5 ((built entryHistory).children 5) = some [14] ∧
    UsedOutside (built entryHistory) 5 14 := by
  have e : usedOutside (built entryHistory) 4 5 ((built entryHistory).children 5) = some [14] := by
    obtain ⟨srcs, hs⟩ := C76_entry_uses_found_partial entry_ok.1 entry_ok.2 (G := 4) (E := 5) (by decide +kernel)
    have : (usedOutside (built entryHistory) 4 5 ((built entryHistory).children 5)).getD [] = [14] := by decide +kernel
    rw [hs] at this ⊢
    exact congrArg some this
  exact ⟨e, ((C76_entry_order_sources_partial entry_ok.1 (by decide +kernel) e 14).1 (by simp)).2⟩

/-- The dataflow graph 20 for the block 5 takes what went into 4. -/
example : ∃ g, moveInLinks (built (entryHistory ++ [.addNodeWithParent 20 1 (.dfg ⟨[bool], [bool, bool]⟩)])) 4 20
      ⟨[bool], [bool]⟩ [bool, bool] = some g ∧
    ⟨2, 0, 20, 0⟩ ∈ g.links ∧ ⟨20, 1, 4, 1⟩ ∈ g.links ∧ ⟨20, 2, 4, 2⟩ ∈ g.links := by
  obtain ⟨g, h1, h2, _⟩ := C76_entry_links_partial (G := 4) (d := 20) (sig := ⟨[bool], [bool]⟩) (ins := [bool, bool])
    (built_ok (entryHistory ++ [.addNodeWithParent 20 1 (.dfg ⟨[bool], [bool, bool]⟩)]) (by decide +kernel)
      (by decide +kernel)).2 (by decide) (by decide +kernel) (by decide +kernel) (by decide +kernel) (by decide +kernel)
    (by decide +kernel)
  refine ⟨g, h1, ?_⟩
  rw [h2.mem_iff, h2.mem_iff, h2.mem_iff]
  decide +kernel

end Verif.Patch
