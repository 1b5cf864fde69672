import Verif.Builder.Calls

/-!
# What all the calls give
-/
namespace Verif.Builder

open Verif.Graph Verif.Ops Verif.Validate Verif.Dataflow

variable {Meta : Type}

/-! ## Outputs -/

section output

variable {P : Prog} {t : Types.Ty}

theorem add_output_lines : (P.add (.output t)).lines = P.lines := by simp [Prog.add, Prog.lines]
theorem add_output_inputs : (P.add (.output t)).inputs = P.inputs := by simp [Prog.add, Prog.inputs]
theorem add_output_outputs : (P.add (.output t)).outputs = P.outputs ++ [t] := by simp [Prog.add, Prog.outputs]
theorem add_output_orders : (P.add (.output t)).orders = P.orders := by simp [Prog.add, Prog.orders]

theorem add_output_op : (P.add (.output t)).op = upd (upd P.op 1 (.funcDefn P.name
    { P.type with body := ⟨P.inputs, P.outputs ++ [t]⟩ })) 3 (.output (P.outputs ++ [t])) := by
  funext n
  match n with
  | 0 => rfl
  | 1 => simp only [Prog.op, Prog.type, add_output_inputs, add_output_outputs]; rfl
  | 2 => simp only [Prog.op, add_output_inputs]; rfl
  | 3 => simp only [Prog.op, add_output_outputs]; rfl
  | k + 4 => simp only [Prog.op, add_output_lines]; rfl

theorem add_output_old {n : Nat} (h1 : n ≠ 1) (h3 : n ≠ 3) : (P.add (.output t)).op n = P.op n := by
  rw [add_output_op]; simp [upd, h1, h3]

theorem add_output_op3 : (P.add (.output t)).op 3 = .output (P.outputs ++ [t]) := by rw [add_output_op]; rfl

theorem add_output_kind {w : Wire} (h : P.HasWire w) : (P.add (.output t)).kind w = P.kind w := by
  unfold Prog.kind
  rw [add_output_old h.1 (wire_node h).2]

theorem add_output_wire {w : Wire} (h : P.HasWire w) : (P.add (.output t)).HasWire w := by
  refine ⟨h.1, ?_⟩
  rw [add_output_kind h]
  exact h.2

theorem add_output_node {n : Nat} : (P.add (.output t)).HasNode n ↔ P.HasNode n := by
  unfold Prog.HasNode
  rw [add_output_lines]

/-- Where a link goes when there is one more output. -/
def moveIn (p : Nat) (l : Link) : Link := if l.at 3 .incoming p then { l with dstPort := p + 1 } else l

theorem shiftIn_perm (L : List Link) (p : Nat) :
    (L.filter (fun l => !l.at 3 .incoming p) ++ ((L.filter fun l => l.dst = 3 && l.dstPort = p).map
      fun l => (l.src, l.srcPort)).map fun t => (⟨t.1, t.2, 3, p + 1⟩ : Link)).Perm (L.map (moveIn p)) := by
  induction L with
  | nil => simp
  | cons l L ih =>
    by_cases h : l.dst = 3 ∧ l.dstPort = p
    · have e : l.at 3 .incoming p = true := by simp [Link.at, h.1, h.2]
      rw [List.filter_cons_of_neg (by simp [e]), List.filter_cons_of_pos (by simp [h.1, h.2]), List.map_cons,
        List.map_cons, List.map_cons]
      rw [show moveIn p l = ⟨l.src, l.srcPort, 3, p + 1⟩ from by simp [moveIn, e, h.1]]
      exact List.perm_middle.trans (ih.cons _)
    · have e : l.at 3 .incoming p = false := by
        simp only [Link.at, Bool.and_eq_false_iff, beq_eq_false_iff_ne, ne_eq]
        by_contra hc
        push Not at hc
        exact h hc
      rw [List.filter_cons_of_pos (by simp [e]), List.filter_cons_of_neg (by simpa using h), List.map_cons,
        show moveIn p l = l from by simp [moveIn, e]]
      exact ih.cons _

theorem order_not3 (hg : P.Good) {x : Nat × Nat} (hx : x ∈ P.orders) : x.1 ≠ 3 := by
  obtain ⟨-, -, h3, -⟩ := hg.orders x hx
  intro e
  rw [e] at h3
  simp [Prog.op, Op.ports] at h3

theorem add_output_links (hg : P.Good) (h0 : P.outs = []) :
    (P.add (.output t)).links = P.links.map (moveIn P.outputs.length) := by
  have e : ∀ l ∈ lineLinks 4 P.lines, moveIn P.outputs.length l = l := by
    intro l hl
    obtain ⟨k, op, ws, hk, -, h2, -⟩ := mem_lineLinks hl
    unfold moveIn
    rw [if_neg]
    simp only [Link.at, Bool.and_eq_true, beq_iff_eq, not_and]
    omega
  unfold Prog.links
  rw [show (P.add (.output t)).outs = P.outs from rfl, h0]
  simp only [wireLinks, List.append_nil]
  rw [List.map_append, List.map_congr_left e, List.map_id', add_output_lines, add_output_orders, List.map_map]
  congr 1
  apply List.map_congr_left
  intro x hx
  obtain ⟨h1, h2, h3, h4⟩ := hg.orders x hx
  have n1 : x.1 ≠ 1 := by have := h1.1; omega
  have n2 : x.2 ≠ 1 := by have := h2.1; omega
  simp only [Function.comp, orderLink]
  rw [add_output_old n1 (order_not3 hg hx)]
  by_cases hx3 : x.2 = 3
  · rw [hx3, add_output_op3]
    simp [Prog.op, orderPort, Op.ports, moveIn, Link.at]
  · rw [add_output_old n2 hx3]
    simp [moveIn, Link.at, hx3]

theorem add_output_good (hg : P.Good) : (P.add (.output t)).Good where
  tags := by intro o us h; rw [add_output_lines] at h; exact hg.tags o us h
  wires := by intro o us h w hw; rw [add_output_lines] at h; exact add_output_wire (hg.wires o us h w hw)
  fits := by intro o us h; rw [add_output_lines] at h; exact hg.fits o us h
  orders := by
    intro x hx
    rw [add_output_orders] at hx
    obtain ⟨h1, h2, h3, h4⟩ := hg.orders x hx
    have n1 : x.1 ≠ 1 := by have := h1.1; omega
    have n2 : x.2 ≠ 1 := by have := h2.1; omega
    refine ⟨add_output_node.2 h1, add_output_node.2 h2, by rw [add_output_old n1 (order_not3 hg hx)]; exact h3, ?_⟩
    by_cases hx3 : x.2 = 3
    · rw [hx3, add_output_op3]; simp [Op.ports]
    · rw [add_output_old n2 hx3]; exact h4
  outs := fun w hw => add_output_wire (hg.outs w hw)
  outsFit := by rw [add_output_outputs]; have := hg.outsFit; simp [Prog.add] at this ⊢; omega

theorem addOutput_hugr (hg : P.Good) (h0 : P.outs = []) {L : List Link} (hL : L.Perm P.links) :
    ∃ L', (P.builder L : Builder Meta).addOutput t = .ok ((P.add (.output t)).builder L') ∧
      L'.Perm (P.add (.output t)).links := by
  have hf : L.filter (fun l => (l.dst != 3 || decide (l.dstPort < P.outputs.length + 1 + 1)) &&
      (l.src != 3 || decide (l.srcPort < 0))) = L := by
    apply List.filter_eq_self.2
    intro l hl
    obtain ⟨-, -, h3, h4⟩ := links_range hg (hL.subset hl)
    have a : l.src ≠ 3 := by
      intro e
      rw [e] at h3
      simp [Prog.op, Op.ports] at h3
    have b : l.dst = 3 → l.dstPort < P.outputs.length + 1 + 1 := by
      intro e
      rw [e] at h4
      simp [Prog.op, Op.ports] at h4
      omega
    by_cases hs : l.dst = 3
    · simp [a, b hs]
    · simp [a, hs]
  refine ⟨_, ?_, (shiftIn_perm L P.outputs.length).trans ((hL.map _).trans (add_output_links hg h0 ▸ List.Perm.refl _))⟩
  unfold Builder.addOutput
  rw [io_hugr]
  have e1 : (P.builder L : Builder Meta).hugr.ops (P.builder L : Builder Meta).node = .funcDefn P.name P.type := rfl
  have e2 : (P.builder L : Builder Meta).hugr.ops 3 = .output P.outputs := rfl
  rw [e1]
  simp only [updateSignature, e2]
  have e3 : (P.hugr L : Hugr Ops.Op Meta).ins 3 = P.outputs.length + 1 := by simp [Prog.hugr, Prog.op, Op.ports]
  have e4 : (P.hugr L : Hugr Ops.Op Meta).outs 3 = 0 := by simp [Prog.hugr, Prog.op, Op.ports]
  have e5 : (P.hugr L : Hugr Ops.Op Meta).live 3 = true := by simp [Prog.hugr]; omega
  have e6 : addSigned (P.outputs.length + 1) 1 = P.outputs.length + 1 + 1 := by unfold addSigned; omega
  unfold Hugr.addPorts
  simp only [show (P.builder L : Builder Meta).hugr = P.hugr L from rfl, e3, e4, e5, e6, if_true]
  rw [Nat.add_sub_cancel]
  simp only [Added.ok.injEq, Prog.builder, Builder.mk.injEq, true_and, add_output_inputs, and_true]
  unfold shiftOrderIn Hugr.resizePorts Hugr.linkedOutputs
  rw [show (P.hugr L : Hugr Ops.Op Meta).links = L from rfl, hf]
  unfold Prog.hugr
  rw [add_output_lines]
  congr 1
  · funext n
    by_cases hn : n = 3
    · subst hn
      simp [upd, add_output_op3, Op.ports]
    · by_cases h1 : n = 1
      · subst h1; simp [upd, Prog.op, Op.ports]
      · rw [add_output_old h1 hn]; simp [upd, hn]
  · funext n
    by_cases hn : n = 3
    · subst hn
      simp [upd, Prog.op, Op.ports]
    · by_cases h1 : n = 1
      · subst h1; simp [upd, Prog.op, Op.ports]
      · rw [add_output_old h1 hn]; simp [upd, hn]
  · rw [add_output_op]
    rfl

end output

/-! ## Sequences of calls -/

theorem calls_append (b : Builder Meta) (cs ds : List Call) :
    b.calls (cs ++ ds) = (b.calls cs).bind fun b => b.calls ds := by
  induction cs generalizing b with
  | nil => rfl
  | cons c cs ih =>
    simp only [List.cons_append, Builder.calls]
    cases b.call c with
    | ok a => exact ih a
    | error e => rfl
    | panic => rfl

theorem newFunction_eq (P : Prog) : (newFunction P.name P.poly : Built (Builder Meta)) = .ok ((P.upTo []).builder []) := by
  have ei : (P.upTo []).inputs = P.poly.body.input := by simp [Prog.upTo, Prog.inputs]
  have eo : (P.upTo []).outputs = P.poly.body.output := by simp [Prog.upTo, Prog.outputs]
  have el : (P.upTo []).lines = [] := by simp [Prog.upTo, Prog.lines]
  have eop : (P.upTo []).op = upd (upd (upd (upd (fun _ => Op.module) 0 .module) 1 (.funcDefn P.name P.poly)) 2
      (.input P.poly.body.input)) 3 (.output P.poly.body.output) := by
    funext n
    match n with
    | 0 => rfl
    | 1 => simp only [Prog.op, Prog.type, ei, eo]; rfl
    | 2 => simp only [Prog.op, ei]; rfl
    | 3 => simp only [Prog.op, eo]; rfl
    | k + 4 => simp only [Prog.op, el]; rfl
  unfold newFunction
  have h : run opsInfo.toOpInfo (Hugr.new opsInfo.toOpInfo .module) [.addNodeWithParent 1 0 (.funcDefn P.name P.poly), .setEntrypoint 1, .addNodeWithParent 2 1 (.input P.poly.body.input), .addNodeWithParent 3 1 (.output P.poly.body.output)] = some ((P.upTo []).hugr [] : Hugr Ops.Op Meta) := by
    have e1 := inputs_eq (op := .funcDefn P.name P.poly) rfl
    have e2 := outputs_eq (op := .funcDefn P.name P.poly) rfl
    have e3 := inputs_eq (op := .input P.poly.body.input) rfl
    have e4 := outputs_eq (op := .input P.poly.body.input) rfl
    have e5 := inputs_eq (op := .output P.poly.body.output) rfl
    have e6 := outputs_eq (op := .output P.poly.body.output) rfl
    simp [run, step, Hugr.new, Hugr.addNodeWithParent, Hugr.addNode, Hugr.withHier, Hier.pushChild, Hier.canAttach,
      Hier.onPath, Hugr.setEntrypoint, upd]
    unfold Prog.hugr
    rw [el, eop]
    congr 1
    · funext n
      match n with
      | 0 | 1 | 2 | 3 => rfl
      | k + 4 => simp [upd]
    · funext n
      simp only [upd]
      by_cases h3 : n = 3
      · simp [h3, e5]
      by_cases h2 : n = 2
      · simp [h2, e3]
      by_cases h1 : n = 1
      · simp [h1, e1]
      · simp [h1, h2, h3, Op.ports]
    · funext n
      simp only [upd]
      by_cases h3 : n = 3
      · simp [h3, e6]
      by_cases h2 : n = 2
      · simp [h2, e4]
      by_cases h1 : n = 1
      · simp [h1, e2]
      · simp [h1, h2, h3, Op.ports]
    · congr 1
      · funext n
        match n with
        | 0 | 1 | 2 | 3 => rfl
        | k + 4 => simp [upd]
      · funext n
        match n with
        | 0 | 1 => rfl
        | k + 2 => simp [upd]
  rw [h]
  simp only [Option.map_some, ofOption, Prog.builder, ei]

/-- Wires that were wired up were not copied against their type. -/
theorem wireUpInputs_linear {P : Prog} (ht : P.TagsOk) {dst : Nat} (hd : P.HasNode dst) :
    ∀ (ws : List Wire) (port : Nat) (L : List Link) (g : Hugr Ops.Op Meta), (∀ w ∈ ws, P.HasWire w) →
      wireUpInputs dst port ws (P.hugr L) = .ok g →
      ∀ w ∈ ws, ∀ t, P.kind w = some (.value t) → t.copyable = false →
        (∀ l ∈ L, ¬ (l.src = w.1 ∧ l.srcPort = w.2)) ∧ ws.count w ≤ 1
  | [], port, L, g, _, h => by intro w hw; cases hw
  | w :: ws, port, L, g, hw, h => by
    simp only [wireUpInputs] at h
    obtain ⟨g', h1, h2⟩ := Built.bind_ok h
    rw [wireUp_hugr ht L (hw w (by simp)) hd] at h1
    split at h1
    · cases h1
    rename_i hnl
    split at h1
    swap
    · cases h1
    simp only [Built.ok.injEq] at h1
    subst h1
    have ih := wireUpInputs_linear ht hd ws (port + 1) _ g (fun x hx => hw x (by simp [hx])) h2
    intro x hx t hk hc
    by_cases hin : x ∈ ws
    · obtain ⟨h3, h4⟩ := ih x hin t hk hc
      refine ⟨fun l hl => h3 l (by simp [hl]), ?_⟩
      have hne : x ≠ w := by
        rintro rfl
        exact h3 ⟨x.1, x.2, dst, port⟩ (by simp) ⟨rfl, rfl⟩
      rw [List.count_cons_of_ne (fun e => hne e.symm)]
      exact h4
    · obtain rfl : x = w := by
        rcases List.mem_cons.1 hx with e | e
        · exact e
        · exact absurd e hin
      refine ⟨fun l hl e => hnl ⟨⟨t, hk, hc⟩, l, hl, e⟩, ?_⟩
      rw [List.count_cons_self, List.count_eq_zero_of_not_mem hin]

theorem wireLinks_src (dst : Nat) (ws : List Wire) (port : Nat) :
    (wireLinks dst port ws).map (fun l => (l.src, l.srcPort)) = ws := by
  induction ws generalizing port with
  | nil => rfl
  | cons w ws ih => simp [wireLinks, ih]

theorem lineLinks_src (ls : List (Ops.Op × List Wire)) (n : Nat) :
    (lineLinks n ls).map (fun l => (l.src, l.srcPort)) = ls.flatMap Prod.snd := by
  induction ls generalizing n with
  | nil => rfl
  | cons x xs ih => simp [lineLinks, wireLinks_src, ih]

theorem used_wire {P : Prog} (hg : P.Good) {w : Wire} (h : w ∈ P.lines.flatMap Prod.snd ++ P.outs) : P.HasWire w := by
  rcases List.mem_append.1 h with h | h
  · obtain ⟨x, hx, hw⟩ := List.mem_flatMap.1 h
    exact hg.wires x.1 x.2 hx w hw
  · exact hg.outs w h

theorem order_src {P : Prog} (hg : P.Good) {x : Nat × Nat} (hx : x ∈ P.orders) :
    ¬ P.HasWire ((orderLink P x).src, (orderLink P x).srcPort) := by
  rintro ⟨-, k, hk, ho⟩
  obtain ⟨-, -, h3, -⟩ := hg.orders x hx
  unfold Prog.kind at hk
  simp only [orderLink] at hk
  rw [order_get h3] at hk
  cases hk
  cases ho

/-- The links from a wire are its uses. -/
theorem link_of_use {P : Prog} (hg : P.Good) {w : Wire} (hw : P.HasWire w) :
    (∃ l ∈ P.links, l.src = w.1 ∧ l.srcPort = w.2) ↔ w ∈ P.lines.flatMap Prod.snd ++ P.outs := by
  have e : ∀ l : Link, (l.src = w.1 ∧ l.srcPort = w.2) ↔ (l.src, l.srcPort) = w := by
    intro l
    rcases w with ⟨a, b⟩
    simp
  rw [← lineLinks_src P.lines 4, ← wireLinks_src 3 P.outs 0, ← List.map_append, List.mem_map]
  constructor
  · rintro ⟨l, hl, h⟩
    unfold Prog.links at hl
    rcases List.mem_append.1 hl with hl | hl
    · exact ⟨l, hl, (e l).1 h⟩
    · obtain ⟨x, hx, rfl⟩ := List.mem_map.1 hl
      exact absurd ((e _).1 h ▸ hw) (order_src hg hx)
  · rintro ⟨l, hl, h⟩
    exact ⟨l, List.mem_append.2 (.inl hl), (e l).2 h⟩

/-- No value is copied against its type. -/
def Prog.Linear (P : Prog) : Prop := ∀ w t, P.kind w = some (.value t) → t.copyable = false → P.uses w ≤ 1

theorem linear_of {P Q : Prog} (hg : P.Good) (h : P.Linear) (hu : ∀ w, Q.uses w = P.uses w)
    (hk : ∀ w, P.HasWire w → Q.kind w = P.kind w) : Q.Linear := by
  intro w t hkw hc
  rw [hu]
  by_cases hm : w ∈ P.lines.flatMap Prod.snd ++ P.outs
  · rw [hk w (used_wire hg hm)] at hkw
    exact h w t hkw hc
  · unfold Prog.uses
    rw [List.count_eq_zero_of_not_mem hm]
    omega

theorem add_node_linear {P : Prog} {op : Ops.Op} {ws : List Wire} (hg : P.Good) (h0 : P.outs = []) (h : P.Linear)
    (hw : ∀ w ∈ ws, P.HasWire w) {L : List Link} (hL : L.Perm P.links)
    (hlin : ∀ w ∈ ws, ∀ t, P.kind w = some (.value t) → t.copyable = false →
      (∀ l ∈ L, ¬ (l.src = w.1 ∧ l.srcPort = w.2)) ∧ ws.count w ≤ 1) : (P.add (.node op ws)).Linear := by
  intro w t hk hc
  have hu : (P.add (.node op ws)).uses w = P.uses w + ws.count w := by
    unfold Prog.uses
    rw [add_node_lines, show (P.add (.node op ws)).outs = [] from h0, h0]
    simp
  rw [hu]
  by_cases hm : w ∈ ws
  · rw [add_node_kind (hw w hm)] at hk
    obtain ⟨h1, h2⟩ := hlin w hm t hk hc
    have : w ∉ P.lines.flatMap Prod.snd ++ P.outs := by
      intro hin
      obtain ⟨l, hl, e⟩ := (link_of_use hg (hw w hm)).2 hin
      exact h1 l (hL.symm.subset hl) e
    unfold Prog.uses
    rw [List.count_eq_zero_of_not_mem this]
    omega
  · rw [List.count_eq_zero_of_not_mem hm]
    by_cases hin : w ∈ P.lines.flatMap Prod.snd ++ P.outs
    · rw [add_node_kind (used_wire hg hin)] at hk
      exact h w t hk hc
    · unfold Prog.uses
      rw [List.count_eq_zero_of_not_mem hin]
      omega

theorem nil_good (P : Prog) : (P.upTo []).Good := by
  constructor
  · intro o us h; simp [Prog.upTo, Prog.lines] at h
  · intro o us h; simp [Prog.upTo, Prog.lines] at h
  · intro o us h; simp [Prog.upTo, Prog.lines] at h
  · intro x h; simp [Prog.upTo, Prog.orders] at h
  · intro w h; simp [Prog.upTo] at h
  · simp [Prog.upTo]

/-- After some calls that went well. -/
theorem calls_ok {P : Prog} (hs : P.Scoped) (pre : List Call) : ∀ post, P.calls = pre ++ post → ∀ b : Builder Meta,
    ((P.upTo []).builder []).calls pre = .ok b →
    ∃ L, b = (P.upTo pre).builder L ∧ L.Perm (P.upTo pre).links ∧ (P.upTo pre).Good ∧ (P.upTo pre).Linear := by
  induction pre using List.reverseRecOn with
  | nil =>
    intro post hp b h
    simp only [Builder.calls, Built.ok.injEq] at h
    refine ⟨[], h.symm, ?_, nil_good P, ?_⟩
    · simp [Prog.links, Prog.upTo, Prog.lines, Prog.orders, lineLinks, wireLinks]
    · intro w t _ _
      simp [Prog.uses, Prog.upTo, Prog.lines]
  | append_singleton pre c ih =>
    intro post hp b h
    rw [calls_append] at h
    obtain ⟨b', h1, h2⟩ := Built.bind_ok h
    simp only [Builder.calls] at h2
    obtain ⟨b'', h3, h4⟩ := Built.bind_ok h2
    simp only [Built.ok.injEq] at h4
    subst h4
    have hp' : P.calls = pre ++ c :: post := by simpa using hp
    obtain ⟨L, rfl, hL, hg, hlin⟩ := ih (c :: post) hp' b' h1
    have h0 : (P.upTo pre).outs = [] := rfl
    have e : P.upTo (pre ++ [c]) = (P.upTo pre).add c := rfl
    rw [e]
    cases c with
    | node op ws =>
      have hpl := hs.plain op ws (by rw [hp']; simp)
      have hw := hs.wires pre op ws post hp'
      have h3' := h3
      obtain ⟨L', e1, e2, e3⟩ := addNode_ok hg h0 hpl hw hL h3
      refine ⟨L', e1, e2, e3, add_node_linear hg h0 hlin hw hL ?_⟩
      simp only [Builder.call, Builder.addNode] at h3'
      rw [show ((P.upTo pre).builder L : Builder Meta).hugr.cap = 4 + (P.upTo pre).lines.length from rfl,
        show ((P.upTo pre).builder L : Builder Meta).hugr = (P.upTo pre).hugr L from rfl,
        show ((P.upTo pre).builder L : Builder Meta).node = 1 from rfl, addNode_hugr (ws := ws) hg.tags hpl] at h3'
      obtain ⟨g, h5, -⟩ := Built.bind_ok h3'
      intro w hm t hk
      exact wireUpInputs_linear (add_node_tags hg.tags hpl) new_node ws 0 L g (fun w hm => add_node_wire (hw w hm)) h5
        w hm t (by rw [add_node_kind (hw w hm)]; exact hk)
    | input t =>
      obtain ⟨L', e1, e2⟩ := addInput_hugr (Meta := Meta) (t := t) hg hL
      simp only [Builder.call, e1, Added.unwrap, Built.ok.injEq] at h3
      refine ⟨L', h3.symm, e2, add_input_good hg, linear_of hg hlin ?_ fun w => add_input_kind⟩
      intro w
      unfold Prog.uses
      rw [add_input_lines]
      rfl
    | output t =>
      obtain ⟨L', e1, e2⟩ := addOutput_hugr (Meta := Meta) (t := t) hg h0 hL
      simp only [Builder.call, e1, Added.unwrap, Built.ok.injEq] at h3
      refine ⟨L', h3.symm, e2, add_output_good hg, linear_of hg hlin ?_ fun w => add_output_kind⟩
      intro w
      unfold Prog.uses
      rw [add_output_lines]
      rfl
    | order x y =>
      obtain ⟨hx, hy⟩ := hs.orders pre x y post hp'
      obtain ⟨L', e1, e2, e3⟩ := setOrder_ok hg hx hy hL h3
      refine ⟨L', e1, e2, e3, linear_of hg hlin ?_ fun w _ => add_order_kind⟩
      intro w
      unfold Prog.uses
      rw [add_order_lines]
      rfl

theorem upTo_all (P : Prog) : P.upTo P.calls = { P with outs := [] } := rfl

theorem all_op (P : Prog) : (P.upTo P.calls).op = P.op := by
  funext n
  match n with
  | 0 | 1 | 2 | 3 => rfl
  | k + 4 => rfl

theorem all_hugr (P : Prog) (L : List Link) : ((P.upTo P.calls).hugr L : Hugr Ops.Op Meta) = P.hugr L :=
  hugr_congr (all_op P) rfl L

theorem all_wire {P : Prog} {w : Wire} : (P.upTo P.calls).HasWire w ↔ P.HasWire w := by
  unfold Prog.HasWire Prog.kind
  rw [all_op]

theorem all_kind {P : Prog} {w : Wire} : (P.upTo P.calls).kind w = P.kind w := by
  unfold Prog.kind
  rw [all_op]

theorem output_node (P : Prog) : P.HasNode 3 := ⟨by omega, by omega⟩

/-- The whole build. -/
theorem build_ok {P : Prog} (hs : P.Scoped) {b : Builder Meta} (h : build P = .ok b) :
    ∃ L, b = P.builder L ∧ L.Perm P.links ∧ P.Good ∧ P.Linear := by
  unfold build at h
  rw [newFunction_eq] at h
  simp only [Built.bind] at h
  obtain ⟨b', h1, h2⟩ := Built.bind_ok h
  obtain ⟨L, rfl, hL, hg, hlin⟩ := calls_ok hs P.calls [] (by simp) b' h1
  unfold Builder.setOutputs at h2
  rw [io_hugr] at h2
  simp only at h2
  rw [show ((P.upTo P.calls).builder L : Builder Meta).hugr = (P.upTo P.calls).hugr L from rfl, all_hugr] at h2
  obtain ⟨g, h3, h4⟩ := Built.bind_ok h2
  simp only [Built.ok.injEq] at h4
  subst h4
  have ht : P.TagsOk := hs.tags
  obtain ⟨rfl, h5⟩ := wireUpInputs_ok ht (output_node P) P.outs 0 L g hs.outs h3
  have h6 := wireUpInputs_linear ht (output_node P) P.outs 0 L _ hs.outs h3
  refine ⟨L ++ wireLinks 3 0 P.outs, rfl, ?_, ?_, ?_⟩
  · have e : (P.upTo P.calls).links = lineLinks 4 P.lines ++ P.orders.map (orderLink P) := by
      have e1 : orderLink (P.upTo P.calls) = orderLink P := by
        funext x
        unfold orderLink
        rw [all_op]
      unfold Prog.links
      rw [e1]
      simp only [show (P.upTo P.calls).outs = [] from rfl, wireLinks, List.append_nil]
      rfl
    rw [e] at hL
    refine (hL.append_right _).trans ?_
    unfold Prog.links
    rw [List.append_assoc, List.append_assoc]
    exact List.Perm.append_left _ List.perm_append_comm
  · refine ⟨ht, fun op ws h w hw => all_wire.1 (hg.wires op ws h w hw), hg.fits, ?_, hs.outs, ?_⟩
    · intro x hx
      have := hg.orders x hx
      rw [all_op] at this
      exact this
    · by_cases hn : P.outs = []
      · rw [hn]; simp
      · have := h5 hn
        simp [Prog.op, Op.ports] at this
        exact this
  · intro w t hk hc
    have hu : P.uses w = (P.upTo P.calls).uses w + P.outs.count w := by
      unfold Prog.uses
      rw [List.count_append, List.count_append]
      simp [Prog.upTo]
      rfl
    rw [hu]
    by_cases hm : w ∈ P.outs
    · obtain ⟨h7, h8⟩ := h6 w hm t hk hc
      have : w ∉ (P.upTo P.calls).lines.flatMap Prod.snd ++ (P.upTo P.calls).outs := by
        intro hin
        obtain ⟨l, hl, e⟩ := (link_of_use hg (all_wire.2 (hs.outs w hm))).2 hin
        exact h7 l (hL.symm.subset hl) e
      unfold Prog.uses
      rw [List.count_eq_zero_of_not_mem this]
      omega
    · rw [List.count_eq_zero_of_not_mem hm]
      exact hlin w t (by rw [all_kind]; exact hk) hc

end Verif.Builder
