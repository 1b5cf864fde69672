import Verif.Builder.Lemmas

/-!
# What each call gives
-/
namespace Verif.Builder

open Verif.Graph Verif.Ops Verif.Validate Verif.Dataflow

variable {Meta : Type}

/-- What was built so far makes sense. -/
structure Prog.Good (P : Prog) : Prop where
  tags : P.TagsOk
  wires : ∀ op ws, (op, ws) ∈ P.lines → ∀ w ∈ ws, P.HasWire w
  fits : ∀ op ws, (op, ws) ∈ P.lines → ws.length ≤ (op.ports .incoming).length
  orders : ∀ x ∈ P.orders, P.HasNode x.1 ∧ P.HasNode x.2 ∧ ((P.op x.1).ports .outgoing).getLast? = some .stateOrder ∧
    ((P.op x.2).ports .incoming).getLast? = some .stateOrder
  outs : ∀ w ∈ P.outs, P.HasWire w
  outsFit : P.outs.length ≤ P.outputs.length + 1

/-- One more call. -/
def Prog.add (P : Prog) (c : Call) : Prog := { P with calls := P.calls ++ [c] }

theorem hugr_congr {P Q : Prog} (ho : P.op = Q.op) (hl : P.lines.length = Q.lines.length) (L : List Link) :
    (P.hugr L : Hugr Ops.Op Meta) = Q.hugr L := by
  unfold Prog.hugr
  rw [ho, hl]

theorem wire_lt {P : Prog} {w : Wire} (h : P.HasWire w) : w.1 < 4 + P.lines.length := (wire_node h).1.2

/-! ## Nodes -/

section node

variable {P : Prog} {op : Ops.Op} {ws : List Wire}

theorem add_node_lines : (P.add (.node op ws)).lines = P.lines ++ [(op, ws)] := by
  simp [Prog.add, Prog.lines]

theorem add_node_inputs : (P.add (.node op ws)).inputs = P.inputs := by simp [Prog.add, Prog.inputs]
theorem add_node_outputs : (P.add (.node op ws)).outputs = P.outputs := by simp [Prog.add, Prog.outputs]
theorem add_node_orders : (P.add (.node op ws)).orders = P.orders := by simp [Prog.add, Prog.orders]

theorem add_node_op : (P.add (.node op ws)).op = upd P.op (4 + P.lines.length) op := by
  funext n
  match n with
  | 0 => rw [upd, if_neg (by omega)]; rfl
  | 1 => rw [upd, if_neg (by omega)]; simp only [Prog.op, Prog.type, add_node_inputs, add_node_outputs]; rfl
  | 2 => rw [upd, if_neg (by omega)]; simp [Prog.op, add_node_inputs]
  | 3 => rw [upd, if_neg (by omega)]; simp [Prog.op, add_node_outputs]
  | k + 4 =>
    simp only [Prog.op, upd, add_node_lines]
    by_cases h : k + 4 = 4 + P.lines.length
    · have : k = P.lines.length := by omega
      subst this
      simp [h]
    · rw [if_neg h]
      rw [List.getElem?_append]
      split
      · rfl
      · rename_i hge
        rw [List.getElem?_eq_none (by simp; omega), List.getElem?_eq_none (by omega)]

theorem add_node_old {n : Nat} (h : n ≠ 4 + P.lines.length) : (P.add (.node op ws)).op n = P.op n := by
  rw [add_node_op]; simp [upd, h]

theorem add_node_wire {w : Wire} (h : P.HasWire w) : (P.add (.node op ws)).HasWire w := by
  have := wire_lt h
  obtain ⟨h1, k, hk, ho⟩ := h
  refine ⟨h1, k, ?_, ho⟩
  unfold Prog.kind at hk ⊢
  rw [add_node_old (by omega)]
  exact hk

theorem add_node_kind {w : Wire} (h : P.HasWire w) : (P.add (.node op ws)).kind w = P.kind w := by
  have := wire_lt h
  unfold Prog.kind
  rw [add_node_old (by omega)]

theorem add_node_node {n : Nat} (h : P.HasNode n) : (P.add (.node op ws)).HasNode n := by
  refine ⟨h.1, ?_⟩
  rw [add_node_lines]
  have := h.2
  simp
  omega

theorem add_node_tags (ht : P.TagsOk) (hp : Plain op) : (P.add (.node op ws)).TagsOk := by
  intro o us h
  rw [add_node_lines] at h
  rcases List.mem_append.1 h with h | h
  · exact ht o us h
  · simp at h
    rw [h.1]
    exact hp

/-- Adding the node itself. -/
theorem addNode_hugr (ht : P.TagsOk) (hp : Plain op) (L : List Link) :
    (P.hugr L : Hugr Ops.Op Meta).addNodeWithParent opsInfo.toOpInfo (4 + P.lines.length) 1 op =
      some ((P.add (.node op ws)).hugr L) := by
  unfold Hugr.addNodeWithParent Hugr.addNode
  rw [if_neg (by simp [Prog.hugr])]
  simp only [Prog.hugr]
  unfold Hier.pushChild Hier.canAttach
  have hmax : max (4 + P.lines.length) (4 + P.lines.length + 1) = P.lines.length + 5 := by omega
  rw [hmax, if_pos]
  · simp only [Hugr.withHier, Option.some.injEq, add_node_lines, List.length_append, List.length_singleton]
    have e1 : P.lines.length + 5 = 4 + (P.lines.length + 1) := by omega
    congr 1
    · funext n
      simp only [upd]
      split
      · subst_vars; simp
      · simp; omega
    · funext n
      rw [add_node_op]
      simp only [upd]
      split
      · exact inputs_eq (plain_tagOk hp)
      · rfl
    · funext n
      rw [add_node_op]
      simp only [upd]
      split
      · exact outputs_eq (plain_tagOk hp)
      · rfl
    · congr 1
      · funext n
        simp only [upd]
        by_cases h0 : n = 4 + P.lines.length
        · subst h0
          rw [if_pos rfl, if_neg (by omega), if_neg (by omega), if_pos (by omega)]
        · rw [if_neg h0]
          by_cases a : n = 0
          · simp [a]
          · by_cases b : n = 1
            · simp [b]
            · simp only [a, b, if_false]
              have : (n < 4 + P.lines.length) ↔ n < 4 + (P.lines.length + 1) := by omega
              simp only [this]
      · funext n
        simp only [upd]
        by_cases h1 : n = 1
        · subst h1
          simp only [if_true]
          rw [if_neg (by omega), if_neg (by omega)]
          rw [show 2 + (P.lines.length + 1) = (2 + P.lines.length) + 1 from by omega, List.range'_concat]
          simp
          omega
        · rw [if_neg h1, if_neg h1, if_neg h1]
    · rw [add_node_op]
  · have a : 4 + P.lines.length ≠ 0 := by omega
    have b : 4 + P.lines.length ≠ 1 := by omega
    have b' : ¬ 1 = 4 + P.lines.length := by omega
    have a' : ¬ 0 = 4 + P.lines.length := by omega
    simp [Hier.onPath, a, b, a', b']

theorem lineLinks_append (ls ms : List (Ops.Op × List Wire)) (n : Nat) :
    lineLinks n (ls ++ ms) = lineLinks n ls ++ lineLinks (n + ls.length) ms := by
  induction ls generalizing n with
  | nil => simp [lineLinks]
  | cons x xs ih =>
    simp only [List.cons_append, lineLinks, ih, List.append_assoc, List.length_cons]
    rw [Nat.add_right_comm n 1, Nat.add_assoc n]

theorem add_node_links (hg : P.Good) (h0 : P.outs = []) :
    (P.add (.node op ws)).links.Perm (P.links ++ wireLinks (4 + P.lines.length) 0 ws) := by
  have ho : (P.add (.node op ws)).outs = [] := h0
  unfold Prog.links
  rw [add_node_lines, lineLinks_append, add_node_orders, ho, h0]
  simp only [wireLinks, List.append_nil, lineLinks]
  have : P.orders.map (orderLink (P.add (.node op ws))) = P.orders.map (orderLink P) := by
    apply List.map_congr_left
    intro x hx
    obtain ⟨h1, h2, -⟩ := hg.orders x hx
    have := h1.2
    have := h2.2
    unfold orderLink
    rw [add_node_old (by omega), add_node_old (by omega)]
  rw [this, List.append_assoc, List.append_assoc]
  exact List.Perm.append_left _ List.perm_append_comm

theorem add_node_good (hg : P.Good) (hp : Plain op) (hw : ∀ w ∈ ws, P.HasWire w)
    (hf : ws.length ≤ (op.ports .incoming).length) : (P.add (.node op ws)).Good where
  tags := add_node_tags hg.tags hp
  wires := by
    intro o us h w hwm
    rw [add_node_lines] at h
    rcases List.mem_append.1 h with h | h
    · exact add_node_wire (hg.wires o us h w hwm)
    · simp at h
      exact add_node_wire (hw w (h.2 ▸ hwm))
  fits := by
    intro o us h
    rw [add_node_lines] at h
    rcases List.mem_append.1 h with h | h
    · exact hg.fits o us h
    · simp at h
      rw [h.1, h.2]
      exact hf
  orders := by
    intro x hx
    rw [add_node_orders] at hx
    obtain ⟨h1, h2, h3, h4⟩ := hg.orders x hx
    have := h1.2
    have := h2.2
    refine ⟨add_node_node h1, add_node_node h2, ?_⟩
    rw [add_node_old (by omega), add_node_old (by omega)]
    exact ⟨h3, h4⟩
  outs := fun w h => add_node_wire (hg.outs w h)
  outsFit := by rw [add_node_outputs]; exact hg.outsFit

theorem new_node : (P.add (.node op ws)).HasNode (4 + P.lines.length) :=
  ⟨by omega, by rw [add_node_lines]; simp⟩

theorem new_op : (P.add (.node op ws)).op (4 + P.lines.length) = op := by rw [add_node_op]; simp [upd]

theorem addNode_ok (hg : P.Good) (h0 : P.outs = []) (hp : Plain op) (hw : ∀ w ∈ ws, P.HasWire w) {L : List Link}
    (hL : L.Perm P.links) {b : Builder Meta} (h : (P.builder L).addNode op ws = .ok b) :
    ∃ L', b = (P.add (.node op ws)).builder L' ∧ L'.Perm (P.add (.node op ws)).links ∧
      (P.add (.node op ws)).Good := by
  have ht := add_node_tags (ws := ws) hg.tags hp
  unfold Builder.addNode at h
  have e : (P.builder L : Builder Meta).hugr.cap = 4 + P.lines.length := rfl
  rw [e, show (P.builder L : Builder Meta).hugr = P.hugr L from rfl, show (P.builder L : Builder Meta).node = 1 from rfl,
    addNode_hugr (ws := ws) hg.tags hp] at h
  obtain ⟨g, h1, h2⟩ := Built.bind_ok h
  obtain ⟨e, h3⟩ := wireUpInputs_ok ht new_node ws 0 L g (fun w hm => add_node_wire (hw w hm)) h1
  simp only [Built.ok.injEq] at h2
  subst h2 e
  refine ⟨L ++ wireLinks (4 + P.lines.length) 0 ws, ?_, ?_, add_node_good hg hp hw ?_⟩
  · simp [Prog.builder, add_node_inputs]
  · exact (hL.append_right _).trans (add_node_links hg h0).symm
  · by_cases hn : ws = []
    · subst hn; simp
    · have := h3 hn
      rw [new_op] at this
      omega

theorem addNode_of (hg : P.Good) (hp : Plain op) (hw : ∀ w ∈ ws, P.HasWire w)
    (hf : ws.length ≤ (op.ports .incoming).length) {L : List Link}
    (hlin : ∀ w ∈ ws, ∀ t, P.kind w = some (.value t) → t.copyable = false →
      (∀ l ∈ L, ¬ (l.src = w.1 ∧ l.srcPort = w.2)) ∧ ws.count w ≤ 1) :
    ∃ b : Builder Meta, (P.builder L).addNode op ws = .ok b := by
  have ht := add_node_tags (ws := ws) hg.tags hp
  unfold Builder.addNode
  have e : (P.builder L : Builder Meta).hugr.cap = 4 + P.lines.length := rfl
  rw [e, show (P.builder L : Builder Meta).hugr = P.hugr L from rfl, show (P.builder L : Builder Meta).node = 1 from rfl,
    addNode_hugr (ws := ws) hg.tags hp]
  simp only
  rw [wireUpInputs_of ht new_node ws 0 L (fun w hm => add_node_wire (hw w hm))]
  · exact ⟨_, rfl⟩
  · rw [new_op]; omega
  · intro w hm t hk
    rw [add_node_kind (hw w hm)] at hk
    exact hlin w hm t hk

end node

/-! ## Order -/

section order

variable {P : Prog} {x y : Nat}

theorem add_order_lines : (P.add (.order x y)).lines = P.lines := by simp [Prog.add, Prog.lines]
theorem add_order_inputs : (P.add (.order x y)).inputs = P.inputs := by simp [Prog.add, Prog.inputs]
theorem add_order_outputs : (P.add (.order x y)).outputs = P.outputs := by simp [Prog.add, Prog.outputs]
theorem add_order_orders : (P.add (.order x y)).orders = P.orders ++ [(x, y)] := by simp [Prog.add, Prog.orders]

theorem add_order_op : (P.add (.order x y)).op = P.op := by
  funext n
  match n with
  | 0 => rfl
  | 1 => simp only [Prog.op, Prog.type, add_order_inputs, add_order_outputs]; rfl
  | 2 => simp [Prog.op, add_order_inputs]
  | 3 => simp [Prog.op, add_order_outputs]
  | k + 4 => simp [Prog.op, add_order_lines]

theorem add_order_wire {w : Wire} : (P.add (.order x y)).HasWire w ↔ P.HasWire w := by
  unfold Prog.HasWire Prog.kind
  rw [add_order_op]

theorem add_order_kind {w : Wire} : (P.add (.order x y)).kind w = P.kind w := by
  unfold Prog.kind
  rw [add_order_op]

theorem add_order_node {n : Nat} : (P.add (.order x y)).HasNode n ↔ P.HasNode n := by
  unfold Prog.HasNode
  rw [add_order_lines]

theorem orderPort_lt {op : Ops.Op} {dir : Ops.Dir} (h : (op.ports dir).getLast? = some .stateOrder) :
    orderPort op dir < (op.ports dir).length := by
  unfold orderPort
  cases hp : op.ports dir with
  | nil => simp [hp] at h
  | cons a as => simp

theorem order_get {op : Ops.Op} {dir : Ops.Dir} (h : (op.ports dir).getLast? = some .stateOrder) :
    (op.ports dir)[orderPort op dir]? = some .stateOrder := by
  unfold orderPort
  rw [← List.getLast?_eq_getElem?]
  exact h

theorem setOrder_ok (hg : P.Good) (hx : P.HasNode x) (hy : P.HasNode y) {L : List Link} (hL : L.Perm P.links)
    {b : Builder Meta} (h : (P.builder L).setOrder x y = .ok b) :
    ∃ L', b = (P.add (.order x y)).builder L' ∧ L'.Perm (P.add (.order x y)).links ∧ (P.add (.order x y)).Good := by
  unfold Builder.setOrder at h
  obtain ⟨g, h1, h2⟩ := Built.bind_ok h
  simp only [Built.ok.injEq] at h2
  subst h2
  unfold addOtherEdge at h1
  simp only [show (P.builder L : Builder Meta).hugr = P.hugr L from rfl,
    show (P.hugr L : Hugr Ops.Op Meta).ops = P.op from rfl] at h1
  rcases plain_other (node_plain hg.tags hx) .outgoing with ⟨ox, ex⟩ | ⟨-, nx, -⟩
  swap
  · exfalso
    cases hq : (P.op x).otherPort .outgoing with
    | ok o =>
      cases o with
      | none => rw [hq] at h1; cases h1
      | some p => exact nx p hq
    | _ => rw [hq] at h1; cases h1
  rcases plain_other (node_plain hg.tags hy) .incoming with ⟨oy, ey⟩ | ⟨-, ny, -⟩
  swap
  · exfalso
    rw [ex] at h1
    cases hq : (P.op y).otherPort .incoming with
    | ok o =>
      cases o with
      | none => rw [hq] at h1; cases h1
      | some p => exact ny p hq
    | _ => rw [hq] at h1; cases h1
  rw [ex, ey] at h1
  simp only at h1
  rw [connect_hugr, if_pos ⟨hx.2, orderPort_lt ox, hy.2, orderPort_lt oy⟩] at h1
  simp only [ofOption, Built.ok.injEq] at h1
  subst h1
  refine ⟨L ++ [orderLink P (x, y)], ?_, ?_, ?_⟩
  · unfold Prog.builder
    rw [add_order_inputs]
    congr 1
    exact hugr_congr add_order_op.symm (by rw [add_order_lines]) _
  · unfold Prog.links orderLink
    rw [add_order_lines, add_order_orders, add_order_op]
    rw [show (P.add (.order x y)).outs = P.outs from rfl, List.map_append, ← List.append_assoc]
    exact hL.append_right _
  · constructor
    · intro o us h; rw [add_order_lines] at h; exact hg.tags o us h
    · intro o us h w hw; rw [add_order_lines] at h; exact add_order_wire.2 (hg.wires o us h w hw)
    · intro o us h; rw [add_order_lines] at h; exact hg.fits o us h
    · intro z hz
      rw [add_order_orders] at hz
      rw [add_order_node, add_order_node, add_order_op]
      rcases List.mem_append.1 hz with hz | hz
      · exact hg.orders z hz
      · simp only [List.mem_singleton] at hz
        subst hz
        exact ⟨hx, hy, ox, oy⟩
    · intro w hw; exact add_order_wire.2 (hg.outs w hw)
    · rw [add_order_outputs]; exact hg.outsFit

theorem setOrder_of (hg : P.Good) (hx : P.HasNode x) (hy : P.HasNode y)
    (ox : .stateOrder ∈ (P.op x).ports .outgoing) (oy : .stateOrder ∈ (P.op y).ports .incoming) {L : List Link} :
    ∃ b : Builder Meta, (P.builder L).setOrder x y = .ok b := by
  rcases plain_other (node_plain hg.tags hx) .outgoing with ⟨ox, ex⟩ | ⟨-, -, h⟩
  swap
  · exact absurd ox h
  rcases plain_other (node_plain hg.tags hy) .incoming with ⟨oy, ey⟩ | ⟨-, -, h⟩
  swap
  · exact absurd oy h
  unfold Builder.setOrder addOtherEdge
  simp only [show (P.builder L : Builder Meta).hugr = P.hugr L from rfl,
    show (P.hugr L : Hugr Ops.Op Meta).ops = P.op from rfl, ex, ey]
  rw [connect_hugr, if_pos ⟨hx.2, orderPort_lt ox, hy.2, orderPort_lt oy⟩]
  exact ⟨_, rfl⟩

end order

/-! ## All links -/

theorem mem_wireLinks {dst : Nat} {l : Link} : ∀ {ws : List Wire} {port : Nat}, l ∈ wireLinks dst port ws →
    (l.src, l.srcPort) ∈ ws ∧ l.dst = dst ∧ port ≤ l.dstPort ∧ l.dstPort < port + ws.length
  | [], _, h => by cases h
  | w :: ws, port, h => by
    simp only [wireLinks, List.mem_cons] at h
    rcases h with rfl | h
    · simp
    · obtain ⟨h1, h2, h3, h4⟩ := mem_wireLinks h
      refine ⟨by simp [h1], h2, by omega, by simp; omega⟩

theorem mem_lineLinks {l : Link} : ∀ {ls : List (Ops.Op × List Wire)} {n : Nat}, l ∈ lineLinks n ls →
    ∃ k op ws, ls[k]? = some (op, ws) ∧ (l.src, l.srcPort) ∈ ws ∧ l.dst = n + k ∧ l.dstPort < ws.length
  | [], _, h => by cases h
  | (op, ws) :: rest, n, h => by
    simp only [lineLinks, List.mem_append] at h
    rcases h with h | h
    · obtain ⟨h1, h2, -, h4⟩ := mem_wireLinks h
      exact ⟨0, op, ws, rfl, h1, h2, by omega⟩
    · obtain ⟨k, op', ws', hk, h1, h2, h3⟩ := mem_lineLinks h
      exact ⟨k + 1, op', ws', by simpa using hk, h1, by omega, h3⟩

/-- All links of a program: those of wires, and those for order. -/
theorem mem_links {P : Prog} (hg : P.Good) {l : Link} (h : l ∈ P.links) :
    (P.HasWire (l.src, l.srcPort) ∧ P.HasNode l.dst ∧ l.dst ≠ 2 ∧ l.dstPort < ((P.op l.dst).ports .incoming).length ∧
      (l.dst = 3 → (l.src, l.srcPort) ∈ P.outs) ∧ ∀ k, l.dst = 4 + k → ∃ op ws, P.lines[k]? = some (op, ws) ∧
        (l.src, l.srcPort) ∈ ws) ∨ ∃ x ∈ P.orders, l = orderLink P x := by
  unfold Prog.links at h
  rcases List.mem_append.1 h with h | h
  · left
    rcases List.mem_append.1 h with h | h
    · obtain ⟨k, op, ws, hk, h1, h2, h3⟩ := mem_lineLinks h
      have hm := List.mem_of_getElem? hk
      have hlt := (List.getElem?_eq_some_iff.1 hk).1
      refine ⟨hg.wires op ws hm _ h1, ⟨by omega, by omega⟩, by omega, ?_, by omega, ?_⟩
      · rw [h2, op_line hk]
        exact Nat.lt_of_lt_of_le h3 (hg.fits op ws hm)
      · intro k' e
        obtain rfl : k = k' := by omega
        exact ⟨op, ws, hk, h1⟩
    · obtain ⟨h1, h2, -, h4⟩ := mem_wireLinks h
      have := hg.outsFit
      refine ⟨hg.outs _ h1, ⟨by omega, by omega⟩, by omega, ?_, fun _ => h1, by omega⟩
      rw [h2]
      simp [Prog.op, Op.ports]
      omega
  · right
    obtain ⟨x, hx, rfl⟩ := List.mem_map.1 h
    exact ⟨x, hx, rfl⟩

theorem links_range {P : Prog} (hg : P.Good) {l : Link} (h : l ∈ P.links) : P.HasNode l.src ∧ P.HasNode l.dst ∧
    l.srcPort < ((P.op l.src).ports .outgoing).length ∧ l.dstPort < ((P.op l.dst).ports .incoming).length := by
  rcases mem_links hg h with ⟨h1, h2, -, h3, -⟩ | ⟨x, hx, rfl⟩
  · refine ⟨(wire_node h1).1, h2, ?_, h3⟩
    obtain ⟨-, k, hk, -⟩ := h1
    exact (List.getElem?_eq_some_iff.1 hk).1
  · obtain ⟨h1, h2, h3, h4⟩ := hg.orders x hx
    exact ⟨h1, h2, orderPort_lt h3, orderPort_lt h4⟩

/-! ## Inputs -/

section input

variable {P : Prog} {t : Types.Ty}

theorem add_input_lines : (P.add (.input t)).lines = P.lines := by simp [Prog.add, Prog.lines]
theorem add_input_inputs : (P.add (.input t)).inputs = P.inputs ++ [t] := by simp [Prog.add, Prog.inputs]
theorem add_input_outputs : (P.add (.input t)).outputs = P.outputs := by simp [Prog.add, Prog.outputs]
theorem add_input_orders : (P.add (.input t)).orders = P.orders := by simp [Prog.add, Prog.orders]

theorem add_input_op : (P.add (.input t)).op = upd (upd P.op 1 (.funcDefn P.name
    { P.type with body := ⟨P.inputs ++ [t], P.outputs⟩ })) 2 (.input (P.inputs ++ [t])) := by
  funext n
  match n with
  | 0 => rfl
  | 1 => simp only [Prog.op, Prog.type, add_input_inputs, add_input_outputs]; rfl
  | 2 => simp only [Prog.op, add_input_inputs]; rfl
  | 3 => simp only [Prog.op, add_input_outputs]; rfl
  | k + 4 => simp only [Prog.op, add_input_lines]; rfl

theorem add_input_old {n : Nat} (h1 : n ≠ 1) (h2 : n ≠ 2) : (P.add (.input t)).op n = P.op n := by
  rw [add_input_op]; simp [upd, h1, h2]

theorem add_input_op2 : (P.add (.input t)).op 2 = .input (P.inputs ++ [t]) := by rw [add_input_op]; rfl

theorem add_input_kind {w : Wire} (h : P.HasWire w) : (P.add (.input t)).kind w = P.kind w := by
  obtain ⟨h1, k, hk, ho⟩ := h
  unfold Prog.kind at hk ⊢
  by_cases h2 : w.1 = 2
  · rw [h2] at hk ⊢
    rw [add_input_op2]
    simp only [Prog.op, Op.ports] at hk ⊢
    have hlt : w.2 < P.inputs.length := by
      by_contra hge
      rw [List.getElem?_append_right (by simp; omega), List.getElem?_singleton] at hk
      split at hk
      · cases hk; cases ho
      · cases hk
    rw [List.getElem?_append_left (by simp; omega), List.getElem?_append_left (by simpa using hlt), List.map_append,
      List.getElem?_append_left (by simpa using hlt)]
  · rw [add_input_old h1 h2]

theorem add_input_wire {w : Wire} (h : P.HasWire w) : (P.add (.input t)).HasWire w := by
  refine ⟨h.1, ?_⟩
  rw [add_input_kind h]
  exact h.2

theorem add_input_node {n : Nat} : (P.add (.input t)).HasNode n ↔ P.HasNode n := by
  unfold Prog.HasNode
  rw [add_input_lines]

/-- Where a link goes when there is one more input. -/
def moveOut (p : Nat) (l : Link) : Link := if l.at 2 .outgoing p then { l with srcPort := p + 1 } else l

theorem shiftOut_perm (L : List Link) (p : Nat) :
    (L.filter (fun l => !l.at 2 .outgoing p) ++ ((L.filter fun l => l.src = 2 && l.srcPort = p).map
      fun l => (l.dst, l.dstPort)).map fun t => (⟨2, p + 1, t.1, t.2⟩ : Link)).Perm (L.map (moveOut p)) := by
  induction L with
  | nil => simp
  | cons l L ih =>
    by_cases h : l.src = 2 ∧ l.srcPort = p
    · have e : l.at 2 .outgoing p = true := by simp [Link.at, h.1, h.2]
      have e' : (decide (l.src = 2) && decide (l.srcPort = p)) = true := by simp [h.1, h.2]
      rw [List.filter_cons_of_neg (by simp [e]), List.filter_cons_of_pos (by simp [h.1, h.2]), List.map_cons,
        List.map_cons, List.map_cons]
      rw [show moveOut p l = ⟨2, p + 1, l.dst, l.dstPort⟩ from by simp [moveOut, e, h.1]]
      exact List.perm_middle.trans (ih.cons _)
    · have e : l.at 2 .outgoing p = false := by
        simp only [Link.at, Bool.and_eq_false_iff, beq_eq_false_iff_ne, ne_eq]
        by_contra hc
        push Not at hc
        exact h hc
      rw [List.filter_cons_of_pos (by simp [e]), List.filter_cons_of_neg (by simpa using h), List.map_cons,
        show moveOut p l = l from by simp [moveOut, e]]
      exact ih.cons _

theorem add_input_links (hg : P.Good) : (P.add (.input t)).links = P.links.map (moveOut P.inputs.length) := by
  have e : ∀ l ∈ lineLinks 4 P.lines ++ wireLinks 3 0 P.outs, moveOut P.inputs.length l = l := by
    intro l hl
    have hw : P.HasWire (l.src, l.srcPort) := by
      rcases List.mem_append.1 hl with h | h
      · obtain ⟨k, op, ws, hk, h1, -⟩ := mem_lineLinks h
        exact hg.wires op ws (List.mem_of_getElem? hk) _ h1
      · exact hg.outs _ (mem_wireLinks h).1
    unfold moveOut
    rw [if_neg]
    simp only [Link.at, Bool.and_eq_true, beq_iff_eq, not_and]
    intro h2 hp
    obtain ⟨-, k, hk, ho⟩ := hw
    unfold Prog.kind at hk
    simp only [h2, hp, Prog.op, Op.ports] at hk
    rw [List.getElem?_append_right (by simp)] at hk
    simp at hk
    subst hk
    cases ho
  unfold Prog.links
  rw [List.map_append, List.map_congr_left e, List.map_id', add_input_lines, add_input_orders, List.map_map]
  congr 1
  apply List.map_congr_left
  intro x hx
  obtain ⟨h1, h2, h3, h4⟩ := hg.orders x hx
  have n1 : x.1 ≠ 1 := by have := h1.1; omega
  have n2 : x.2 ≠ 1 := by have := h2.1; omega
  have n3 : x.2 ≠ 2 := by
    intro e
    rw [e] at h4
    simp [Prog.op, Op.ports] at h4
  simp only [Function.comp, orderLink]
  rw [add_input_old n2 n3]
  by_cases hx2 : x.1 = 2
  · rw [hx2, add_input_op2]
    simp [Prog.op, orderPort, Op.ports, moveOut, Link.at]
  · rw [add_input_old n1 hx2]
    simp [moveOut, Link.at, hx2]

theorem add_input_good (hg : P.Good) : (P.add (.input t)).Good where
  tags := by intro o us h; rw [add_input_lines] at h; exact hg.tags o us h
  wires := by intro o us h w hw; rw [add_input_lines] at h; exact add_input_wire (hg.wires o us h w hw)
  fits := by intro o us h; rw [add_input_lines] at h; exact hg.fits o us h
  orders := by
    intro x hx
    rw [add_input_orders] at hx
    obtain ⟨h1, h2, h3, h4⟩ := hg.orders x hx
    have n1 : x.1 ≠ 1 := by have := h1.1; omega
    have n2 : x.2 ≠ 1 := by have := h2.1; omega
    have n3 : x.2 ≠ 2 := by
      intro e
      rw [e] at h4
      simp [Prog.op, Op.ports] at h4
    refine ⟨add_input_node.2 h1, add_input_node.2 h2, ?_, by rw [add_input_old n2 n3]; exact h4⟩
    by_cases hx2 : x.1 = 2
    · rw [hx2, add_input_op2]; simp [Op.ports]
    · rw [add_input_old n1 hx2]; exact h3
  outs := fun w hw => add_input_wire (hg.outs w hw)
  outsFit := by rw [add_input_outputs]; exact hg.outsFit

theorem io_hugr (P : Prog) (L : List Link) : (P.builder L : Builder Meta).io = some (2, 3) := by
  have h : (P.builder L : Builder Meta).hugr.children (P.builder L : Builder Meta).node =
      List.range' 2 (2 + P.lines.length) := rfl
  unfold Builder.io
  rw [h, show 2 + P.lines.length = P.lines.length + 1 + 1 from by omega, List.range'_succ, List.range'_succ]

theorem addInput_hugr (hg : P.Good) {L : List Link} (hL : L.Perm P.links) :
    ∃ L', (P.builder L : Builder Meta).addInput t = .ok ((P.add (.input t)).builder L') ∧
      L'.Perm (P.add (.input t)).links := by
  have hf : L.filter (fun l => (l.dst != 2 || decide (l.dstPort < 0)) &&
      (l.src != 2 || decide (l.srcPort < P.inputs.length + 1 + 1))) = L := by
    apply List.filter_eq_self.2
    intro l hl
    obtain ⟨-, -, h3, h4⟩ := links_range hg (hL.subset hl)
    have a : l.dst ≠ 2 := by
      intro e
      rw [e] at h4
      simp [Prog.op, Op.ports] at h4
    have b : l.src = 2 → l.srcPort < P.inputs.length + 1 + 1 := by
      intro e
      rw [e] at h3
      simp [Prog.op, Op.ports] at h3
      omega
    by_cases hs : l.src = 2
    · simp [a, b hs]
    · simp [a, hs]
  refine ⟨_, ?_, (shiftOut_perm L P.inputs.length).trans ((hL.map _).trans (add_input_links hg ▸ List.Perm.refl _))⟩
  unfold Builder.addInput
  rw [io_hugr]
  have e1 : (P.builder L : Builder Meta).hugr.ops (P.builder L : Builder Meta).node = .funcDefn P.name P.type := rfl
  have e2 : (P.builder L : Builder Meta).hugr.ops 2 = .input P.inputs := rfl
  rw [e1]
  simp only [updateSignature, e2]
  have e3 : (P.hugr L : Hugr Ops.Op Meta).outs 2 = P.inputs.length + 1 := by simp [Prog.hugr, Prog.op, Op.ports]
  have e4 : (P.hugr L : Hugr Ops.Op Meta).ins 2 = 0 := by simp [Prog.hugr, Prog.op, Op.ports]
  have e5 : (P.hugr L : Hugr Ops.Op Meta).live 2 = true := by simp [Prog.hugr]; omega
  have e6 : addSigned (P.inputs.length + 1) 1 = P.inputs.length + 1 + 1 := by unfold addSigned; omega
  unfold Hugr.addPorts
  simp only [show (P.builder L : Builder Meta).hugr = P.hugr L from rfl, e3, e4, e5, e6, if_true]
  rw [Nat.add_sub_cancel]
  simp only [Added.ok.injEq, Prog.builder, Builder.mk.injEq, true_and, add_input_inputs, List.length_append,
    List.length_singleton, and_true]
  unfold shiftOrderOut Hugr.resizePorts Hugr.linkedInputs
  rw [show (P.hugr L : Hugr Ops.Op Meta).links = L from rfl, hf]
  unfold Prog.hugr
  rw [add_input_lines]
  congr 1
  · funext n
    by_cases hn : n = 2
    · subst hn
      simp [upd, Prog.op, Op.ports]
    · by_cases h1 : n = 1
      · subst h1; simp [upd, Prog.op, Op.ports]
      · rw [add_input_old h1 hn]; simp [upd, hn]
  · funext n
    by_cases hn : n = 2
    · subst hn
      simp [upd, add_input_op2, Op.ports]
    · by_cases h1 : n = 1
      · subst h1; simp [upd, Prog.op, Op.ports]
      · rw [add_input_old h1 hn]; simp [upd, hn]
  · rw [add_input_op]
    rfl

end input

end Verif.Builder
