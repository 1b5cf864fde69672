import Verif.Builder.Build

/-!
# When building fails
-/
namespace Verif.Builder

open Verif.Graph Verif.Ops Verif.Validate Verif.Dataflow

variable {Meta : Type}

/-! ## More calls keep what there is -/

theorem add_wire {P : Prog} (c : Call) {w : Wire} (h : P.HasWire w) :
    (P.add c).HasWire w ∧ (P.add c).kind w = P.kind w := by
  cases c with
  | node op ws => exact ⟨add_node_wire h, add_node_kind h⟩
  | input t => exact ⟨add_input_wire h, add_input_kind h⟩
  | output t => exact ⟨add_output_wire h, add_output_kind h⟩
  | order x y => exact ⟨add_order_wire.2 h, add_order_kind⟩

theorem add_node' {P : Prog} (c : Call) {n : Nat} (h : P.HasNode n) : (P.add c).HasNode n ∧
    ∀ dir, .stateOrder ∈ ((P.add c).op n).ports dir ↔ .stateOrder ∈ (P.op n).ports dir := by
  have h1 : n ≠ 1 := by have := h.1; omega
  cases c with
  | node op ws =>
    refine ⟨add_node_node h, fun dir => ?_⟩
    rw [add_node_old (by have := h.2; omega)]
  | input t =>
    refine ⟨add_input_node.2 h, fun dir => ?_⟩
    by_cases h2 : n = 2
    · subst h2
      rw [add_input_op2]
      cases dir <;> simp [Prog.op, Op.ports]
    · rw [add_input_old h1 h2]
  | output t =>
    refine ⟨add_output_node.2 h, fun dir => ?_⟩
    by_cases h2 : n = 3
    · subst h2
      rw [add_output_op3]
      cases dir <;> simp [Prog.op, Op.ports]
    · rw [add_output_old h1 h2]
  | order x y => exact ⟨add_order_node.2 h, fun dir => by rw [add_order_op]⟩

theorem upTo_wire {P : Prog} {pre : List Call} (post : List Call) {w : Wire} (h : (P.upTo pre).HasWire w) :
    (P.upTo (pre ++ post)).HasWire w ∧ (P.upTo (pre ++ post)).kind w = (P.upTo pre).kind w := by
  induction post using List.reverseRecOn with
  | nil => simpa using h
  | append_singleton post c ih =>
    rw [← List.append_assoc, show P.upTo (pre ++ post ++ [c]) = (P.upTo (pre ++ post)).add c from rfl]
    obtain ⟨h1, h2⟩ := add_wire c ih.1
    exact ⟨h1, h2.trans ih.2⟩

theorem upTo_node {P : Prog} {pre : List Call} (post : List Call) {n : Nat} (h : (P.upTo pre).HasNode n) :
    (P.upTo (pre ++ post)).HasNode n ∧
    ∀ dir, .stateOrder ∈ ((P.upTo (pre ++ post)).op n).ports dir ↔ .stateOrder ∈ ((P.upTo pre).op n).ports dir := by
  induction post using List.reverseRecOn with
  | nil => simpa using h
  | append_singleton post c ih =>
    rw [← List.append_assoc, show P.upTo (pre ++ post ++ [c]) = (P.upTo (pre ++ post)).add c from rfl]
    obtain ⟨h1, h2⟩ := add_node' c ih.1
    exact ⟨h1, fun dir => (h2 dir).trans (ih.2 dir)⟩

theorem upTo_uses (P : Prog) (pre post : List Call) (w : Wire) :
    (P.upTo (pre ++ post)).uses w = (P.upTo pre).uses w + (P.upTo post).uses w := by
  unfold Prog.uses Prog.lines Prog.upTo
  simp

theorem uses_outs (P : Prog) (w : Wire) : P.uses w = (P.upTo P.calls).uses w + P.outs.count w := by
  unfold Prog.uses
  rw [List.count_append, List.count_append]
  simp [Prog.upTo]
  rfl

/-! ## One call -/

/-- When wiring does not go well. -/
theorem wireUpInputs_fails {P : Prog} (ht : P.TagsOk) {dst : Nat} (hd : P.HasNode dst) :
    ∀ (ws : List Wire) (port : Nat) (L : List Link), (∀ w ∈ ws, P.HasWire w) → ∀ e,
      wireUpInputs dst port ws (P.hugr L : Hugr Ops.Op Meta) = .error e → e = .noCopyLinear ∧
        ∃ w ∈ ws, ∃ t, P.kind w = some (.value t) ∧ t.copyable = false ∧
          ((∃ l ∈ L, l.src = w.1 ∧ l.srcPort = w.2) ∨ 2 ≤ ws.count w)
  | [], port, L, _, e, h => by cases h
  | w :: ws, port, L, hw, e, h => by
    simp only [wireUpInputs] at h
    rw [wireUp_hugr ht L (hw w (by simp)) hd] at h
    split at h
    · rename_i hc
      simp only [Built.bind, Built.error.injEq] at h
      obtain ⟨⟨t, h1, h2⟩, h3⟩ := hc
      exact ⟨h.symm, w, by simp, t, h1, h2, .inl h3⟩
    split at h
    swap
    · cases h
    simp only [Built.bind] at h
    obtain ⟨e1, x, hx, t, h1, h2, h3⟩ := wireUpInputs_fails ht hd ws _ _ (fun x hx => hw x (by simp [hx])) e h
    refine ⟨e1, x, by simp [hx], t, h1, h2, ?_⟩
    rcases h3 with ⟨l, hl, h4⟩ | h3
    · rcases List.mem_append.1 hl with hl | hl
      · exact .inl ⟨l, hl, h4⟩
      · right
        simp only [List.mem_singleton] at hl
        subst hl
        obtain rfl : w = x := Prod.ext h4.1 h4.2
        rw [List.count_cons_self]
        have : 1 ≤ ws.count w := List.one_le_count_iff.2 hx
        omega
    · right
      rw [List.count_cons]
      omega

/-- The first call that does not go well. -/
theorem calls_cases (b : Builder Meta) (cs : List Call) : (∃ b', b.calls cs = .ok b') ∨
    ∃ pre c post b', cs = pre ++ c :: post ∧ b.calls pre = .ok b' ∧ (∀ b'', b'.call c ≠ .ok b'') ∧
      ∀ e, b.calls cs = .error e → b'.call c = .error e := by
  induction cs generalizing b with
  | nil => exact .inl ⟨b, rfl⟩
  | cons c cs ih =>
    simp only [Builder.calls]
    cases hc : b.call c with
    | ok b1 =>
      rcases ih b1 with ⟨b', h⟩ | ⟨pre, c', post, b', rfl, h2, h3, h4⟩
      · exact .inl ⟨b', h⟩
      · refine .inr ⟨c :: pre, c', post, b', rfl, ?_, h3, h4⟩
        simp only [Builder.calls, hc]
        exact h2
    | error e =>
      refine .inr ⟨[], c, cs, b, rfl, rfl, ?_, ?_⟩
      · intro b''; rw [hc]; nofun
      · intro e' h; rw [hc]; exact h
    | panic =>
      refine .inr ⟨[], c, cs, b, rfl, rfl, ?_, ?_⟩
      · intro b''; rw [hc]; nofun
      · intro e' h; cases h

/-- What is needed for all calls to go well. -/
structure Prog.Wireable (P : Prog) : Prop where
  linear : P.Linear
  fits : ∀ op ws, (op, ws) ∈ P.lines → ws.length ≤ (op.ports .incoming).length
  orders : ∀ a b, (a, b) ∈ P.orders → .stateOrder ∈ (P.op a).ports .outgoing ∧ .stateOrder ∈ (P.op b).ports .incoming
  outs : P.outs.length ≤ P.outputs.length + 1

theorem Scoped.wire_kind {P : Prog} {pre post : List Call} (hp : P.calls = pre ++ post) {w : Wire}
    (h : (P.upTo pre).HasWire w) : P.kind w = (P.upTo pre).kind w := by
  rw [← all_kind, hp]
  exact (upTo_wire post h).2

theorem node_mem_lines {P : Prog} {op : Ops.Op} {ws : List Wire} (h : Call.node op ws ∈ P.calls) : (op, ws) ∈ P.lines := by
  unfold Prog.lines
  exact List.mem_filterMap.2 ⟨_, h, rfl⟩

theorem order_mem_orders {P : Prog} {a b : Nat} (h : Call.order a b ∈ P.calls) : (a, b) ∈ P.orders := by
  unfold Prog.orders
  exact List.mem_filterMap.2 ⟨_, h, rfl⟩

/-- A node is wired up with a value that is used before, or a call needs ports that there are not. -/
theorem call_fails {P : Prog} (hs : P.Scoped) {pre : List Call} {c : Call} {post : List Call}
    (hp : P.calls = pre ++ c :: post) {b : Builder Meta} (h : ((P.upTo []).builder []).calls pre = .ok b) :
    (P.Wireable → ∃ b', b.call c = .ok b') ∧ ∀ e, b.call c = .error e → e = .noCopyLinear ∧
      ∃ w t, P.kind w = some (.value t) ∧ t.copyable = false ∧ 2 ≤ P.uses w := by
  obtain ⟨L, rfl, hL, hg, hlin⟩ := calls_ok hs pre (c :: post) hp b h
  cases c with
  | node op ws =>
    have hpl := hs.plain op ws (by rw [hp]; simp)
    have hw := hs.wires pre op ws post hp
    have hu : ∀ w, (P.upTo pre).uses w + ws.count w ≤ P.uses w := by
      intro w
      have e : (P.upTo [.node op ws]).uses w = ws.count w := by simp [Prog.uses, Prog.lines, Prog.upTo]
      have e2 := upTo_uses P [.node op ws] post w
      have e3 := upTo_uses P pre ([.node op ws] ++ post) w
      have e4 := uses_outs P w
      rw [hp, show pre ++ .node op ws :: post = pre ++ ([.node op ws] ++ post) from rfl] at e4
      omega
    have hk : ∀ w ∈ ws, P.kind w = (P.upTo pre).kind w := fun w hm => Scoped.wire_kind hp (hw w hm)
    have hlink : ∀ w ∈ ws, (∃ l ∈ L, l.src = w.1 ∧ l.srcPort = w.2) → 1 ≤ (P.upTo pre).uses w := by
      rintro w hm ⟨l, hl, he⟩
      unfold Prog.uses
      exact List.one_le_count_iff.2 ((link_of_use hg (hw w hm)).1 ⟨l, hL.subset hl, he⟩)
    constructor
    · intro hwire
      apply addNode_of hg hpl hw (hwire.fits op ws (node_mem_lines (by rw [hp]; simp)))
      intro w hm t hkw hc
      have h1 := hwire.linear w t ((hk w hm).trans hkw) hc
      have h2 := hu w
      have h3 : 1 ≤ ws.count w := List.one_le_count_iff.2 hm
      refine ⟨fun l hl he => ?_, by omega⟩
      have := hlink w hm ⟨l, hl, he⟩
      omega
    · intro e he
      simp only [Builder.call, Builder.addNode] at he
      rw [show ((P.upTo pre).builder L : Builder Meta).hugr.cap = 4 + (P.upTo pre).lines.length from rfl,
        show ((P.upTo pre).builder L : Builder Meta).hugr = (P.upTo pre).hugr L from rfl,
        show ((P.upTo pre).builder L : Builder Meta).node = 1 from rfl, addNode_hugr (ws := ws) hg.tags hpl] at he
      simp only at he
      cases hq : wireUpInputs (4 + (P.upTo pre).lines.length) 0 ws
          (((P.upTo pre).add (.node op ws)).hugr L : Hugr Ops.Op Meta) with
      | ok g => rw [hq] at he; cases he
      | panic => rw [hq] at he; cases he
      | error e' =>
        rw [hq] at he
        simp only [Built.bind, Built.error.injEq] at he
        subst he
        obtain ⟨h1, w, hm, t, h2, h3, h4⟩ := wireUpInputs_fails (add_node_tags hg.tags hpl) new_node ws 0 L
          (fun w hm => add_node_wire (hw w hm)) e' hq
        rw [add_node_kind (hw w hm), ← hk w hm] at h2
        refine ⟨h1, w, t, h2, h3, ?_⟩
        have := hu w
        have h5 : 1 ≤ ws.count w := List.one_le_count_iff.2 hm
        rcases h4 with h4 | h4
        · have := hlink w hm h4
          omega
        · omega
  | input t =>
    obtain ⟨L', e1, -⟩ := addInput_hugr (Meta := Meta) (t := t) hg hL
    simp only [Builder.call, e1, Added.unwrap]
    exact ⟨fun _ => ⟨_, rfl⟩, fun e he => nomatch he⟩
  | output t =>
    obtain ⟨L', e1, -⟩ := addOutput_hugr (Meta := Meta) (t := t) hg rfl hL
    simp only [Builder.call, e1, Added.unwrap]
    exact ⟨fun _ => ⟨_, rfl⟩, fun e he => nomatch he⟩
  | order x y =>
    obtain ⟨hx, hy⟩ := hs.orders pre x y post hp
    constructor
    · intro hwire
      obtain ⟨ox, oy⟩ := hwire.orders x y (order_mem_orders (by rw [hp]; simp))
      rw [← all_op, hp] at ox oy
      exact setOrder_of hg hx hy (((upTo_node _ hx).2 _).1 ox) (((upTo_node _ hy).2 _).1 oy)
    · intro e he
      exfalso
      simp only [Builder.call, Builder.setOrder, addOtherEdge] at he
      split at he
      · unfold ofOption at he
        split at he <;> cases he
      · cases he

theorem build_fails {P : Prog} (hs : P.Scoped) : (P.Wireable → ∃ b : Builder Meta, build P = .ok b) ∧
    ∀ e, (build P : Built (Builder Meta)) = .error e → e = .noCopyLinear ∧
      ∃ w t, P.kind w = some (.value t) ∧ t.copyable = false ∧ 2 ≤ P.uses w := by
  have hb : (build P : Built (Builder Meta)) =
      (((P.upTo []).builder [] : Builder Meta).calls P.calls).bind fun b => b.setOutputs P.outs := by
    unfold build
    rw [newFunction_eq]
    rfl
  rw [hb]
  rcases calls_cases ((P.upTo []).builder [] : Builder Meta) P.calls with ⟨b, h⟩ | ⟨pre, c, post, b, hp, h1, h2, h3⟩
  · rw [h]
    obtain ⟨L, rfl, hL, hg, hlin⟩ := calls_ok hs P.calls [] (by simp) b h
    simp only [Built.bind]
    unfold Builder.setOutputs
    rw [io_hugr]
    simp only
    rw [show ((P.upTo P.calls).builder L : Builder Meta).hugr = (P.upTo P.calls).hugr L from rfl, all_hugr]
    have ht : P.TagsOk := hs.tags
    have hlink : ∀ w ∈ P.outs, (∃ l ∈ L, l.src = w.1 ∧ l.srcPort = w.2) → 1 ≤ (P.upTo P.calls).uses w := by
      rintro w hm ⟨l, hl, he⟩
      unfold Prog.uses
      exact List.one_le_count_iff.2 ((link_of_use hg (all_wire.2 (hs.outs w hm))).1 ⟨l, hL.subset hl, he⟩)
    constructor
    · intro hwire
      rw [wireUpInputs_of ht (output_node P) P.outs 0 L hs.outs]
      · exact ⟨_, rfl⟩
      · have := hwire.outs
        simp [Prog.op, Op.ports]
        exact this
      · intro w hm t hk hc
        have h1 := hwire.linear w t hk hc
        have h2 := uses_outs P w
        have h3 : 1 ≤ P.outs.count w := List.one_le_count_iff.2 hm
        refine ⟨fun l hl he => ?_, by omega⟩
        have := hlink w hm ⟨l, hl, he⟩
        omega
    · intro e he
      cases hq : wireUpInputs 3 0 P.outs (P.hugr L : Hugr Ops.Op Meta) with
      | ok g => rw [hq] at he; cases he
      | panic => rw [hq] at he; cases he
      | error e' =>
        rw [hq] at he
        simp only [Built.bind, Built.error.injEq] at he
        subst he
        obtain ⟨h1, w, hm, t, h2, h3, h4⟩ := wireUpInputs_fails ht (output_node P) P.outs 0 L hs.outs e' hq
        refine ⟨h1, w, t, h2, h3, ?_⟩
        have := uses_outs P w
        have h5 : 1 ≤ P.outs.count w := List.one_le_count_iff.2 hm
        rcases h4 with h4 | h4
        · have := hlink w hm h4
          omega
        · omega
  · obtain ⟨h4, h5⟩ := call_fails hs hp h1
    constructor
    · intro hw
      obtain ⟨b', hb'⟩ := h4 hw
      exact absurd hb' (h2 b')
    · intro e he
      refine h5 e (h3 e ?_)
      cases hq : ((P.upTo []).builder [] : Builder Meta).calls P.calls with
      | ok b' =>
        rw [hp, calls_append, h1] at hq
        simp only [Built.bind, Builder.calls] at hq
        obtain ⟨b'', hb'', -⟩ := Built.bind_ok hq
        exact absurd hb'' (h2 b'')
      | error e' => rw [hq] at he; exact he
      | panic => rw [hq] at he; cases he

theorem build_wireable {P : Prog} (hs : P.Scoped) {b : Builder Meta} (h : build P = .ok b) : P.Wireable := by
  obtain ⟨L, -, -, hg, hlin⟩ := build_ok hs h
  refine ⟨hlin, hg.fits, ?_, hg.outsFit⟩
  intro x y hm
  obtain ⟨-, -, h1, h2⟩ := hg.orders _ hm
  exact ⟨List.mem_of_getLast? h1, List.mem_of_getLast? h2⟩

end Verif.Builder
