import Verif.Builder.Spec

/-!
# What building gives

The Hugr after some calls, written out.
-/
namespace Verif.Builder

open Verif.Graph Verif.Ops Verif.Validate Verif.Dataflow

variable {Meta : Type}

theorem Built.bind_ok {α β : Type} {r : Built α} {f : α → Built β} {b : β} (h : r.bind f = .ok b) :
    ∃ a, r = .ok a ∧ f a = .ok b := by
  cases r with
  | ok a => exact ⟨a, rfl, h⟩
  | error e => cases h
  | panic => cases h

/-- The links of wires to the ports of a node, from a port on. -/
def wireLinks (dst : Nat) : Nat → List Wire → List Link
  | _, [] => []
  | port, w :: ws => ⟨w.1, w.2, dst, port⟩ :: wireLinks dst (port + 1) ws

/-- The links into the nodes of lines. -/
def lineLinks : Nat → List (Ops.Op × List Wire) → List Link
  | _, [] => []
  | n, (_, ws) :: rest => wireLinks n 0 ws ++ lineLinks (n + 1) rest

/-- The port for order. -/
def orderPort (op : Ops.Op) (dir : Ops.Dir) : Nat := (op.ports dir).length - 1

/-- The link for an order. -/
def orderLink (P : Prog) (x : Nat × Nat) : Link :=
  ⟨x.1, orderPort (P.op x.1) .outgoing, x.2, orderPort (P.op x.2) .incoming⟩

/-- The links of a program. -/
def Prog.links (P : Prog) : List Link := lineLinks 4 P.lines ++ wireLinks 3 0 P.outs ++ P.orders.map (orderLink P)

/-- The Hugr of a program, but for the links. -/
def Prog.hugr (P : Prog) (L : List Link) : Hugr Ops.Op Meta where
  cap := 4 + P.lines.length
  live := fun n => decide (n < 4 + P.lines.length)
  ins := fun n => ((P.op n).ports .incoming).length
  outs := fun n => ((P.op n).ports .outgoing).length
  links := L
  hier :=
    { parent := fun n => if n = 0 then none else if n = 1 then some 0 else if n < 4 + P.lines.length then some 1 else none
      children := fun n => if n = 0 then [1] else if n = 1 then List.range' 2 (2 + P.lines.length) else [] }
  moduleRoot := 0
  entrypoint := 1
  ops := P.op
  metadata := fun _ => none

/-- The builder after the calls of a program. -/
def Prog.builder (P : Prog) (L : List Link) : Builder Meta := ⟨P.hugr L, 1, P.inputs.length⟩

/-! ## Operations -/

theorem plain_tagOk {op : Ops.Op} (h : Plain op) : op.tagOk = true := by
  cases op <;> simp_all [Plain, Op.tagOk]

/-- All operations of the program have ports. -/
def Prog.TagsOk (P : Prog) : Prop := ∀ op ws, (op, ws) ∈ P.lines → Plain op

theorem Prog.Scoped.tags {P : Prog} (h : P.Scoped) : P.TagsOk := by
  intro op ws hm
  simp only [Prog.lines, List.mem_filterMap] at hm
  obtain ⟨c, hc, he⟩ := hm
  cases c <;> simp at he
  obtain ⟨rfl, rfl⟩ := he
  exact h.plain _ _ hc

theorem op_tagOk {P : Prog} (h : P.TagsOk) (n : Nat) : (P.op n).tagOk = true := by
  match n with
  | 0 | 1 | 2 | 3 => rfl
  | k + 4 =>
    simp only [Prog.op]
    cases hl : P.lines[k]? with
    | none => rfl
    | some x => exact plain_tagOk (h x.1 x.2 (List.mem_of_getElem? hl))

theorem inputs_eq {op : Ops.Op} (h : op.tagOk = true) : opsInfo.inputs op = (op.ports .incoming).length := by
  show runGet 0 (op.portCount .incoming) = _
  rw [C10_port_count op .incoming h]; rfl

theorem outputs_eq {op : Ops.Op} (h : op.tagOk = true) : opsInfo.outputs op = (op.ports .outgoing).length := by
  show runGet 0 (op.portCount .outgoing) = _
  rw [C10_port_count op .outgoing h]; rfl

theorem op_line {P : Prog} {k : Nat} {op : Ops.Op} {ws : List Wire} (h : P.lines[k]? = some (op, ws)) :
    P.op (4 + k) = op := by
  rw [Nat.add_comm]; simp [Prog.op, h]

theorem op_ge {P : Prog} {n : Nat} (h : 4 + P.lines.length ≤ n) : P.op n = .module := by
  obtain ⟨k, rfl⟩ : ∃ k, n = k + 4 := ⟨n - 4, by omega⟩
  have : P.lines[k]? = none := List.getElem?_eq_none (by omega)
  simp [Prog.op, this]

/-- Plain operations have at most one port for order, the last one. -/
theorem plain_order {op : Ops.Op} (h : Plain op ∨ (∃ ts, op = .input ts) ∨ ∃ ts, op = .output ts) (dir : Ops.Dir)
    (i : Nat) (k : Kind) (hk : (op.ports dir)[i]? = some k) : k.isOther = true ↔ i = orderPort op dir ∧
      (op.ports dir).getLast? = some .stateOrder := by
  have aux : ∀ ts : List Types.Ty, ∀ i k, (ts.map Kind.value ++ [Kind.stateOrder])[i]? = some k →
      (k.isOther = true ↔ i = (ts.map Kind.value ++ [Kind.stateOrder]).length - 1) := by
    intro ts i k h
    simp only [List.length_append, List.length_map, List.length_singleton, Nat.add_sub_cancel]
    rw [List.getElem?_append] at h
    split at h
    · rename_i hlt
      simp only [List.getElem?_map, Option.map_eq_some_iff] at h
      obtain ⟨t, _, rfl⟩ := h
      simp only [List.length_map] at hlt
      simp [Kind.isOther]; omega
    · rename_i hge
      simp only [List.length_map] at hge h
      rw [List.getElem?_singleton] at h
      split at h
      · cases h; simp [Kind.isOther]; omega
      · cases h
  rcases h with h | ⟨ts, rfl⟩ | ⟨ts, rfl⟩
  · cases op with
    | extensionOp a b c s =>
      cases dir <;> simp only [Op.ports, orderPort] at hk ⊢ <;> rw [aux _ _ _ hk] <;> simp
    | tag j vs =>
      cases dir <;> simp only [Op.ports, orderPort] at hk ⊢
      · rw [aux _ _ _ hk]; simp
      · match i with
        | 0 => simp at hk; subst hk; simp [Kind.isOther]
        | 1 => simp at hk; subst hk; simp [Kind.isOther]
        | _ + 2 => simp at hk
    | loadConstant t =>
      cases dir <;> simp only [Op.ports, orderPort] at hk ⊢ <;>
      · match i with
        | 0 => simp at hk; subst hk; simp [Kind.isOther]
        | 1 => simp at hk; subst hk; simp [Kind.isOther]
        | _ + 2 => simp at hk
    | const t =>
      cases dir <;> simp only [Op.ports, orderPort] at hk ⊢
      · simp at hk
      · match i with
        | 0 => simp at hk; subst hk; simp [Kind.isOther]
        | _ + 1 => simp at hk
    | _ => exact h.elim
  · cases dir <;> simp only [Op.ports, orderPort] at hk ⊢
    · simp at hk
    · rw [aux _ _ _ hk]; simp
  · cases dir <;> simp only [Op.ports, orderPort] at hk ⊢
    · rw [aux _ _ _ hk]; simp
    · simp at hk

theorem supers_leaf : OpTag.staticInput.isSuperset .leaf = false := by decide
theorem supers_load : OpTag.staticInput.isSuperset .loadConst = true := by decide
theorem supers_output : OpTag.staticInput.isSuperset .output = false := by decide

/-- `other_port` of these operations. -/
theorem plain_other {op : Ops.Op} (h : Plain op ∨ (∃ ts, op = .input ts) ∨ ∃ ts, op = .output ts) (dir : Ops.Dir) :
    (op.ports dir).getLast? = some .stateOrder ∧ op.otherPort dir = .ok (some (orderPort op dir)) ∨
      (op.ports dir).getLast? ≠ some .stateOrder ∧ (∀ p, op.otherPort dir ≠ .ok (some p)) ∧
        .stateOrder ∉ op.ports dir := by
  rcases h with h | ⟨ts, rfl⟩ | ⟨ts, rfl⟩
  · cases op with
    | extensionOp a b c s =>
      cases dir <;> left <;> simp [Op.ports, orderPort, Op.otherPort, Op.valuePortCount, Op.dataflowSignature, Run.map,
        Op.staticPortKind, Op.staticInput, Op.staticOutput, Op.otherPortKind, Op.otherInput, Op.otherOutput,
        Op.nonDfPortCount, sigRow, Op.opTag, supers_leaf, supers_load, supers_output]
    | tag j vs =>
      have hv : vs[j]? = some vs[j] := List.getElem?_eq_getElem h
      cases dir <;> left <;> simp [Op.ports, orderPort, Op.otherPort, Op.valuePortCount, Op.dataflowSignature, Run.map,
        Op.staticPortKind, Op.staticInput, Op.staticOutput, Op.otherPortKind, Op.otherInput, Op.otherOutput,
        Op.nonDfPortCount, sigRow, hv, Op.opTag, supers_leaf]
    | loadConstant t =>
      cases dir <;> left <;> simp [Op.ports, orderPort, Op.otherPort, Op.valuePortCount, Op.dataflowSignature, Run.map,
        Op.staticPortKind, Op.staticInput, Op.staticOutput, Op.otherPortKind, Op.otherInput, Op.otherOutput,
        Op.nonDfPortCount, sigRow, Op.opTag, supers_leaf, supers_load, supers_output]
    | const t =>
      cases dir <;> right <;> simp [Op.ports, Op.otherPort, Op.valuePortCount, Op.dataflowSignature, Run.map,
        Op.staticPortKind, Op.staticInput, Op.staticOutput, Op.otherPortKind, Op.otherInput, Op.otherOutput,
        Op.nonDfPortCount]
    | _ => exact h.elim
  · cases dir
    · right; simp [Op.ports, Op.otherPort, Op.valuePortCount, Op.dataflowSignature, Run.map,
        Op.staticPortKind, Op.staticInput, Op.staticOutput, Op.otherPortKind, Op.otherInput, Op.otherOutput,
        Op.nonDfPortCount]
    · left; simp [Op.ports, orderPort, Op.otherPort, Op.valuePortCount, Op.dataflowSignature, Run.map,
        Op.staticPortKind, Op.staticInput, Op.staticOutput, Op.otherPortKind, Op.otherInput, Op.otherOutput,
        Op.nonDfPortCount, sigRow, Op.opTag, supers_leaf, supers_load, supers_output]
  · cases dir
    · left; simp [Op.ports, orderPort, Op.otherPort, Op.valuePortCount, Op.dataflowSignature, Run.map,
        Op.staticPortKind, Op.staticInput, Op.staticOutput, Op.otherPortKind, Op.otherInput, Op.otherOutput,
        Op.nonDfPortCount, sigRow, Op.opTag, supers_leaf, supers_load, supers_output]
    · right; simp [Op.ports, Op.otherPort, Op.valuePortCount, Op.dataflowSignature, Run.map,
        Op.staticPortKind, Op.staticInput, Op.staticOutput, Op.otherPortKind, Op.otherInput, Op.otherOutput,
        Op.nonDfPortCount]

theorem node_plain {P : Prog} (ht : P.TagsOk) {n : Nat} (h : P.HasNode n) :
    Plain (P.op n) ∨ (∃ ts, P.op n = .input ts) ∨ ∃ ts, P.op n = .output ts := by
  match n, h with
  | 2, _ => exact .inr (.inl ⟨_, rfl⟩)
  | 3, _ => exact .inr (.inr ⟨_, rfl⟩)
  | k + 4, h =>
    have hk : k < P.lines.length := by have := h.2; omega
    left
    have := List.getElem?_eq_getElem hk
    rw [Nat.add_comm, op_line (op := P.lines[k].1) (ws := P.lines[k].2) this]
    exact ht _ P.lines[k].2 (List.getElem_mem hk)
  | 0, h | 1, h => exact absurd h.1 (by omega)

theorem wire_node {P : Prog} {w : Wire} (h : P.HasWire w) : P.HasNode w.1 ∧ w.1 ≠ 3 := by
  obtain ⟨h1, k, hk, -⟩ := h
  unfold Prog.kind at hk
  rcases w with ⟨n, p⟩
  simp only at h1 hk ⊢
  match n, h1 with
  | 0, _ => simp [Prog.op, Op.ports] at hk
  | 2, _ => exact ⟨⟨by omega, by omega⟩, by omega⟩
  | 3, _ => simp [Prog.op, Op.ports] at hk
  | n + 4, _ =>
    refine ⟨⟨by omega, ?_⟩, by omega⟩
    by_contra hge
    rw [op_ge (by omega)] at hk
    simp [Op.ports] at hk

/-! ## One wire -/

theorem parent_node {P : Prog} {L : List Link} {n : Nat} (h : P.HasNode n) :
    (P.hugr L : Hugr Ops.Op Meta).getParent n = some 1 := by
  obtain ⟨h1, h2⟩ := h
  have a : n ≠ 0 := by omega
  have b : n ≠ 1 := by omega
  simp [Hugr.getParent, Prog.hugr, h2, a, b]

theorem connect_hugr (P : Prog) (L : List Link) (l : Link) : (P.hugr L : Hugr Ops.Op Meta).connect l =
    if l.src < 4 + P.lines.length ∧ l.srcPort < ((P.op l.src).ports .outgoing).length ∧
      l.dst < 4 + P.lines.length ∧ l.dstPort < ((P.op l.dst).ports .incoming).length then some (P.hugr (L ++ [l]))
    else none := by
  unfold Hugr.connect
  by_cases h : l.src < 4 + P.lines.length ∧ l.srcPort < ((P.op l.src).ports .outgoing).length ∧
      l.dst < 4 + P.lines.length ∧ l.dstPort < ((P.op l.dst).ports .incoming).length
  · rw [if_pos h, if_pos (by simp [Prog.hugr, h.1, h.2.1, h.2.2.1, h.2.2.2])]
    rfl
  · rw [if_neg h, if_neg]
    intro hc
    simp only [Prog.hugr, Bool.and_eq_true, and_assoc] at hc
    exact h ⟨of_decide_eq_true hc.1, of_decide_eq_true hc.2.1, of_decide_eq_true hc.2.2.1, of_decide_eq_true hc.2.2.2⟩

theorem finishWire_hugr {P : Prog} (ht : P.TagsOk) (L : List Link) (l : Link) :
    finishWire (P.hugr L : Hugr Ops.Op Meta) l =
    if l.src < 4 + P.lines.length ∧ l.srcPort < ((P.op l.src).ports .outgoing).length ∧
      l.dst < 4 + P.lines.length ∧ l.dstPort < ((P.op l.dst).ports .incoming).length then .ok (P.hugr (L ++ [l]))
    else .panic := by
  unfold finishWire
  rw [connect_hugr]
  by_cases h : l.src < 4 + P.lines.length ∧ l.srcPort < ((P.op l.src).ports .outgoing).length ∧
      l.dst < 4 + P.lines.length ∧ l.dstPort < ((P.op l.dst).ports .incoming).length
  · rw [if_pos h, if_pos h]
    simp only [Prog.hugr]
    rw [C10_port_kind _ _ (op_tagOk ht _) _ h.2.2.2, List.getElem?_eq_getElem h.2.2.2]
  · rw [if_neg h, if_neg h]

open Classical in
/-- Wiring a result of the program to one of its nodes. -/
theorem wireUp_hugr {P : Prog} (ht : P.TagsOk) (L : List Link) {w : Wire} (hw : P.HasWire w) {dst : Nat}
    (hd : P.HasNode dst) (port : Nat) : wireUp (P.hugr L : Hugr Ops.Op Meta) ⟨w.1, w.2, dst, port⟩ =
    if (∃ t, P.kind w = some (.value t) ∧ t.copyable = false) ∧ ∃ l ∈ L, l.src = w.1 ∧ l.srcPort = w.2 then
      .error .noCopyLinear
    else if port < ((P.op dst).ports .incoming).length then .ok (P.hugr (L ++ [⟨w.1, w.2, dst, port⟩]))
    else .panic := by
  obtain ⟨hn, -⟩ := wire_node hw
  obtain ⟨h1, k, hk, ho⟩ := hw
  have hlt : w.2 < ((P.op w.1).ports .outgoing).length := (List.getElem?_eq_some_iff.1 hk).1
  have hfin : finishWire (P.hugr L : Hugr Ops.Op Meta) ⟨w.1, w.2, dst, port⟩ =
      if port < ((P.op dst).ports .incoming).length then .ok (P.hugr (L ++ [⟨w.1, w.2, dst, port⟩])) else .panic := by
    rw [finishWire_hugr ht]
    simp only [hn.2, hlt, hd.2, true_and]
  have hpk : ((P.hugr L : Hugr Ops.Op Meta).ops w.1).portKind .outgoing w.2 = .ok (some k) := by
    show (P.op w.1).portKind .outgoing w.2 = _
    rw [C10_port_kind _ _ (op_tagOk ht _) _ hlt]
    exact congrArg _ hk
  unfold wireUp
  simp only [hpk]
  cases k with
  | value t =>
    simp only [parent_node hn, parent_node hd, ne_eq, not_true_eq_false, if_false]
    have hlink : ((P.hugr L : Hugr Ops.Op Meta).linkedInputs w.1 w.2).isEmpty = false ↔
        ∃ l ∈ L, l.src = w.1 ∧ l.srcPort = w.2 := by
      simp [Hugr.linkedInputs, Prog.hugr]
    by_cases hc : t.copyable = true
    · rw [if_neg (by simp [hc]), if_neg, hfin]
      rintro ⟨⟨t', he, hf⟩, -⟩
      rw [hk] at he
      cases he
      rw [hc] at hf
      cases hf
    · have hc' : t.copyable = false := by simpa using hc
      by_cases hl : ∃ l ∈ L, l.src = w.1 ∧ l.srcPort = w.2
      · rw [if_pos (by simp [hc', hlink.2 hl]), if_pos ⟨⟨t, hk, hc'⟩, hl⟩]
      · rw [if_neg, if_neg (fun h => hl h.2), hfin]
        simp only [hc', Bool.not_false, Bool.true_and, Bool.not_eq_true', ← Bool.not_eq_true]
        intro h
        exact hl (hlink.1 (by simpa using h))
  | _ =>
    simp only []
    rw [if_neg, hfin]
    rintro ⟨⟨t, he, -⟩, -⟩
    rw [hk] at he
    cases he

/-- The wires of a line that is wired up. -/
theorem wireUpInputs_ok {P : Prog} (ht : P.TagsOk) {dst : Nat} (hd : P.HasNode dst) :
    ∀ (ws : List Wire) (port : Nat) (L : List Link) (g : Hugr Ops.Op Meta), (∀ w ∈ ws, P.HasWire w) →
      wireUpInputs dst port ws (P.hugr L) = .ok g →
      g = P.hugr (L ++ wireLinks dst port ws) ∧ (ws ≠ [] → port + ws.length ≤ ((P.op dst).ports .incoming).length)
  | [], port, L, g, _, h => by
    simp only [wireUpInputs, Built.ok.injEq] at h
    subst h
    simp [wireLinks]
  | w :: ws, port, L, g, hw, h => by
    simp only [wireUpInputs] at h
    obtain ⟨g', h1, h2⟩ := Built.bind_ok h
    rw [wireUp_hugr ht L (hw w (by simp)) hd] at h1
    split at h1
    · cases h1
    split at h1
    · rename_i hp
      simp only [Built.ok.injEq] at h1
      subst h1
      obtain ⟨e, h3⟩ := wireUpInputs_ok ht hd ws (port + 1) _ g (fun x hx => hw x (by simp [hx])) h2
      refine ⟨by rw [e]; simp [wireLinks], fun _ => ?_⟩
      cases ws with
      | nil => simp; omega
      | cons y ys => have := h3 (by simp); simp at this ⊢; omega
    · cases h1

/-- Wires that are not copied against their type can be wired up. -/
theorem wireUpInputs_of {P : Prog} (ht : P.TagsOk) {dst : Nat} (hd : P.HasNode dst) :
    ∀ (ws : List Wire) (port : Nat) (L : List Link), (∀ w ∈ ws, P.HasWire w) →
      port + ws.length ≤ ((P.op dst).ports .incoming).length →
      (∀ w ∈ ws, ∀ t, P.kind w = some (.value t) → t.copyable = false →
        (∀ l ∈ L, ¬ (l.src = w.1 ∧ l.srcPort = w.2)) ∧ ws.count w ≤ 1) →
      wireUpInputs dst port ws (P.hugr L : Hugr Ops.Op Meta) = .ok (P.hugr (L ++ wireLinks dst port ws))
  | [], port, L, _, _, _ => by simp [wireUpInputs, wireLinks]
  | w :: ws, port, L, hw, hp, hlin => by
    simp only [List.length_cons] at hp
    simp only [wireUpInputs]
    rw [wireUp_hugr ht L (hw w (by simp)) hd, if_neg, if_pos (by omega)]
    · simp only [Built.bind]
      rw [wireUpInputs_of ht hd ws (port + 1) _ (fun x hx => hw x (by simp [hx])) (by omega)]
      · simp [wireLinks]
      · intro x hx t hk hc
        obtain ⟨h1, h2⟩ := hlin x (by simp [hx]) t hk hc
        have hxw : x ≠ w := by
          rintro rfl
          have : 1 ≤ ws.count x := List.one_le_count_iff.2 hx
          rw [List.count_cons_self] at h2
          omega
        refine ⟨?_, ?_⟩
        · intro l hl
          rcases List.mem_append.1 hl with hl | hl
          · exact h1 l hl
          · simp only [List.mem_singleton] at hl
            subst hl
            rintro ⟨e1, e2⟩
            exact hxw (Prod.ext e1.symm e2.symm)
        · rw [List.count_cons_of_ne (fun e => hxw e.symm)] at h2
          exact h2
    · rintro ⟨⟨t, hk, hc⟩, l, hl, e⟩
      exact (hlin w (by simp) t hk hc).1 l hl e

end Verif.Builder
