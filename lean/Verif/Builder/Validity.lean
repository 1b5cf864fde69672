import Verif.Builder.Fails
import Verif.Validate.Props

/-!
# Validity of what is built
-/
namespace Verif.Builder

open Verif.Graph Verif.Ops Verif.Validate Verif.Dataflow

variable {Meta : Type}

section

variable {P : Prog} {L : List Link}

theorem hugr_parent {n p : Nat} : (P.hugr L : Hugr Ops.Op Meta).hier.parent n = some p ↔
    (n = 1 ∧ p = 0) ∨ (P.HasNode n ∧ p = 1) := by
  simp only [Prog.hugr, Prog.HasNode]
  by_cases h0 : n = 0
  · subst h0; simp
  by_cases h1 : n = 1
  · subst h1; simp [eq_comm]
  by_cases h : n < 4 + P.lines.length
  · simp [h0, h1, h, eq_comm]; omega
  · simp [h0, h1, h]

theorem hugr_live {n : Nat} : (P.hugr L : Hugr Ops.Op Meta).live n = true ↔ n = 0 ∨ n = 1 ∨ P.HasNode n := by
  simp only [Prog.hugr, decide_eq_true_eq, Prog.HasNode]
  omega

theorem hugr_child {p n : Nat} : n ∈ (P.hugr L : Hugr Ops.Op Meta).hier.children p ↔
    (n = 1 ∧ p = 0) ∨ (P.HasNode n ∧ p = 1) := by
  simp only [Prog.hugr, Prog.HasNode]
  by_cases h0 : p = 0
  · subst h0; simp
  by_cases h1 : p = 1
  · subst h1
    rw [if_neg (by decide), if_pos rfl, List.mem_range'_1]
    constructor
    · rintro ⟨h2, h3⟩; exact .inr ⟨⟨h2, by omega⟩, rfl⟩
    · rintro (⟨-, h⟩ | ⟨⟨h2, h3⟩, -⟩)
      · cases h
      · exact ⟨h2, by omega⟩
  · simp [h0, h1]

theorem hugr_tree : IsTree (P.hugr L : Hugr Ops.Op Meta) where
  root_live := hugr_live.2 (.inl rfl)
  entry_live := hugr_live.2 (.inr (.inl rfl))
  root_top := rfl
  has_parent := by
    intro n h hn
    rcases hugr_live.1 h with rfl | rfl | h
    · exact absurd rfl hn
    · exact ⟨0, hugr_parent.2 (.inl ⟨rfl, rfl⟩)⟩
    · exact ⟨1, hugr_parent.2 (.inr ⟨h, rfl⟩)⟩
  parent_live := by
    intro n p h
    rcases hugr_parent.1 h with ⟨rfl, rfl⟩ | ⟨h', rfl⟩
    · exact ⟨hugr_live.2 (.inr (.inl rfl)), hugr_live.2 (.inl rfl)⟩
    · exact ⟨hugr_live.2 (.inr (.inr h')), hugr_live.2 (.inr (.inl rfl))⟩
  child_iff := by
    intro p n
    rw [hugr_child, hugr_parent]
  child_once := by
    intro p
    simp only [Prog.hugr]
    by_cases h0 : p = 0
    · subst h0; simp
    by_cases h1 : p = 1
    · subst h1; simpa using List.nodup_range'
    · simp [h0, h1]
  reaches_root := by
    intro n h
    have a1 : Above (P.hugr L : Hugr Ops.Op Meta).hier.parent 1 0 := .step (hugr_parent.2 (.inl ⟨rfl, rfl⟩)) (.refl _)
    rcases hugr_live.1 h with rfl | rfl | h
    · exact .refl _
    · exact a1
    · exact .step (hugr_parent.2 (.inr ⟨h, rfl⟩)) a1
  in_range := by
    intro n h
    simpa [Prog.hugr] using h

theorem hugr_linksOk (hg : P.Good) (hL : L.Perm P.links) : LinksOk (P.hugr L : Hugr Ops.Op Meta) := by
  intro l hl
  obtain ⟨h1, h2, h3, h4⟩ := links_range hg (hL.subset hl)
  exact ⟨hugr_live.2 (.inr (.inr h1)), h3, hugr_live.2 (.inr (.inr h2)), h4⟩

end

/-! ## Ports and arguments -/

theorem ports_arguments {op : Ops.Op} (h : Plain op ∨ (∃ ts, op = .input ts) ∨ ∃ ts, op = .output ts) :
    ∃ tail, op.ports .incoming = arguments op ++ tail ∧ (tail = [] ∨ tail = [.stateOrder]) := by
  have aux : ∀ ts : List Types.Ty, (ts.map Kind.value ++ [Kind.stateOrder]).filter (fun k => !k.isOther) =
      ts.map Kind.value := by
    intro ts
    rw [List.filter_append, List.filter_eq_self.2]
    · simp [Kind.isOther]
    · intro k hk
      obtain ⟨t, -, rfl⟩ := List.mem_map.1 hk
      rfl
  rcases h with h | ⟨ts, rfl⟩ | ⟨ts, rfl⟩
  · cases op with
    | extensionOp a b c s => exact ⟨[.stateOrder], by simp only [arguments, Op.ports]; rw [aux], .inr rfl⟩
    | tag j vs => exact ⟨[.stateOrder], by simp only [arguments, Op.ports]; rw [aux], .inr rfl⟩
    | loadConstant t => exact ⟨[.stateOrder], by simp [arguments, Op.ports, Kind.isOther], .inr rfl⟩
    | const t => exact ⟨[], by simp [arguments, Op.ports], .inl rfl⟩
    | _ => exact h.elim
  · exact ⟨[], by simp [arguments, Op.ports], .inl rfl⟩
  · exact ⟨[.stateOrder], by simp only [arguments, Op.ports]; rw [aux], .inr rfl⟩

theorem arguments_output (ts : List Types.Ty) : arguments (.output ts) = ts.map .value := by
  simp only [arguments, Op.ports]
  rw [List.filter_append, List.filter_eq_self.2]
  · simp [Kind.isOther]
  · intro k hk
    obtain ⟨t, -, rfl⟩ := List.mem_map.1 hk
    rfl

theorem arguments_other {op : Ops.Op} {i : Nat} {k : Kind} (h : (arguments op)[i]? = some k) : k.isOther = false := by
  have := List.mem_of_getElem? h
  simpa [arguments] using (List.mem_filter.1 this).2

/-- The arguments of the nodes. -/
def Prog.args (P : Prog) : Nat → List Wire
  | 3 => P.outs
  | k + 4 => (P.lines[k]?.map Prod.snd).getD []
  | _ => []

theorem mem_wireLinks_iff {dst : Nat} {l : Link} : ∀ {ws : List Wire} {port : Nat}, l ∈ wireLinks dst port ws ↔
    l.dst = dst ∧ ∃ i, l.dstPort = port + i ∧ ws[i]? = some (l.src, l.srcPort)
  | [], port => by simp [wireLinks]
  | w :: ws, port => by
    simp only [wireLinks, List.mem_cons, mem_wireLinks_iff (ws := ws)]
    constructor
    · rintro (rfl | ⟨h1, i, h2, h3⟩)
      · exact ⟨rfl, 0, rfl, rfl⟩
      · exact ⟨h1, i + 1, by omega, by simpa using h3⟩
    · rintro ⟨h1, i, h2, h3⟩
      cases i with
      | zero =>
        left
        simp only [List.getElem?_cons_zero, Option.some.injEq] at h3
        rcases l with ⟨a, b, c, d⟩
        simp only at h1 h2 h3
        subst h1 h3
        simp only [Link.mk.injEq, true_and]
        omega
      | succ i => exact .inr ⟨h1, i, by omega, by simpa using h3⟩

theorem mem_lineLinks_iff {l : Link} : ∀ {ls : List (Ops.Op × List Wire)} {n : Nat}, l ∈ lineLinks n ls ↔
    ∃ k op ws, ls[k]? = some (op, ws) ∧ l.dst = n + k ∧ ws[l.dstPort]? = some (l.src, l.srcPort)
  | [], n => by simp [lineLinks]
  | (op, ws) :: rest, n => by
    simp only [lineLinks, List.mem_append, mem_wireLinks_iff, mem_lineLinks_iff (ls := rest)]
    constructor
    · rintro (⟨h1, i, h2, h3⟩ | ⟨k, op', ws', h1, h2, h3⟩)
      · obtain rfl : l.dstPort = i := by omega
        exact ⟨0, op, ws, rfl, h1, h3⟩
      · exact ⟨k + 1, op', ws', by simpa using h1, by omega, h3⟩
    · rintro ⟨k, op', ws', h1, h2, h3⟩
      cases k with
      | zero =>
        simp only [List.getElem?_cons_zero, Option.some.injEq, Prod.mk.injEq] at h1
        obtain ⟨rfl, rfl⟩ := h1
        exact .inl ⟨h2, l.dstPort, by omega, h3⟩
      | succ k => exact .inr ⟨k, op', ws', by simpa using h1, by omega, h3⟩

/-- The links of wires. -/
theorem mem_wires {P : Prog} {l : Link} : l ∈ lineLinks 4 P.lines ++ wireLinks 3 0 P.outs ↔
    (P.args l.dst)[l.dstPort]? = some (l.src, l.srcPort) := by
  rw [List.mem_append, mem_lineLinks_iff, mem_wireLinks_iff]
  constructor
  · rintro (⟨k, op, ws, h1, h2, h3⟩ | ⟨h1, i, h2, h3⟩)
    · rw [h2, Nat.add_comm]
      simp only [Prog.args, h1]
      exact h3
    · obtain rfl : l.dstPort = i := by omega
      rw [h1]
      exact h3
  · intro h
    generalize hd : l.dst = d at h
    match d with
    | 0 | 1 | 2 => simp [Prog.args] at h
    | 3 => exact .inr ⟨rfl, l.dstPort, by omega, h⟩
    | k + 4 =>
      left
      simp only [Prog.args] at h
      cases hl : P.lines[k]? with
      | none => simp [hl] at h
      | some x => exact ⟨k, x.1, x.2, hl, by omega, by simpa [hl] using h⟩

theorem mem_links_iff {P : Prog} {l : Link} : l ∈ P.links ↔
    (P.args l.dst)[l.dstPort]? = some (l.src, l.srcPort) ∨ ∃ x ∈ P.orders, l = orderLink P x := by
  unfold Prog.links
  rw [List.mem_append, mem_wires, List.mem_map]
  constructor
  · rintro (h | ⟨x, hx, rfl⟩)
    · exact .inl h
    · exact .inr ⟨x, hx, rfl⟩
  · rintro (h | ⟨x, hx, rfl⟩)
    · exact .inl h
    · exact .inr ⟨x, hx, rfl⟩

theorem args_wire {P : Prog} (hg : P.Good) {n i : Nat} {w : Wire} (h : (P.args n)[i]? = some w) :
    P.HasWire w ∧ P.HasNode n ∧ i < ((P.op n).ports .incoming).length := by
  match n with
  | 0 | 1 | 2 => simp [Prog.args] at h
  | 3 =>
    refine ⟨hg.outs w (List.mem_of_getElem? h), output_node P, ?_⟩
    have := (List.getElem?_eq_some_iff.1 h).1
    have h2 := hg.outsFit
    simp [Prog.op, Op.ports, Prog.args] at this ⊢
    omega
  | k + 4 =>
    simp only [Prog.args] at h
    cases hl : P.lines[k]? with
    | none => simp [hl] at h
    | some x =>
      simp only [hl, Option.map_some, Option.getD_some] at h
      have hm := List.mem_of_getElem? hl
      have hlt := (List.getElem?_eq_some_iff.1 hl).1
      refine ⟨hg.wires x.1 x.2 hm w (List.mem_of_getElem? h), ⟨by omega, by omega⟩, ?_⟩
      rw [Nat.add_comm, op_line hl]
      exact Nat.lt_of_lt_of_le (List.getElem?_eq_some_iff.1 h).1 (hg.fits _ _ hm)

/-! ## Degrees -/

theorem wireLinks_count (dst : Nat) (ws : List Wire) (port n p : Nat) :
    ((wireLinks dst port ws).filter fun l => l.dst = n && l.dstPort = p).length =
      if n = dst ∧ port ≤ p ∧ p < port + ws.length then 1 else 0 := by
  induction ws generalizing port with
  | nil => rw [if_neg (by simp)]; rfl
  | cons w ws ih =>
    simp only [wireLinks, List.filter_cons, List.length_cons]
    by_cases h : dst = n ∧ port = p
    · rw [if_pos (by simp [h.1, h.2]), List.length_cons, ih, if_neg (by omega), if_pos (by omega)]
    · rw [if_neg (by simpa using h), ih]
      by_cases h2 : n = dst ∧ port + 1 ≤ p ∧ p < port + 1 + ws.length
      · rw [if_pos h2, if_pos (by omega)]
      · rw [if_neg h2, if_neg]
        rintro ⟨rfl, h3, h4⟩
        have : port ≠ p := fun e => h ⟨rfl, e⟩
        exact h2 ⟨rfl, by omega, by omega⟩

theorem lineLinks_count (ls : List (Ops.Op × List Wire)) (m n p : Nat) :
    ((lineLinks m ls).filter fun l => l.dst = n && l.dstPort = p).length =
      if m ≤ n ∧ p < ((ls[n - m]?.map Prod.snd).getD []).length then 1 else 0 := by
  induction ls generalizing m with
  | nil => simp [lineLinks]
  | cons x xs ih =>
    simp only [lineLinks, List.filter_append, List.length_append, wireLinks_count, ih]
    by_cases h : n = m
    · subst h
      rw [if_neg (c := n + 1 ≤ n ∧ _) (by omega)]
      simp
    · rw [if_neg (c := n = m ∧ _) (fun hc => h hc.1)]
      by_cases h2 : m + 1 ≤ n
      · rw [show n - m = (n - (m + 1)) + 1 from by omega, List.getElem?_cons_succ]
        simp only [Nat.zero_add, h2, true_and, show m ≤ n from by omega]
      · rw [if_neg (fun hc => h2 hc.1), if_neg (fun hc => by omega)]

/-- How many wires come to a port. -/
theorem args_count (P : Prog) (n p : Nat) :
    ((lineLinks 4 P.lines ++ wireLinks 3 0 P.outs).filter fun l => l.dst = n && l.dstPort = p).length =
      if p < (P.args n).length then 1 else 0 := by
  rw [List.filter_append, List.length_append, lineLinks_count, wireLinks_count]
  match n with
  | 0 | 1 | 2 => simp [Prog.args]
  | 3 => simp [Prog.args]; rfl
  | k + 4 => simp [Prog.args]; rfl

section

variable {P : Prog} {L : List Link}

theorem linksTo_length (hg : P.Good) (hL : L.Perm P.links) {n p : Nat} {k : Kind} (hn : P.HasNode n)
    (hk : ((P.op n).ports .incoming)[p]? = some k) (ho : k.isOther = false) :
    (linksTo (P.hugr L : Hugr Ops.Op Meta) n p).length = if p < (P.args n).length then 1 else 0 := by
  rw [← args_count]
  unfold linksTo
  rw [show (P.hugr L : Hugr Ops.Op Meta).links = L from rfl]
  rw [(hL.filter _).length_eq]
  unfold Prog.links
  rw [List.filter_append, List.length_append]
  have : ((P.orders.map (orderLink P)).filter fun l => l.dst = n && l.dstPort = p) = [] := by
    apply List.filter_eq_nil_iff.2
    intro l hl
    obtain ⟨x, hx, rfl⟩ := List.mem_map.1 hl
    intro hc
    simp only [Bool.and_eq_true, decide_eq_true_eq] at hc
    obtain ⟨rfl, rfl⟩ := hc
    simp only [orderLink] at hk
    obtain ⟨-, -, -, h4⟩ := hg.orders x hx
    rw [order_get h4] at hk
    cases hk
    cases ho
  rw [this]
  simp

theorem linksFrom_length (hg : P.Good) (hL : L.Perm P.links) {w : Wire} (hw : P.HasWire w) :
    (linksFrom (P.hugr L : Hugr Ops.Op Meta) w.1 w.2).length = P.uses w := by
  unfold linksFrom
  rw [show (P.hugr L : Hugr Ops.Op Meta).links = L from rfl]
  rw [(hL.filter _).length_eq]
  unfold Prog.links
  rw [List.filter_append, List.length_append]
  have : ((P.orders.map (orderLink P)).filter fun l => l.src = w.1 && l.srcPort = w.2) = [] := by
    apply List.filter_eq_nil_iff.2
    intro l hl
    obtain ⟨x, hx, rfl⟩ := List.mem_map.1 hl
    intro hc
    simp only [Bool.and_eq_true, decide_eq_true_eq] at hc
    apply order_src hg hx
    rw [hc.1, hc.2]
    exact hw
  rw [this]
  have e : P.lines.flatMap Prod.snd ++ P.outs =
      (lineLinks 4 P.lines ++ wireLinks 3 0 P.outs).map fun l => (l.src, l.srcPort) := by
    rw [List.map_append, lineLinks_src, wireLinks_src]
  unfold Prog.uses
  rw [e, List.count, List.countP_map, List.countP_eq_length_filter]
  simp only [List.length_nil, Nat.add_zero]
  congr 2

/-! ## Typing -/

/-- The wires of a node have the kinds of its arguments. -/
theorem typed_iff (hg : P.Good) (hL : L.Perm P.links) {n : Nat} (hn : P.HasNode n) :
    ((∀ (p : Nat) (k : Kind), ((P.op n).ports .incoming)[p]? = some k →
        InDegreeOk k (linksTo (P.hugr L : Hugr Ops.Op Meta) n p).length) ∧
      ∀ (i : Nat) (w : Wire), (P.args n)[i]? = some w → ∃ k, P.kind w = some k ∧ ((P.op n).ports .incoming)[i]? = some k) ↔
    (P.args n).map P.kind = (arguments (P.op n)).map some := by
  have hpl := node_plain hg.tags hn
  obtain ⟨tail, hports, htail⟩ := ports_arguments hpl
  have hdeg : ∀ p k, (arguments (P.op n))[p]? = some k →
      (InDegreeOk k (linksTo (P.hugr L : Hugr Ops.Op Meta) n p).length ↔ p < (P.args n).length) := by
    intro p k hk
    have hlt := (List.getElem?_eq_some_iff.1 hk).1
    have hk' : ((P.op n).ports .incoming)[p]? = some k := by
      rw [hports, List.getElem?_append_left hlt]; exact hk
    rw [linksTo_length hg hL hn hk' (arguments_other hk)]
    have hkind : k.isOther = false := arguments_other hk
    cases k with
    | value t => simp [InDegreeOk]
    | const t => simp [InDegreeOk]
    | function f => simp only [InDegreeOk]; split <;> omega
    | controlFlow => cases hkind
    | stateOrder => cases hkind
  constructor
  · rintro ⟨h1, h2⟩
    have hlen : (P.args n).length = (arguments (P.op n)).length := by
      apply Nat.le_antisymm
      · by_contra hlt
        obtain ⟨k, hk1, hk2⟩ := h2 (arguments (P.op n)).length _ (List.getElem?_eq_getElem (by omega))
        rw [hports, List.getElem?_append_right (Nat.le_refl _), Nat.sub_self] at hk2
        obtain ⟨⟨-, k', hk', ho⟩, -⟩ := args_wire hg (List.getElem?_eq_getElem (show (arguments (P.op n)).length <
          (P.args n).length from by omega))
        rw [hk1] at hk'
        cases hk'
        rcases htail with rfl | rfl
        · simp at hk2
        · simp at hk2; subst hk2; cases ho
      · by_contra hlt
        have hk := List.getElem?_eq_getElem (show (P.args n).length < (arguments (P.op n)).length from by omega)
        have hlt' := (List.getElem?_eq_some_iff.1 hk).1
        have := (hdeg _ _ hk).1 (h1 _ _ (by rw [hports, List.getElem?_append_left hlt']; exact hk))
        omega
    apply List.ext_getElem?
    intro i
    rw [List.getElem?_map, List.getElem?_map]
    by_cases hi : i < (P.args n).length
    · obtain ⟨k, hk1, hk2⟩ := h2 i _ (List.getElem?_eq_getElem hi)
      rw [hports, List.getElem?_append_left (by omega)] at hk2
      rw [List.getElem?_eq_getElem hi, hk2]
      simp [hk1]
    · rw [List.getElem?_eq_none (by omega), List.getElem?_eq_none (by omega)]
      rfl
  · intro h
    have hlen : (P.args n).length = (arguments (P.op n)).length := by simpa using congrArg List.length h
    constructor
    · intro p k hk
      by_cases hp : p < (arguments (P.op n)).length
      · rw [hports, List.getElem?_append_left hp] at hk
        exact (hdeg p k hk).2 (by omega)
      · rw [hports, List.getElem?_append_right (by omega)] at hk
        rcases htail with rfl | rfl
        · simp at hk
        · rw [List.getElem?_singleton] at hk
          split at hk
          · cases hk; trivial
          · cases hk
    · intro i w hw
      have hi := (List.getElem?_eq_some_iff.1 hw).1
      have := congrArg (·[i]?) h
      simp only [List.getElem?_map, hw, Option.map_some] at this
      rw [List.getElem?_eq_getElem (show i < (arguments (P.op n)).length from by omega)] at this
      simp only [Option.map_some, Option.some.injEq] at this
      refine ⟨_, this, ?_⟩
      rw [hports, List.getElem?_append_left (by omega), List.getElem?_eq_getElem (by omega)]

/-! ## Order -/

theorem node_children {n : Nat} : n ∈ (P.hugr L : Hugr Ops.Op Meta).children 1 ↔ P.HasNode n := by
  show n ∈ (P.hugr L : Hugr Ops.Op Meta).hier.children 1 ↔ _
  rw [hugr_child]
  simp

/-- The links between nodes are what has to come before what, and those to the outputs. -/
theorem edge_iff (hg : P.Good) (hL : L.Perm P.links) {a b : Nat} (hb : b ≠ 3) :
    RegionEdge (P.hugr L : Hugr Ops.Op Meta) 1 a b ↔ P.Before a b := by
  constructor
  · rintro ⟨-, -, l, hl, rfl, rfl⟩
    rcases mem_links_iff.1 (hL.subset hl) with h | ⟨x, hx, rfl⟩
    · right
      generalize hd : l.dst = d at h hb
      match d with
      | 0 | 1 | 2 => simp [Prog.args] at h
      | 3 => exact absurd rfl hb
      | k + 4 =>
        simp only [Prog.args] at h
        cases hk : P.lines[k]? with
        | none => simp [hk] at h
        | some x =>
          simp only [hk, Option.map_some, Option.getD_some] at h
          exact ⟨k, x.1, x.2, l.srcPort, hk, List.mem_of_getElem? h, by omega⟩
    · exact .inl hx
  · rintro (h | ⟨k, op, ws, port, h1, h2, rfl⟩)
    · obtain ⟨h1, h2, -⟩ := hg.orders _ h
      exact ⟨node_children.2 h1, node_children.2 h2, _, hL.symm.subset (mem_links_iff.2 (.inr ⟨_, h, rfl⟩)), rfl, rfl⟩
    · obtain ⟨i, hi⟩ := List.mem_iff_getElem?.1 h2
      have hl : (⟨a, port, 4 + k, i⟩ : Link) ∈ P.links := by
        refine mem_links_iff.2 (.inl ?_)
        simp only
        rw [Nat.add_comm]
        simp [Prog.args, h1, hi]
      obtain ⟨h3, h4, -⟩ := links_range hg hl
      exact ⟨node_children.2 h3, node_children.2 h4, _, hL.symm.subset hl, rfl, rfl⟩

theorem edge_not3 (hg : P.Good) (hL : L.Perm P.links) {a b : Nat}
    (h : RegionEdge (P.hugr L : Hugr Ops.Op Meta) 1 a b) : a ≠ 3 := by
  obtain ⟨-, -, l, hl, rfl, rfl⟩ := h
  obtain ⟨-, -, h3, -⟩ := links_range hg (hL.subset hl)
  intro e
  rw [e] at h3
  simp [Prog.op, Op.ports] at h3

theorem before_not3 (hg : P.Good) {a b : Nat} (h : P.Before a b) : a ≠ 3 := by
  rcases h with h | ⟨k, op, ws, port, h1, h2, rfl⟩
  · exact order_not3 hg h
  · exact (wire_node (hg.wires op ws (List.mem_of_getElem? h1) _ h2)).2

theorem cycle_iff (hg : P.Good) (hL : L.Perm P.links) (n : Nat) :
    Relation.TransGen (RegionEdge (P.hugr L : Hugr Ops.Op Meta) 1) n n ↔ Relation.TransGen P.Before n n := by
  have key : ∀ (R S : Nat → Nat → Prop), (∀ a b, R a b → a ≠ 3) → (∀ a b, b ≠ 3 → R a b → S a b) → ∀ a b, b ≠ 3 →
      Relation.TransGen R a b → Relation.TransGen S a b := by
    intro R S h3 himp a b hb h
    induction h with
    | single h => exact .single (himp _ _ hb h)
    | tail h1 h2 ih => exact .tail (ih (h3 _ _ h2)) (himp _ _ hb h2)
  have first : ∀ (R : Nat → Nat → Prop), (∀ a b, R a b → a ≠ 3) → ∀ a b, Relation.TransGen R a b → a ≠ 3 := by
    intro R h3 a b h
    induction h with
    | single h => exact h3 _ _ h
    | tail _ _ ih => exact ih
  constructor
  · intro h
    exact key _ _ (fun a b => edge_not3 hg hL) (fun a b hb => (edge_iff hg hL hb).1) _ _
      (first _ (fun a b => edge_not3 hg hL) _ _ h) h
  · intro h
    exact key _ _ (fun a b => before_not3 hg) (fun a b hb => (edge_iff hg hL hb).2) _ _
      (first _ (fun a b => before_not3 hg) _ _ h) h

/-! ## Everything else -/

theorem plain_child {op : Ops.Op} (h : Plain op ∨ (∃ ts, op = .input ts) ∨ ∃ ts, op = .output ts) : DataflowChild op := by
  rcases h with h | ⟨ts, rfl⟩ | ⟨ts, rfl⟩
  · cases op <;> first | exact trivial | exact h.elim
  · trivial
  · trivial

theorem plain_body {op : Ops.Op} (h : Plain op ∨ (∃ ts, op = .input ts) ∨ ∃ ts, op = .output ts) : body op = none := by
  rcases h with h | ⟨ts, rfl⟩ | ⟨ts, rfl⟩
  · cases op <;> first | rfl | exact h.elim
  · rfl
  · rfl

theorem plain_childrenOk {op : Ops.Op} {h : Hugr Ops.Op Meta} {n : Nat} (he : h.ops n = op)
    (hp : Plain op ∨ (∃ ts, op = .input ts) ∨ ∃ ts, op = .output ts) (hc : h.children n = []) : ChildrenOk h n := by
  unfold ChildrenOk
  rcases hp with hp | ⟨ts, rfl⟩ | ⟨ts, rfl⟩
  · rw [he]
    cases op <;> first | exact hp.elim | exact hc
  · rw [he]; exact hc
  · rw [he]; exact hc

theorem decls_at {n : Nat} {decls : List Types.Term} (h : DeclsAt (P.hugr L : Hugr Ops.Op Meta) n decls) :
    (n = 0 → decls = []) ∧ (n = 1 → decls = []) ∧ (P.HasNode n → decls = P.poly.params) := by
  have r : ∀ m ds, DeclsAt (P.hugr L : Hugr Ops.Op Meta) m ds → m = 0 → ds = [] := by
    intro m ds h
    cases h with
    | root => intro _; rfl
    | inside hp _ => intro e; subst e; cases hp
    | inherited hp _ _ => intro e; subst e; cases hp
  refine ⟨r n decls h, ?_, ?_⟩
  · rintro rfl
    cases h with
    | inside hp ho =>
      rcases hugr_parent.1 hp with ⟨-, rfl⟩ | ⟨h, -⟩
      · cases ho
      · exact absurd h.1 (by decide)
    | inherited hp _ hd =>
      rcases hugr_parent.1 hp with ⟨-, rfl⟩ | ⟨h, -⟩
      · exact r _ _ hd rfl
      · exact absurd h.1 (by decide)
  · intro hn
    have hn1 : n ≠ 1 := by have := hn.1; omega
    cases h with
    | root => exact absurd hn.1 (show ¬ 2 ≤ 0 by decide)
    | inside hp ho =>
      rcases hugr_parent.1 hp with ⟨e, -⟩ | ⟨-, rfl⟩
      · exact absurd e hn1
      · have : (P.hugr L : Hugr Ops.Op Meta).ops 1 = .funcDefn P.name P.type := rfl
        rw [this] at ho
        cases ho
        rfl
    | inherited hp hf hd =>
      rcases hugr_parent.1 hp with ⟨e, -⟩ | ⟨-, rfl⟩
      · exact absurd e hn1
      · exact absurd rfl (hf P.name P.type)

theorem node_cases {n : Nat} (h : P.HasNode n) : n = 2 ∨ n = 3 ∨ ∃ k op ws, n = 4 + k ∧ P.lines[k]? = some (op, ws) := by
  match n, h with
  | 0, h | 1, h => exact absurd h.1 (by decide)
  | 2, _ => exact .inl rfl
  | 3, _ => exact .inr (.inl rfl)
  | k + 4, h =>
    have hk : k < P.lines.length := by have := h.2; omega
    exact .inr (.inr ⟨k, P.lines[k].1, P.lines[k].2, by omega, List.getElem?_eq_getElem hk⟩)

theorem line_node {k : Nat} {op : Ops.Op} {ws : List Wire} (h : P.lines[k]? = some (op, ws)) : P.HasNode (4 + k) :=
  ⟨by omega, by have := (List.getElem?_eq_some_iff.1 h).1; omega⟩

theorem args_line {k : Nat} {op : Ops.Op} {ws : List Wire} (h : P.lines[k]? = some (op, ws)) : P.args (4 + k) = ws := by
  rw [Nat.add_comm]
  simp [Prog.args, h]

theorem value_wire {w : Wire} {t : Types.Ty} (h : P.kind w = some (.value t)) : P.HasWire w := by
  refine ⟨?_, _, h, rfl⟩
  intro e
  unfold Prog.kind at h
  rw [e] at h
  simp only [Prog.op, Op.ports] at h
  match w.2, h with
  | 0, h => simp at h
  | _ + 1, h => simp at h

/-- What is built is valid if and only if the program is well typed. -/
theorem valid_iff (C : Context) (hg : P.Good) (hL : L.Perm P.links) :
    Valid C (P.hugr L : Hugr Ops.Op Meta) ↔ P.WellTyped C := by
  constructor
  · intro hv
    have typed : ∀ n, P.HasNode n → (P.args n).map P.kind = (arguments (P.op n)).map some := by
      intro n hn
      refine (typed_iff (Meta := Meta) hg hL hn).1 ⟨?_, ?_⟩
      · intro p k hk
        exact hv.inDegree n p k (hugr_live.2 (.inr (.inr hn))) hk
      · intro i w hw
        obtain ⟨k, h1, h2, -⟩ := hv.kinds ⟨w.1, w.2, n, i⟩ (hL.symm.subset (mem_links_iff.2 (.inl hw)))
        exact ⟨k, h1, h2⟩
    refine ⟨?_, ?_, ?_, ?_, ?_, ?_, ?_, ?_, ?_⟩
    · intro op ws hm
      obtain ⟨k, hk⟩ := List.mem_iff_getElem?.1 hm
      have := typed _ (line_node hk)
      rw [args_line hk, op_line hk] at this
      exact this
    · have := typed 3 (output_node P)
      rw [show P.op 3 = .output P.outputs from rfl, arguments_output, List.map_map] at this
      exact this
    · intro w t hk
      have hw := value_wire hk
      have := hv.outDegree w.1 w.2 (.value t) (hugr_live.2 (.inr (.inr (wire_node hw).1))) hk
      rw [linksFrom_length hg hL hw] at this
      exact this
    · intro a b hm
      obtain ⟨-, -, h1, h2⟩ := hg.orders _ hm
      exact ⟨List.mem_of_getLast? h1, List.mem_of_getLast? h2⟩
    · intro n h
      exact hv.acyclic 1 (hugr_live.2 (.inr (.inl rfl))) rfl n ((cycle_iff hg hL n).2 h)
    · intro op ws hm
      obtain ⟨k, hk⟩ := List.mem_iff_getElem?.1 hm
      have hn := line_node hk
      have := hv.types (4 + k) P.poly.params (hugr_live.2 (.inr (.inr hn)))
        (.inside (sig := P.type) (hugr_parent.2 (.inr ⟨hn, rfl⟩)) rfl)
      rw [show (P.hugr L : Hugr Ops.Op Meta).ops (4 + k) = P.op (4 + k) from rfl, op_line hk] at this
      exact this
    · intro t ht
      have hn : P.HasNode 2 := ⟨by omega, by omega⟩
      have := (hv.types 2 P.poly.params (hugr_live.2 (.inr (.inr hn)))
        (.inside (sig := P.type) (hugr_parent.2 (.inr ⟨hn, rfl⟩)) rfl)).2 (.value t)
      exact this (List.mem_append.2 (.inl (List.mem_map.2 ⟨t, ht, rfl⟩)))
    · have := (hv.types 1 [] (hugr_live.2 (.inr (.inl rfl)))
        (.inherited (hugr_parent.2 (.inl ⟨rfl, rfl⟩)) (fun _ _ h => nomatch h) .root)).2 (.function P.type)
      exact this (by simp [Prog.hugr, Prog.op, Op.ports])
    · intro k t ws hk
      refine hv.constants (4 + k) t (hugr_live.2 (.inr (.inr (line_node hk)))) ?_
      exact op_line hk
  · intro hw
    have typed : ∀ n, P.HasNode n → (P.args n).map P.kind = (arguments (P.op n)).map some := by
      intro n hn
      rcases node_cases hn with rfl | rfl | ⟨k, op, ws, rfl, hk⟩
      · simp [Prog.args, Prog.op, arguments, Op.ports]
      · rw [show P.op 3 = .output P.outputs from rfl, arguments_output, List.map_map]
        exact hw.outs
      · rw [args_line hk, op_line hk]
        exact hw.wires op ws (List.mem_of_getElem? hk)
    refine ⟨?_, ?_, ?_, ?_, ?_, ?_, ?_, ?_, ?_, ?_, ?_, ?_, ?_⟩
    · intro n _
      exact op_tagOk hg.tags n
    · intro n _
      exact ⟨rfl, rfl⟩
    · intro n p hp
      rcases hugr_parent.1 hp with ⟨rfl, rfl⟩ | ⟨hn, rfl⟩
      · trivial
      · exact ⟨rfl, plain_child (node_plain hg.tags hn)⟩
    · intro n hn
      rcases hugr_live.1 hn with rfl | rfl | hn
      · trivial
      · refine ⟨2, 3, List.range' 4 P.lines.length, ?_, rfl, rfl, ?_⟩
        · show List.range' 2 (2 + P.lines.length) = _
          rw [show 2 + P.lines.length = P.lines.length + 1 + 1 from by omega, List.range'_succ, List.range'_succ]
        · intro c hc
          rw [List.mem_range'_1] at hc
          have hk : c - 4 < P.lines.length := by omega
          have e := op_line (P := P) (k := c - 4) (op := P.lines[c - 4].1) (ws := P.lines[c - 4].2)
            (List.getElem?_eq_getElem hk)
          rw [show 4 + (c - 4) = c from by omega] at e
          have hpl := hg.tags P.lines[c - 4].1 P.lines[c - 4].2 (List.getElem_mem hk)
          intro hio
          rw [show (P.hugr L : Hugr Ops.Op Meta).ops c = P.op c from rfl, e] at hio
          rcases hio with ⟨ts, h⟩ | ⟨ts, h⟩ <;> rw [h] at hpl <;> exact hpl
      · refine plain_childrenOk rfl (node_plain hg.tags hn) ?_
        have := hn.1
        show (if n = 0 then [1] else if n = 1 then _ else []) = []
        rw [if_neg (by omega), if_neg (by omega)]
    · rfl
    · intro l _ p sig hp
      exfalso
      change P.op p = .cfg sig at hp
      by_cases hn : P.HasNode p
      · have := plain_child (node_plain hg.tags hn)
        rcases node_plain hg.tags hn with h | ⟨ts, h⟩ | ⟨ts, h⟩
        · rw [hp] at h; exact h
        · rw [hp] at h; cases h
        · rw [hp] at h; cases h
      · match p, hp with
        | k + 4, hp =>
          rw [op_ge (by unfold Prog.HasNode at hn; omega)] at hp
          cases hp
    · intro p hp hb n hc
      rcases hugr_live.1 hp with rfl | rfl | hn
      · cases hb
      · exact hw.acyclic n ((cycle_iff hg hL n).1 hc)
      · change (body (P.op p)).isSome = true at hb
        rw [plain_body (node_plain hg.tags hn)] at hb
        cases hb
    · intro n t hn ho
      change P.op n = .const t at ho
      rcases hugr_live.1 hn with rfl | rfl | hn
      · cases ho
      · cases ho
      · rcases node_cases hn with rfl | rfl | ⟨k, op, ws, rfl, hk⟩
        · cases ho
        · cases ho
        · rw [op_line hk] at ho
          subst ho
          exact hw.constants k t ws hk
    · intro n p k hn hk
      rcases hugr_live.1 hn with rfl | rfl | hn
      · simp [Prog.hugr, Prog.op, Op.ports] at hk
      · simp [Prog.hugr, Prog.op, Op.ports] at hk
      · exact ((typed_iff hg hL hn).2 (typed n hn)).1 p k hk
    · intro n p k hn hk
      change ((P.op n).ports .outgoing)[p]? = some k at hk
      cases k with
      | value t =>
        have hwire : P.HasWire (n, p) := value_wire hk
        have := linksFrom_length (Meta := Meta) hg hL hwire
        rw [this]
        exact hw.linear (n, p) t hk
      | controlFlow =>
        exfalso
        rcases hugr_live.1 hn with rfl | rfl | hn
        · simp [Prog.op, Op.ports] at hk
        · match p, hk with
          | 0, hk => simp [Prog.op, Op.ports] at hk
          | _ + 1, hk => simp [Prog.op, Op.ports] at hk
        · have hpl := node_plain hg.tags hn
          have h1 := (plain_order hpl .outgoing p .controlFlow hk).1 rfl
          rw [h1.1, order_get h1.2] at hk
          cases hk
      | _ => trivial
    · intro l hl
      rcases mem_links_iff.1 (hL.subset hl) with h | ⟨x, hx, rfl⟩
      · obtain ⟨h1, hn, h3⟩ := args_wire hg h
        obtain ⟨k, hk1, hk2⟩ := ((typed_iff (Meta := Meta) hg hL hn).2 (typed _ hn)).2 _ _ h
        refine ⟨k, hk1, hk2, 1, hugr_parent.2 (.inr ⟨(wire_node h1).1, rfl⟩), .inl (hugr_parent.2 (.inr ⟨hn, rfl⟩))⟩
      · obtain ⟨h1, h2, h3, h4⟩ := hg.orders x hx
        exact ⟨.stateOrder, order_get h3, order_get h4, 1, hugr_parent.2 (.inr ⟨h1, rfl⟩),
          .inl (hugr_parent.2 (.inr ⟨h2, rfl⟩))⟩
    · intro n decls hn hd
      obtain ⟨d0, d1, d2⟩ := decls_at hd
      rcases hugr_live.1 hn with rfl | rfl | hn
      · refine ⟨trivial, ?_⟩
        intro k hk
        simp [Prog.hugr, Prog.op, Op.ports] at hk
      · refine ⟨trivial, ?_⟩
        intro k hk
        simp only [Prog.hugr, Prog.op, Op.ports, List.mem_singleton] at hk
        subst hk
        exact hw.type
      · obtain rfl := d2 hn
        rcases node_cases hn with rfl | rfl | ⟨k, op, ws, rfl, hk⟩
        · refine ⟨trivial, ?_⟩
          intro k hk
          simp only [Prog.hugr, Prog.op, Op.ports, List.mem_append, List.mem_map, List.mem_singleton] at hk
          rcases hk with ⟨t, ht, rfl⟩ | rfl
          · exact hw.inputs t ht
          · trivial
        · refine ⟨trivial, ?_⟩
          intro k hk
          simp [Prog.hugr, Prog.op, Op.ports] at hk
        · rw [show (P.hugr L : Hugr Ops.Op Meta).ops (4 + k) = P.op (4 + k) from rfl, op_line hk]
          exact hw.types op ws (List.mem_of_getElem? hk)
    · intro a b name siga sigb da db ha hb hne
      obtain ⟨h1, -⟩ := ha
      obtain ⟨h2, -⟩ := hb
      have e1 : a = 1 := by simpa [Prog.hugr, Hugr.children] using h1
      have e2 : b = 1 := by simpa [Prog.hugr, Hugr.children] using h2
      exact absurd (e1.trans e2.symm) hne

end

end Verif.Builder
