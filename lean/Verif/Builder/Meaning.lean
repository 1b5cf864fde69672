import Verif.Builder.Validity
import Verif.Patch.Semantics

/-!
# What is built computes the program
-/
namespace Verif.Builder

open Verif.Graph Verif.Ops Verif.Validate Verif.Dataflow Verif.Patch

variable {Meta W E : Type}

theorem gather_iff {ρ : Wires W} : ∀ {ws : List Wire} {vs : List (Val W)}, gather ρ ws = some vs ↔
    vs.length = ws.length ∧ ∀ (i : Nat) (w : Wire), ws[i]? = some w → ρ w.1 w.2 = vs[i]?
  | [], vs => by
    cases vs <;> simp [gather]
  | w :: ws, vs => by
    simp only [gather]
    cases hw : ρ w.1 w.2 with
    | none =>
      simp only [reduceCtorEq, false_iff]
      rintro ⟨h1, h2⟩
      have := h2 0 w rfl
      rw [hw] at this
      have := (List.getElem?_eq_none_iff.1 this.symm)
      simp at h1
      omega
    | some v =>
      cases hg : gather ρ ws with
      | none =>
        simp only [reduceCtorEq, false_iff]
        rintro ⟨h1, h2⟩
        cases vs with
        | nil => simp at h1
        | cons x xs =>
          have : gather ρ ws = some xs := gather_iff.2 ⟨by simpa using h1, fun i w' h => by simpa using h2 (i + 1) w' h⟩
          rw [hg] at this
          cases this
      | some us =>
        simp only [Option.some.injEq]
        obtain ⟨g1, g2⟩ := gather_iff.1 hg
        constructor
        · rintro rfl
          refine ⟨by simp [g1], ?_⟩
          intro i w' h
          cases i with
          | zero => simp at h; subst h; simpa using hw
          | succ i => simpa using g2 i w' (by simpa using h)
        · rintro ⟨h1, h2⟩
          cases vs with
          | nil => simp at h1
          | cons x xs =>
            have e := h2 0 w rfl
            rw [hw] at e
            simp at e
            have : gather ρ ws = some xs := gather_iff.2 ⟨by simpa using h1, fun i w' h => by simpa using h2 (i + 1) w' h⟩
            rw [hg] at this
            simp at this
            rw [e, this]

theorem gather_congr {ρ τ : Wires W} {ws : List Wire} (h : ∀ w ∈ ws, ρ w.1 w.2 = τ w.1 w.2) : gather ρ ws = gather τ ws := by
  induction ws with
  | nil => rfl
  | cons w ws ih =>
    simp only [gather]
    rw [h w (by simp), ih (fun x hx => h x (by simp [hx]))]

/-- A line, given the values on all wires. -/
def LineOk (S : Sem W E) (σ : Wires W) (n : Nat) (op : Ops.Op) (ws : List Wire) : Prop :=
  (∃ t, op = .const t ∧ σ n = outWires []) ∨
  (∃ t c p, op = .loadConstant t ∧ ws = [(c, p)] ∧ σ n = outWires [S.value (S.const c)]) ∨
  ∃ ins outs, gather σ ws = some ins ∧ OpMeans S n ins outs op ∧ outs.length = numOuts op ∧ σ n = outWires outs

theorem eval_iff {S : Sem W E} : ∀ {ls : List (Ops.Op × List Wire)} {n : Nat} {ρ σ : Wires W},
    (∀ (k : Nat) (op : Ops.Op) (ws : List Wire), ls[k]? = some (op, ws) → ∀ w ∈ ws, w.1 < n + k) →
    (∀ m, n ≤ m → ρ m = outWires []) →
    (Eval S n ρ ls σ ↔ (∀ m, m < n ∨ n + ls.length ≤ m → σ m = ρ m) ∧
      ∀ (k : Nat) (op : Ops.Op) (ws : List Wire), ls[k]? = some (op, ws) → LineOk S σ (n + k) op ws)
  | [], n, ρ, σ, _, _ => by
    constructor
    · intro h
      cases h
      exact ⟨fun _ _ => rfl, fun k op ws h => by simp at h⟩
    · rintro ⟨h, -⟩
      have : σ = ρ := by
        funext m
        exact h m (by simp; omega)
      subst this
      exact .nil
  | (op, ws) :: ls, n, ρ, σ, hb, hn => by
    have hb' : ∀ (k : Nat) (op : Ops.Op) (ws : List Wire), ls[k]? = some (op, ws) → ∀ w ∈ ws, w.1 < n + 1 + k := by
      intro k op' ws' h w hw
      have := hb (k + 1) op' ws' (by simpa using h) w hw
      omega
    have hput : ∀ outs m, n + 1 ≤ m → Wires.put ρ n outs m = outWires [] := by
      intro outs m hm
      funext p
      simp only [Wires.put]
      rw [if_neg (by omega), hn m (by omega)]
    have hself : ∀ outs, Wires.put ρ n outs n = outWires outs := by
      intro outs
      funext p
      simp [Wires.put, outWires]
    have hoth : ∀ outs m, m ≠ n → Wires.put ρ n outs m = ρ m := by
      intro outs m hm
      funext p
      simp [Wires.put, hm]
    have hw0 : ∀ w ∈ ws, w.1 < n := fun w hw => by simpa using hb 0 op ws rfl w hw
    -- what is written later does not matter for this line
    have hstep : ∀ outs, (∀ m, m < n + 1 ∨ n + 1 + ls.length ≤ m → σ m = Wires.put ρ n outs m) ↔
        (∀ m, m < n ∨ n + (ls.length + 1) ≤ m → σ m = ρ m) ∧ σ n = outWires outs := by
      intro outs
      constructor
      · intro h
        refine ⟨fun m hm => ?_, by rw [h n (by omega), hself]⟩
        rw [h m (by omega), hoth outs m (by omega)]
      · rintro ⟨h1, h2⟩ m hm
        by_cases e : m = n
        · subst e; rw [h2, hself]
        · rw [hoth outs m e]; exact h1 m (by omega)
    have hgath : (∀ m, m < n ∨ n + (ls.length + 1) ≤ m → σ m = ρ m) → gather ρ ws = gather σ ws := by
      intro h
      apply gather_congr
      intro w hw
      rw [h w.1 (.inl (hw0 w hw))]
    have hsame : ρ = Wires.put ρ n [] := by
      funext m
      by_cases e : m = n
      · subst e; rw [hself]; exact hn m (Nat.le_refl _)
      · rw [hoth [] m e]
    constructor
    · intro h
      cases h with
      | const h =>
        rw [hsame] at h
        obtain ⟨h1, h2⟩ := (eval_iff hb' (hput [])).1 h
        obtain ⟨h3, h4⟩ := (hstep []).1 h1
        refine ⟨h3, ?_⟩
        intro k op' ws' hk
        cases k with
        | zero =>
          simp only [List.getElem?_cons_zero, Option.some.injEq, Prod.mk.injEq] at hk
          obtain ⟨rfl, rfl⟩ := hk
          exact .inl ⟨_, rfl, h4⟩
        | succ k => rw [show n + (k + 1) = n + 1 + k from by omega]; exact h2 k op' ws' (by simpa using hk)
      | load h =>
        obtain ⟨h1, h2⟩ := (eval_iff hb' (hput _)).1 h
        obtain ⟨h3, h4⟩ := (hstep _).1 h1
        refine ⟨h3, ?_⟩
        intro k op' ws' hk
        cases k with
        | zero =>
          simp only [List.getElem?_cons_zero, Option.some.injEq, Prod.mk.injEq] at hk
          obtain ⟨rfl, rfl⟩ := hk
          exact .inr (.inl ⟨_, _, _, rfl, rfl, h4⟩)
        | succ k => rw [show n + (k + 1) = n + 1 + k from by omega]; exact h2 k op' ws' (by simpa using hk)
      | op hg hm hl h =>
        obtain ⟨h1, h2⟩ := (eval_iff hb' (hput _)).1 h
        obtain ⟨h3, h4⟩ := (hstep _).1 h1
        refine ⟨h3, ?_⟩
        intro k op' ws' hk
        cases k with
        | zero =>
          simp only [List.getElem?_cons_zero, Option.some.injEq, Prod.mk.injEq] at hk
          obtain ⟨rfl, rfl⟩ := hk
          exact .inr (.inr ⟨_, _, (hgath h3).symm.trans hg, hm, hl, h4⟩)
        | succ k => rw [show n + (k + 1) = n + 1 + k from by omega]; exact h2 k op' ws' (by simpa using hk)
    · rintro ⟨h1, h2⟩
      have h2' : ∀ (k : Nat) (op : Ops.Op) (ws : List Wire), ls[k]? = some (op, ws) → LineOk S σ (n + 1 + k) op ws := by
        intro k op' ws' hk
        have := h2 (k + 1) op' ws' (by simpa using hk)
        rw [show n + (k + 1) = n + 1 + k from by omega] at this
        exact this
      rcases h2 0 op ws rfl with ⟨t, rfl, h3⟩ | ⟨t, c, p, rfl, rfl, h3⟩ | ⟨ins, outs, h3, h4, h5, h6⟩
      · refine .const ?_
        rw [hsame]
        exact (eval_iff hb' (hput [])).2 ⟨(hstep []).2 ⟨h1, h3⟩, h2'⟩
      · exact .load ((eval_iff hb' (hput _)).2 ⟨(hstep _).2 ⟨h1, h3⟩, h2'⟩)
      · exact .op ((hgath h1).trans h3) h4 h5 ((eval_iff hb' (hput _)).2 ⟨(hstep _).2 ⟨h1, h6⟩, h2'⟩)

/-! ## Nodes -/

section

variable {P : Prog} {L : List Link}

theorem numIns_eq {op : Ops.Op} (h : Plain op ∨ (∃ ts, op = .input ts) ∨ ∃ ts, op = .output ts)
    (hl : ∀ t, op ≠ .loadConstant t) : numIns op = (arguments op).length := by
  have aux : ∀ ts : List Types.Ty, (ts.map Kind.value ++ [Kind.stateOrder]).filter Kind.isValue =
      (ts.map Kind.value ++ [Kind.stateOrder]).filter (fun k => !k.isOther) := by
    intro ts
    apply List.filter_congr
    intro k hk
    rcases List.mem_append.1 hk with hk | hk
    · obtain ⟨t, -, rfl⟩ := List.mem_map.1 hk
      rfl
    · simp only [List.mem_singleton] at hk
      subst hk
      rfl
  rcases h with h | ⟨ts, rfl⟩ | ⟨ts, rfl⟩
  · cases op with
    | extensionOp a b c s => simp only [numIns, arguments, Op.ports]; rw [aux]
    | tag j vs => simp only [numIns, arguments, Op.ports]; rw [aux]
    | loadConstant t => exact absurd rfl (hl t)
    | const t => rfl
    | _ => exact h.elim
  · rfl
  · simp only [numIns, arguments, Op.ports]; rw [aux]

theorem ready_iff (hg : P.Good) (hL : L.Perm P.links) {n : Nat} (hn : P.HasNode n)
    (ht : (P.args n).map P.kind = (arguments (P.op n)).map some) (hl : ∀ t, P.op n ≠ .loadConstant t)
    {σ : Wires W} {ins : List (Val W)} :
    Ready (P.hugr L : Hugr Ops.Op Meta) σ n ins ↔ gather σ (P.args n) = some ins := by
  have hpl := node_plain hg.tags hn
  obtain ⟨tail, hports, htail⟩ := ports_arguments hpl
  have hlen : (P.args n).length = (arguments (P.op n)).length := by simpa using congrArg List.length ht
  have hnum : numIns ((P.hugr L : Hugr Ops.Op Meta).ops n) = (P.args n).length := by
    rw [hlen]; exact numIns_eq hpl hl
  have hlink : ∀ l : Link, l.dst = n → l.dstPort < (P.args n).length →
      (l ∈ (P.hugr L : Hugr Ops.Op Meta).links ↔ (P.args n)[l.dstPort]? = some (l.src, l.srcPort)) := by
    intro l hd hp
    show l ∈ L ↔ _
    rw [hL.mem_iff, mem_links_iff, hd]
    constructor
    · rintro (h | ⟨x, hx, rfl⟩)
      · exact h
      · exfalso
        obtain ⟨-, -, -, h4⟩ := hg.orders x hx
        simp only [orderLink] at hd hp
        rw [← hd] at hports hlen
        have h5 := order_get h4
        rw [hports, List.getElem?_append_left (by rw [hd] at hlen hp ⊢; omega)] at h5
        have := arguments_other h5
        cases this
    · exact .inl
  unfold Ready
  rw [hnum, gather_iff]
  constructor
  · rintro ⟨h1, h2⟩
    refine ⟨h1, ?_⟩
    intro i w hw
    have hi := (List.getElem?_eq_some_iff.1 hw).1
    have hv := List.getElem?_eq_getElem (show i < ins.length from by omega)
    obtain ⟨l, hm, hd, hp, h3⟩ := h2 i _ hv
    have := (hlink l hd (by omega)).1 hm
    rw [hp, hw] at this
    simp only [Option.some.injEq] at this
    rw [this, hv]
    exact h3
  · rintro ⟨h1, h2⟩
    refine ⟨h1, ?_⟩
    intro i v hv
    have hi := (List.getElem?_eq_some_iff.1 hv).1
    have hw := List.getElem?_eq_getElem (show i < (P.args n).length from by omega)
    refine ⟨⟨((P.args n)[i]).1, ((P.args n)[i]).2, n, i⟩, (hlink _ rfl (by simp only; omega)).2 hw, rfl, rfl, ?_⟩
    simp only
    rw [h2 i _ hw, hv]

/-- What can carry constants. -/
theorem const_wire (hg : P.Good) {w : Wire} {t : Types.Ty} (hw : P.HasWire w) (hk : P.kind w = some (.const t)) :
    P.op w.1 = .const t := by
  have aux : ∀ (ts : List Types.Ty) (i : Nat), (ts.map Kind.value ++ [Kind.stateOrder])[i]? ≠ some (.const t) := by
    intro ts i h
    rcases List.mem_append.1 (List.mem_of_getElem? h) with h | h
    · obtain ⟨_, _, h⟩ := List.mem_map.1 h
      cases h
    · simp at h
  unfold Prog.kind at hk
  rcases node_plain hg.tags (wire_node hw).1 with h | ⟨ts, h⟩ | ⟨ts, h⟩
  · cases ho : P.op w.1 <;> rw [ho] at h hk <;> try exact h.elim
    case const t' =>
      simp only [Op.ports] at hk
      have := List.mem_of_getElem? hk
      simp at this
      rw [this]
    case extensionOp a b c s => exact absurd hk (aux _ _)
    case tag j vs =>
      have := List.mem_of_getElem? hk
      simp [Op.ports] at this
    case loadConstant t' =>
      have := List.mem_of_getElem? hk
      simp [Op.ports] at this
  · rw [h] at hk; exact absurd hk (aux _ _)
  · rw [h] at hk; simp [Op.ports] at hk

theorem node_iff (hg : P.Good) (hL : L.Perm P.links) {k : Nat} {op : Ops.Op} {ws : List Wire}
    (hk : P.lines[k]? = some (op, ws)) (ht : ws.map P.kind = (arguments op).map some) {S : Sem W E} {σ : Wires W} :
    (∃ ins outs, Ready (P.hugr L : Hugr Ops.Op Meta) σ (4 + k) ins ∧ σ (4 + k) = outWires outs ∧
      outs.length = numOuts op ∧ Runs (P.hugr L : Hugr Ops.Op Meta) S (.node σ (4 + k) ins outs)) ↔
    LineOk S σ (4 + k) op ws := by
  have hn := line_node hk
  have ho : (P.hugr L : Hugr Ops.Op Meta).ops (4 + k) = op := op_line hk
  have hpl := hg.tags op ws (List.mem_of_getElem? hk)
  have ht' : (P.args (4 + k)).map P.kind = (arguments (P.op (4 + k))).map some := by
    rw [args_line hk, op_line hk]; exact ht
  have hready : (∀ t, op ≠ .loadConstant t) → ∀ ins, Ready (P.hugr L : Hugr Ops.Op Meta) σ (4 + k) ins ↔
      gather σ ws = some ins := by
    intro h ins
    rw [ready_iff hg hL hn ht' (by rw [op_line hk]; exact h), args_line hk]
  cases op with
  | const t =>
    have hws : ws = [] := by
      have := congrArg List.length ht
      simpa [arguments, Op.ports] using this
    constructor
    · rintro ⟨ins, outs, -, h2, h3, -⟩
      left
      refine ⟨t, rfl, ?_⟩
      have : outs = [] := List.eq_nil_of_length_eq_zero h3
      rw [h2, this]
    · rintro (⟨t', -, h⟩ | ⟨t', c, p, h, -⟩ | ⟨ins, outs, -, h, -⟩)
      · refine ⟨[], [], ?_, h, rfl, .const ho⟩
        rw [hready (by nofun)]
        subst hws
        rfl
      · cases h
      · exact h.elim
  | loadConstant t =>
    have hargs : arguments (.loadConstant t) = [.const t] := by simp [arguments, Op.ports, Kind.isOther]
    obtain ⟨w, rfl⟩ : ∃ w, ws = [w] := by
      have := congrArg List.length ht
      rw [List.length_map, List.length_map, hargs] at this
      exact List.length_eq_one_iff.1 this
    have hw : P.HasWire w := hg.wires _ _ (List.mem_of_getElem? hk) w (by simp)
    have hkind : P.kind w = some (.const t) := by
      rw [hargs] at ht
      simpa using ht
    have hsrc := const_wire hg hw hkind
    have hlink : ∀ l : Link, l.dst = 4 + k → l.dstPort = 0 → (l ∈ L ↔ (l.src, l.srcPort) = w) := by
      intro l hd hp
      rw [hL.mem_iff, mem_links_iff, hd, hp, args_line hk]
      constructor
      · rintro (h | ⟨x, hx, rfl⟩)
        · simpa using h.symm
        · exfalso
          obtain ⟨-, -, -, h4⟩ := hg.orders x hx
          have h5 := order_get h4
          simp only [orderLink] at hd hp
          rw [hp, hd, op_line hk] at h5
          simp [Op.ports] at h5
      · intro h
        left
        simp [h]
    constructor
    · rintro ⟨ins, outs, h1, h2, h3, h4⟩
      right; left
      cases h4 with
      | leaf h =>
        cases h with
        | loadConstant h5 h6 h7 h8 h9 =>
          refine ⟨t, w.1, w.2, rfl, rfl, ?_⟩
          have := (hlink _ h7 h8).1 h6
          rw [h2, ← this]
        | makeTuple h5 => rw [ho] at h5; cases h5
        | unpackTuple h5 => rw [ho] at h5; cases h5
        | tag h5 => rw [ho] at h5; cases h5
        | loadFunction h5 => rw [ho] at h5; cases h5
        | ext h5 => rw [ho] at h5; cases h5
        | external h5 => cases h5 with
          | direct h6 => rw [ho] at h6; cases h6
          | indirect h6 => rw [ho] at h6; cases h6
        | unknown h5 => rw [ho] at h5; cases h5
      | const h => rw [ho] at h; cases h
      | dfg h => rw [ho] at h; cases h
      | cond h => rw [ho] at h; cases h
      | tailLoop h => rw [ho] at h; cases h
      | cfg h => rw [ho] at h; cases h
      | call h => cases h with
        | direct h6 => rw [ho] at h6; cases h6
        | indirect h6 => rw [ho] at h6; cases h6
    · rintro (⟨t', h, -⟩ | ⟨t', c, p, -, h, h2⟩ | ⟨ins, outs, -, h, -⟩)
      · cases h
      · simp only [List.cons.injEq, and_true] at h
        refine ⟨[], [S.value (S.const c)], ⟨?_, fun i v hv => by simp at hv⟩, h2, rfl, ?_⟩
        · rw [ho]; simp [numIns, Op.ports, Kind.isValue]
        · refine .leaf (.loadConstant (l := ⟨c, p, 4 + k, 0⟩) ho ((hlink _ rfl rfl).2 h.symm) rfl rfl (t' := t) ?_)
          rw [h] at hsrc
          exact hsrc
      · exact h.elim
  | tag j vs =>
    constructor
    · rintro ⟨ins, outs, h1, h2, h3, h4⟩
      right; right
      refine ⟨ins, outs, (hready (by nofun) ins).1 h1, ?_, h3, h2⟩
      cases h4 with
      | leaf h =>
        cases h with
        | tag h5 => rw [ho] at h5; cases h5; rfl
        | loadConstant h5 => rw [ho] at h5; cases h5
        | makeTuple h5 => rw [ho] at h5; cases h5
        | unpackTuple h5 => rw [ho] at h5; cases h5
        | loadFunction h5 => rw [ho] at h5; cases h5
        | ext h5 => rw [ho] at h5; cases h5
        | external h5 => cases h5 with
          | direct h6 => rw [ho] at h6; cases h6
          | indirect h6 => rw [ho] at h6; cases h6
        | unknown h5 => rw [ho] at h5; cases h5
      | const h => rw [ho] at h; cases h
      | dfg h => rw [ho] at h; cases h
      | cond h => rw [ho] at h; cases h
      | tailLoop h => rw [ho] at h; cases h
      | cfg h => rw [ho] at h; cases h
      | call h => cases h with
        | direct h6 => rw [ho] at h6; cases h6
        | indirect h6 => rw [ho] at h6; cases h6
    · rintro (⟨t', h, -⟩ | ⟨t', c, p, h, -⟩ | ⟨ins, outs, h1, h2, h3, h4⟩)
      · cases h
      · cases h
      · refine ⟨ins, outs, (hready (by nofun) ins).2 h1, h4, h3, .leaf ?_⟩
        simp only [OpMeans] at h2
        subst h2
        exact .tag ho
  | extensionOp ext name targs sig =>
    constructor
    · rintro ⟨ins, outs, h1, h2, h3, h4⟩
      right; right
      refine ⟨ins, outs, (hready (by nofun) ins).1 h1, ?_, h3, h2⟩
      cases h4 with
      | leaf h =>
        cases h with
        | tag h5 => rw [ho] at h5; cases h5
        | loadConstant h5 => rw [ho] at h5; cases h5
        | makeTuple h5 =>
          rw [ho] at h5
          cases h5
          simp [OpMeans]
        | unpackTuple h5 h6 =>
          rw [ho] at h5
          cases h5
          simp [OpMeans, h6]
        | loadFunction h5 => rw [ho] at h5; cases h5
        | ext h5 h6 h7 h8 =>
          rw [ho] at h5
          cases h5
          simp only [OpMeans]
          rw [if_neg (fun hc => h6 ⟨hc.1, .inl hc.2⟩), if_neg (fun hc => h6 ⟨hc.1, .inr hc.2⟩)]
          exact ⟨h7, h8⟩
        | external h5 => cases h5 with
          | direct h6 => rw [ho] at h6; cases h6
          | indirect h6 => rw [ho] at h6; cases h6
        | unknown h5 => rw [ho] at h5; cases h5
      | const h => rw [ho] at h; cases h
      | dfg h => rw [ho] at h; cases h
      | cond h => rw [ho] at h; cases h
      | tailLoop h => rw [ho] at h; cases h
      | cfg h => rw [ho] at h; cases h
      | call h => cases h with
        | direct h6 => rw [ho] at h6; cases h6
        | indirect h6 => rw [ho] at h6; cases h6
    · rintro (⟨t', h, -⟩ | ⟨t', c, p, h, -⟩ | ⟨ins, outs, h1, h2, h3, h4⟩)
      · cases h
      · cases h
      · refine ⟨ins, outs, (hready (by nofun) ins).2 h1, h4, h3, .leaf ?_⟩
        simp only [OpMeans] at h2
        by_cases hm : ext = "prelude" ∧ name = "MakeTuple"
        · rw [if_pos hm] at h2
          obtain ⟨rfl, rfl⟩ := hm
          subst h2
          exact .makeTuple ho
        · rw [if_neg hm] at h2
          by_cases hu : ext = "prelude" ∧ name = "UnpackTuple"
          · rw [if_pos hu] at h2
            obtain ⟨rfl, rfl⟩ := hu
            obtain ⟨rfl, h2⟩ := h2
            exact .unpackTuple ho h2
          · rw [if_neg hu] at h2
            refine .ext ho ?_ h2.1 h2.2
            rintro ⟨h5, h6 | h6⟩
            · exact hm ⟨h5, h6⟩
            · exact hu ⟨h5, h6⟩
  | _ => exact hpl.elim

/-! ## The whole function -/

/-- Lines use only earlier lines. -/
theorem scoped_lines (hs : P.Scoped) {k : Nat} {op : Ops.Op} {ws : List Wire} (hk : P.lines[k]? = some (op, ws)) :
    ∀ w ∈ ws, w.1 < 4 + k := by
  have aux : ∀ (cs : List Call) (k : Nat), (cs.filterMap fun | .node op ws => some (op, ws) | _ => none)[k]? = some (op, ws) →
      ∃ pre post, cs = pre ++ .node op ws :: post ∧
        (pre.filterMap fun | .node op ws => some (op, ws) | _ => (none : Option (Ops.Op × List Wire))).length = k := by
    intro cs
    induction cs with
    | nil => intro k h; simp at h
    | cons c cs ih =>
      intro k h
      cases c with
      | node o us =>
        simp only [List.filterMap_cons] at h
        cases k with
        | zero =>
          simp only [List.getElem?_cons_zero, Option.some.injEq, Prod.mk.injEq] at h
          obtain ⟨rfl, rfl⟩ := h
          exact ⟨[], cs, rfl, rfl⟩
        | succ k =>
          obtain ⟨pre, post, rfl, hl⟩ := ih k (by simpa using h)
          exact ⟨.node o us :: pre, post, rfl, by simp [hl]⟩
      | input t =>
        obtain ⟨pre, post, rfl, hl⟩ := ih k (by simpa using h)
        exact ⟨.input t :: pre, post, rfl, by simpa using hl⟩
      | output t =>
        obtain ⟨pre, post, rfl, hl⟩ := ih k (by simpa using h)
        exact ⟨.output t :: pre, post, rfl, by simpa using hl⟩
      | order a b =>
        obtain ⟨pre, post, rfl, hl⟩ := ih k (by simpa using h)
        exact ⟨.order a b :: pre, post, rfl, by simpa using hl⟩
  obtain ⟨pre, post, hp, hl⟩ := aux P.calls k hk
  intro w hw
  have h1 := wire_lt (hs.wires pre op ws post hp w hw)
  have h2 : (P.upTo pre).lines.length = k := hl
  omega

theorem returns_iff (hs : P.Scoped) (hg : P.Good) (hL : L.Perm P.links)
    (ht : ∀ op ws, (op, ws) ∈ P.lines → ws.map P.kind = (arguments op).map some)
    (hto : P.outs.map P.kind = P.outputs.map fun t => some (.value t)) {S : Sem W E} {args res : List (Val W)} :
    Returns (P.hugr L : Hugr Ops.Op Meta) S 1 args res ↔ P.Computes S args res := by
  have hio : HasIO (P.hugr L : Hugr Ops.Op Meta) 1 2 3 := by
    refine ⟨List.range' 4 P.lines.length, ?_⟩
    show List.range' 2 (2 + P.lines.length) = _
    rw [show 2 + P.lines.length = P.lines.length + 1 + 1 from by omega, List.range'_succ, List.range'_succ]
  have hio' : ∀ i o, HasIO (P.hugr L : Hugr Ops.Op Meta) 1 i o → i = 2 ∧ o = 3 := by
    rintro i o ⟨rest, h⟩
    obtain ⟨rest', h'⟩ := hio
    rw [h'] at h
    simp only [List.cons.injEq] at h
    exact ⟨h.1.symm, h.2.1.symm⟩
  have hnum : numOuts (P.op 2) = P.inputs.length := by
    simp only [numOuts, Prog.op, Op.ports]
    rw [List.filter_append, List.filter_eq_self.2]
    · simp [Kind.isValue]
    · intro k hk
      obtain ⟨t, -, rfl⟩ := List.mem_map.1 hk
      rfl
  have hinner : ∀ n, Inner (P.hugr L : Hugr Ops.Op Meta) 1 2 3 n ↔ ∃ k op ws, n = 4 + k ∧ P.lines[k]? = some (op, ws) := by
    intro n
    unfold Inner
    rw [node_children]
    constructor
    · rintro ⟨h1, h2, h3⟩
      rcases node_cases h1 with h | h | h
      · exact absurd h h2
      · exact absurd h h3
      · exact h
    · rintro ⟨k, op, ws, rfl, hk⟩
      exact ⟨line_node hk, by omega, by omega⟩
  have h3 : (P.args 3).map P.kind = (arguments (P.op 3)).map some := by
    rw [show P.op 3 = .output P.outputs from rfl, arguments_output, List.map_map]
    exact hto
  have hout : ∀ σ : Wires W, Ready (P.hugr L : Hugr Ops.Op Meta) σ 3 res ↔ gather σ P.outs = some res :=
    fun σ => ready_iff hg hL (output_node P) h3 (by nofun)
  have hstart : ∀ m, 4 ≤ m → Wires.put (fun _ _ => none) 2 args m = (outWires [] : Nat → Option (Val W)) := by
    intro m hm
    funext p
    simp only [Wires.put, outWires]
    rw [if_neg (by omega)]
    rfl
  have heval : ∀ σ : Wires W, Eval S 4 (Wires.put (fun _ _ => none) 2 args) P.lines σ ↔ _ :=
    fun σ => eval_iff (fun k op ws hk w hw => scoped_lines hs hk w hw) hstart
  have hnil : ∀ m, m ≠ 2 → Wires.put (fun _ _ => none) 2 args m = (outWires [] : Nat → Option (Val W)) := by
    intro m hm
    funext p
    simp only [Wires.put, outWires]
    rw [if_neg hm]
    rfl
  have htwo : Wires.put (fun _ _ => none) 2 args 2 = (outWires args : Nat → Option (Val W)) := by
    funext p
    simp [Wires.put, outWires]
  have hno : ∀ n, (noWires : Wires W) n = outWires [] := by
    intro n
    funext p
    rfl
  constructor
  · rintro ⟨-, σ, hr⟩
    cases hr with
    | graph e1 e2 e3 e4 e5 e6 e7 e8 e9 e10 =>
      obtain ⟨rfl, rfl⟩ := hio' _ _ e1
      refine ⟨e4.trans hnum, σ, (heval σ).2 ⟨?_, ?_⟩, (hout σ).1 e10⟩
      · intro m hm
        by_cases hc : m ∈ (P.hugr L : Hugr Ops.Op Meta).children 1
        · have := node_children.1 hc
          have h2 : m = 2 ∨ m = 3 := by unfold Prog.HasNode at this; omega
          rcases h2 with rfl | rfl
          · rw [e3, htwo]
          · rw [e5, hnil 3 (by decide)]
        · rw [e2 m hc, hno]
          by_cases h2 : m = 2
          · subst h2
            exact absurd (node_children.2 ⟨by omega, by omega⟩) hc
          · rw [hnil m h2]
      · intro k op ws hk
        have hi := (hinner (4 + k)).2 ⟨k, op, ws, rfl, hk⟩
        refine (node_iff hg hL hk (ht op ws (List.mem_of_getElem? hk))).1 ⟨_, _, e6 _ hi, e7 _ hi, ?_, e9 _ hi⟩
        have := e8 _ hi
        rw [show (P.hugr L : Hugr Ops.Op Meta).ops (4 + k) = P.op (4 + k) from rfl, op_line hk] at this
        exact this
  · rintro ⟨h1, σ, h2, h4⟩
    obtain ⟨h5, h6⟩ := (heval σ).1 h2
    refine ⟨⟨_, _, rfl⟩, σ, ?_⟩
    have hall : ∀ n, ∃ (ins outs : List (Val W)), Inner (P.hugr L : Hugr Ops.Op Meta) 1 2 3 n →
        Ready (P.hugr L : Hugr Ops.Op Meta) σ n ins ∧ σ n = outWires outs ∧
        outs.length = numOuts ((P.hugr L : Hugr Ops.Op Meta).ops n) ∧
        Runs (P.hugr L : Hugr Ops.Op Meta) S (.node σ n ins outs) := by
      intro n
      by_cases hi : Inner (P.hugr L : Hugr Ops.Op Meta) 1 2 3 n
      · obtain ⟨k, op, ws, rfl, hk⟩ := (hinner n).1 hi
        obtain ⟨ins, outs, g1, g2, g3, g4⟩ :=
          (node_iff (Meta := Meta) hg hL hk (ht op ws (List.mem_of_getElem? hk))).2 (h6 k op ws hk)
        refine ⟨ins, outs, fun _ => ⟨g1, g2, ?_, g4⟩⟩
        rw [show (P.hugr L : Hugr Ops.Op Meta).ops (4 + k) = P.op (4 + k) from rfl, op_line hk]
        exact g3
      · exact ⟨[], [], fun h => absurd h hi⟩
    choose ins outs hio2 using hall
    refine .graph (i := 2) (o := 3) (ins := ins) (outs := outs) hio ?_ ?_ (h1.trans hnum.symm) ?_ (fun n hn => (hio2 n hn).1)
      (fun n hn => (hio2 n hn).2.1) (fun n hn => (hio2 n hn).2.2.1) (fun n hn => (hio2 n hn).2.2.2) ((hout σ).2 h4)
    · intro n hn
      have hn' : ¬ P.HasNode n := fun h => hn (node_children.2 h)
      have h2 : n ≠ 2 := by rintro rfl; exact hn' ⟨by omega, by omega⟩
      rw [h5 n (by unfold Prog.HasNode at hn'; omega), hnil n h2, hno]
    · rw [h5 2 (by omega), htwo]
    · rw [h5 3 (by omega), hnil 3 (by decide)]

end

end Verif.Builder
