import Verif.Builder.Meaning

/-!
# C70: building functions

A program says what is to be built: its inputs, its lines and its outputs (`Verif.Builder.Spec`). Building it gives a
valid Hugr exactly if it is well typed, and the function of that Hugr computes what the program says.
-/
namespace Verif.Builder

open Verif.Graph Verif.Ops Verif.Validate Verif.Dataflow Verif.Patch Verif.Passes

variable {Meta W E : Type}

theorem WellTyped.wireable {C : Context} {P : Prog} (hs : P.Scoped) (h : P.WellTyped C) : P.Wireable where
  linear := by
    intro w t hk hc
    rcases h.linear w t hk with h | h
    · rw [hc] at h; cases h
    · omega
  fits := by
    intro op ws hm
    have hlen := congrArg List.length (h.wires op ws hm)
    obtain ⟨tail, hp, -⟩ := ports_arguments (.inl (hs.tags op ws hm))
    rw [hp]
    simp at hlen ⊢
    omega
  orders := h.orders
  outs := by
    have hlen := congrArg List.length h.outs
    simp at hlen
    omega

/-- Building a function and finishing it succeeds if and only if the program is well typed. -/
theorem C70_finish_iff (C : Context) {P : Prog} (hs : P.Scoped) :
    (∃ h : Hugr Ops.Op Meta, finish C P = .ok h) ↔ P.WellTyped C := by
  constructor
  · rintro ⟨h, hf⟩
    unfold finish at hf
    cases hb : (build P : Built (Builder Meta)) with
    | ok b =>
      rw [hb] at hf
      simp only at hf
      obtain ⟨L, rfl, hL, hg, -⟩ := build_ok hs hb
      have hv : validate C (P.hugr L : Hugr Ops.Op Meta) = .ok := by
        cases hq : validate C (P.builder L : Builder Meta).hugr with
        | ok => exact hq
        | _ => rw [hq] at hf; cases hf
      exact (valid_iff C hg hL).1 ((C47_validate_iff_partial C _ hugr_tree (hugr_linksOk hg hL)).1 hv)
    | error e => rw [hb] at hf; cases hf
    | panic => rw [hb] at hf; cases hf
  · intro h
    obtain ⟨b, hb⟩ := (build_fails (Meta := Meta) hs).1 (WellTyped.wireable hs h)
    obtain ⟨L, rfl, hL, hg, -⟩ := build_ok hs hb
    have hv := (C47_validate_iff_partial C _ hugr_tree (hugr_linksOk hg hL)).2 ((valid_iff (Meta := Meta) C hg hL).2 h)
    refine ⟨P.hugr L, ?_⟩
    unfold finish
    rw [hb]
    simp only [show (P.builder L : Builder Meta).hugr = P.hugr L from rfl, hv]

/-- The function of the Hugr that is built returns what the program computes. -/
theorem C70_finish_returns (C : Context) {P : Prog} (hs : P.Scoped) {h : Hugr Ops.Op Meta} (hf : finish C P = .ok h)
    (S : Sem W E) (args res : List (Val W)) : Returns h S h.entrypoint args res ↔ P.Computes S args res := by
  have hw := (C70_finish_iff (Meta := Meta) C hs).1 ⟨h, hf⟩
  unfold finish at hf
  cases hb : (build P : Built (Builder Meta)) with
  | ok b =>
    rw [hb] at hf
    simp only at hf
    obtain ⟨L, rfl, hL, hg, -⟩ := build_ok hs hb
    cases hq : validate C (P.builder L : Builder Meta).hugr with
    | ok =>
      rw [hq] at hf
      simp only [Finished.ok.injEq] at hf
      subst hf
      exact returns_iff hs hg hL hw.wires hw.outs
    | _ => rw [hq] at hf; cases hf
  | error e => rw [hb] at hf; cases hf
  | panic => rw [hb] at hf; cases hf

/-- The function that is built has the name and the type of the program, with the inputs and outputs that were added, and
its body has a node for each line and no other nodes, but for those of the inputs and outputs. -/
theorem C70_build_nodes {P : Prog} (hs : P.Scoped) {b : Builder Meta} (hb : build P = .ok b) :
    b.hugr.children 0 = [1] ∧ b.hugr.ops 1 = .funcDefn P.name P.type ∧
    (b.hugr.children 1).map b.hugr.ops = .input P.inputs :: .output P.outputs :: P.lines.map Prod.fst ∧
    b.hugr.children 1 = List.range' 2 (2 + P.lines.length) := by
  obtain ⟨L, rfl, -, -, -⟩ := build_ok hs hb
  refine ⟨rfl, rfl, ?_, rfl⟩
  show (List.range' 2 (2 + P.lines.length)).map P.op = _
  rw [show 2 + P.lines.length = P.lines.length + 1 + 1 from by omega, List.range'_succ, List.range'_succ]
  simp only [List.map_cons, show P.op 2 = .input P.inputs from rfl, show P.op (2 + 1) = .output P.outputs from rfl,
    List.cons.injEq, true_and]
  apply List.ext_getElem?
  intro k
  rw [List.getElem?_map, List.getElem?_map]
  cases hk : P.lines[k]? with
  | none =>
    have := List.getElem?_eq_none_iff.1 hk
    rw [List.getElem?_eq_none (by simp; omega)]
    rfl
  | some x =>
    have := (List.getElem?_eq_some_iff.1 hk).1
    rw [List.getElem?_range' (by omega)]
    simp only [Option.map_some, Nat.one_mul, Option.some.injEq]
    exact op_line hk

/-- Calls that return an error were given a value that cannot be copied and is used twice. -/
theorem C70_build_error {P : Prog} (hs : P.Scoped) {e : WiringError} (h : (build P : Built (Builder Meta)) = .error e) :
    e = .noCopyLinear ∧ ∃ w t, P.kind w = some (.value t) ∧ t.copyable = false ∧ 2 ≤ P.uses w :=
  (build_fails hs).2 e h

/-- All calls succeed if and only if no value that cannot be copied is used twice, no line and not the outputs are given
more wires than they have ports, which may be one wire too many, and only nodes with ports for it are ordered. -/
theorem C70_build_iff {P : Prog} (hs : P.Scoped) : (∃ b : Builder Meta, build P = .ok b) ↔
    (∀ w t, P.kind w = some (.value t) → t.copyable = true ∨ P.uses w ≤ 1) ∧
    (∀ op ws, (op, ws) ∈ P.lines → ws.length ≤ (op.ports .incoming).length) ∧
    P.outs.length ≤ P.outputs.length + 1 ∧
    ∀ a b, (a, b) ∈ P.orders → .stateOrder ∈ (P.op a).ports .outgoing ∧ .stateOrder ∈ (P.op b).ports .incoming := by
  constructor
  · rintro ⟨b, hb⟩
    have hw := build_wireable hs hb
    refine ⟨fun w t hk => ?_, hw.fits, hw.outs, hw.orders⟩
    by_cases hc : t.copyable = true
    · exact .inl hc
    · exact .inr (hw.linear w t hk (by simpa using hc))
  · rintro ⟨h1, h2, h3, h4⟩
    refine (build_fails hs).1 ⟨?_, h2, h4, h3⟩
    intro w t hk hc
    rcases h1 w t hk with h | h
    · rw [hc] at h; cases h
    · exact h

/-- It does not matter when inputs, outputs and order are added: programs that say the same give the same Hugr, up to the
sequence in which links are stored. -/
theorem C70_add_later {P Q : Prog} (hp : P.Scoped) (hq : Q.Scoped) (hname : P.name = Q.name) (htype : P.type = Q.type)
    (hlines : P.lines = Q.lines) (horders : P.orders.Perm Q.orders) (houts : P.outs = Q.outs) {b c : Builder Meta}
    (hb : build P = .ok b) (hc : build Q = .ok c) :
    ∃ L, c.hugr = { b.hugr with links := L } ∧ L.Perm b.hugr.links := by
  obtain ⟨L, rfl, hL, -, -⟩ := build_ok hp hb
  obtain ⟨L', rfl, hL', -, -⟩ := build_ok hq hc
  have hi : P.inputs = Q.inputs := congrArg (fun t : Types.PolyFunc => t.body.input) htype
  have ho : P.outputs = Q.outputs := congrArg (fun t : Types.PolyFunc => t.body.output) htype
  have hop : P.op = Q.op := by
    funext n
    match n with
    | 0 => rfl
    | 1 => simp only [Prog.op, hname, htype]
    | 2 => simp only [Prog.op, hi]
    | 3 => simp only [Prog.op, ho]
    | k + 4 => simp only [Prog.op, hlines]
  refine ⟨L', (hugr_congr hop.symm (by rw [hlines]) L').trans rfl, hL'.trans ?_⟩
  refine List.Perm.trans ?_ hL.symm
  unfold Prog.links
  rw [hlines, houts, show orderLink Q = orderLink P from by funext x; unfold orderLink; rw [hop]]
  exact List.Perm.append_left _ (horders.symm.map _)

/-! ## An example -/

/-- Decides whether wires and nodes were returned by earlier calls. -/
def hasWire (P : Prog) (w : Wire) : Bool := w.1 != 1 && match P.kind w with | some k => !k.isOther | none => false
def hasNode (P : Prog) (n : Nat) : Bool := decide (2 ≤ n) && decide (n < 4 + P.lines.length)
def plain : Ops.Op → Bool
  | .extensionOp .. | .const _ | .loadConstant _ => true
  | .tag k variants => decide (k < variants.length)
  | _ => false
def scopedCalls (P : Prog) : List Call → List Call → Bool
  | _, [] => true
  | pre, c :: cs => (match c with
      | .node op ws => plain op && ws.all (hasWire (P.upTo pre))
      | .order a b => hasNode (P.upTo pre) a && hasNode (P.upTo pre) b
      | _ => true) && scopedCalls P (pre ++ [c]) cs

theorem hasWire_iff {P : Prog} {w : Wire} (h : hasWire P w = true) : P.HasWire w := by
  simp only [hasWire, Bool.and_eq_true, bne_iff_ne, ne_eq] at h
  obtain ⟨h1, h2⟩ := h
  refine ⟨h1, ?_⟩
  cases hk : P.kind w with
  | none => simp [hk] at h2
  | some k => exact ⟨k, rfl, by simpa [hk] using h2⟩

theorem hasNode_iff {P : Prog} {n : Nat} (h : hasNode P n = true) : P.HasNode n := by
  simpa [hasNode, Prog.HasNode] using h

theorem plain_iff {op : Ops.Op} (h : plain op = true) : Plain op := by
  cases op <;> simp_all [plain, Plain]

theorem scopedCalls_ok {P : Prog} : ∀ (cs pre : List Call), scopedCalls P pre cs = true →
    ∀ mid c post, cs = mid ++ c :: post → (∀ op ws, c = .node op ws → Plain op ∧ ∀ w ∈ ws, (P.upTo (pre ++ mid)).HasWire w) ∧
      ∀ a b, c = .order a b → (P.upTo (pre ++ mid)).HasNode a ∧ (P.upTo (pre ++ mid)).HasNode b
  | [], _, _, mid, c, post, h => by simp at h
  | d :: cs, pre, h, mid, c, post, hc => by
    simp only [scopedCalls, Bool.and_eq_true] at h
    cases mid with
    | nil =>
      simp only [List.nil_append, List.cons.injEq] at hc
      obtain ⟨rfl, rfl⟩ := hc
      refine ⟨?_, ?_⟩
      · rintro op ws rfl
        have h1 := h.1
        simp only [Bool.and_eq_true, List.all_eq_true] at h1
        refine ⟨plain_iff h1.1, fun w hw => ?_⟩
        rw [List.append_nil]
        exact hasWire_iff (h1.2 w hw)
      · rintro a b rfl
        have h1 := h.1
        simp only [Bool.and_eq_true] at h1
        rw [List.append_nil]
        exact ⟨hasNode_iff h1.1, hasNode_iff h1.2⟩
    | cons m mid =>
      simp only [List.cons_append, List.cons.injEq] at hc
      obtain ⟨rfl, rfl⟩ := hc
      have := scopedCalls_ok _ (pre ++ [d]) h.2 mid c post rfl
      simpa using this

theorem scoped_of {P : Prog} (h : scopedCalls P [] P.calls = true) (ho : P.outs.all (hasWire P) = true) : P.Scoped := by
  have key := scopedCalls_ok P.calls [] h
  refine ⟨?_, ?_, ?_, fun w hw => hasWire_iff (List.all_eq_true.1 ho w hw)⟩
  · intro op ws hm
    obtain ⟨pre, post, hp⟩ := List.append_of_mem hm
    exact ((key pre _ post hp).1 op ws rfl).1
  · intro pre op ws post hp w hw
    have := ((key pre _ post hp).1 op ws rfl).2 w hw
    simpa using this
  · intro pre a b post hp
    have := (key pre _ post hp).2 a b rfl
    simpa using this

/-- A function of a qubit, to which another qubit is added later; it uses a constant, and orders its operations. -/
def exProg : Prog where
  name := "f"
  poly := ⟨[], ⟨[qubit], [qubit]⟩⟩
  calls :=
    [ .node (.const bool) [], .order 2 3, .node (.loadConstant bool) [(4, 0)],
      .node (.extensionOp "q" "cx" [] ⟨[qubit, bool], [qubit]⟩) [(2, 0), (5, 0)], .input qubit, .output qubit,
      .node (.extensionOp "q" "cx" [] ⟨[qubit, bool], [qubit]⟩) [(2, 1), (5, 0)], .order 7 6, .order 2 6 ]
  outs := [(7, 0), (6, 0)]

/-- Its second qubit is used again. -/
def copyProg : Prog := { exProg with outs := [(7, 0), (2, 1)] }

/-- Has this been built? -/
def Finished.isOk : Finished Meta → Bool
  | .ok _ => true
  | _ => false

theorem exProg_scoped : exProg.Scoped := scoped_of (by decide +kernel) (by decide +kernel)
theorem copyProg_scoped : copyProg.Scoped := scoped_of (by decide +kernel) (by decide +kernel)

set_option maxRecDepth 4000 in
/-- The hypotheses are met and both sides of `C70_finish_iff` hold for one program, and not for the other one. -/
example : exProg.Scoped ∧ exProg.WellTyped exContext ∧ copyProg.Scoped ∧
    (build copyProg : Built (Builder String)) = .error .noCopyLinear ∧ ¬ copyProg.WellTyped exContext := by
  have h : ∀ P : Prog, (∃ h : Hugr Ops.Op String, finish exContext P = .ok h) ↔
      (finish exContext P : Finished String).isOk = true := by
    intro P
    cases hf : (finish exContext P : Finished String) <;> simp [Finished.isOk]
  refine ⟨exProg_scoped, ?_, copyProg_scoped, by rfl, ?_⟩
  · rw [← C70_finish_iff (Meta := String) exContext exProg_scoped, h]
    decide +kernel
  · rw [← C70_finish_iff (Meta := String) exContext copyProg_scoped, h]
    decide +kernel

/-! ## Inputs of nested graphs -/

/-- `add_input` on the builder of a nested graph (`DFG`) changes the operation of the graph, and gives the node no further
port: what is built is not valid. -/
theorem C70_dfg_add_input_accepted (C : Context) {b b' : Builder Meta} {t : Types.Ty} {sig : Types.Signature}
    (ho : b.hugr.ops b.node = .dfg sig) (hl : b.hugr.live b.node = true)
    (hp : b.hugr.ins b.node = ((b.hugr.ops b.node).ports .incoming).length) (h : b.addInput t = .ok b') :
    b'.hugr.ins b.node < ((b'.hugr.ops b.node).ports .incoming).length ∧ ¬ Valid C b'.hugr := by
  unfold Builder.addInput at h
  rw [ho] at h
  simp only [updateSignature] at h
  cases hio : b.io with
  | none => rw [hio] at h; cases h
  | some io =>
    rw [hio] at h
    obtain ⟨i, o⟩ := io
    simp only at h
    cases hi : b.hugr.ops i with
    | input ts =>
      rw [hi] at h
      simp only [Hugr.addPorts] at h
      have hne : b.node ≠ i := by rintro rfl; rw [ho] at hi; cases hi
      by_cases hli : b.hugr.live i = true
      · rw [if_pos hli] at h
        simp only [Added.ok.injEq] at h
        have key : b'.hugr.ins b.node = b.hugr.ins b.node := by
          rw [← h]; simp [shiftOrderOut, Hugr.resizePorts, upd, hne]
        have hops : b'.hugr.ops b.node = .dfg ⟨sig.input ++ [t], sig.output⟩ := by
          rw [← h]; simp [shiftOrderOut, Hugr.resizePorts, upd, hne]
        have hlive : b'.hugr.live b.node = true := by
          rw [← h]; exact hl
        have hlt : b'.hugr.ins b.node < ((b'.hugr.ops b.node).ports .incoming).length := by
          rw [key, hops, hp, ho]; simp [Op.ports]
        exact ⟨hlt, fun hv => absurd (hv.ports b.node hlive).1 (Nat.ne_of_lt hlt)⟩
      · rw [if_neg hli] at h; cases h
    | _ => rw [hi] at h; cases h

/-- The builder of a nested graph. -/
def exDfg : Builder String := ⟨built
  [ .addNodeWithParent 1 0 (.funcDefn "main" ⟨[], ⟨[bool], [bool]⟩⟩), .addNodeWithParent 2 1 (.input [bool]),
    .addNodeWithParent 3 1 (.output [bool]), .addNodeWithParent 4 1 (.dfg ⟨[bool], [bool]⟩), .connect ⟨2, 0, 4, 0⟩,
    .connect ⟨4, 0, 3, 0⟩, .setEntrypoint 4, .addNodeWithParent 5 4 (.input [bool]),
    .addNodeWithParent 6 4 (.output [bool]) ], 4, 1⟩

/-- The hypotheses of `C70_dfg_add_input_accepted` are met. -/
example : ∃ b', exDfg.addInput qubit = .ok b' ∧ ¬ Valid exContext b'.hugr :=
  ⟨_, rfl, (C70_dfg_add_input_accepted exContext (b := exDfg) (sig := ⟨[bool], [bool]⟩) rfl rfl rfl rfl).2⟩

end Verif.Builder
