import Verif.Validate.SubtreeLemmas
import Verif.Passes.DeadCodeProps

/-!
# Validation accepts exactly the valid Hugrs
-/
namespace Verif.Validate

open Verif.Graph Verif.Ops Verif.Types Verif.Passes

variable {Meta : Type}

theorem mem_nodes {h : Hugr Ops.Op Meta} (ht : IsTree h) (n : Nat) :
    n ∈ h.nodes ↔ h.live n = true := by
  unfold Hugr.nodes
  rw [List.mem_filter, List.mem_range]
  exact ⟨fun hn => hn.2, fun hn => ⟨ht.in_range n hn, hn⟩⟩

/-- **C47** Validation of a Hugr succeeds exactly if the Hugr satisfies the rules. Partial: in `Valid`
an incoming function port needs one link or more (the specification asks for exactly one, see
`C47_two_functions_refuted`), and the type arguments of a call only have to fit the parameters (see
`C47_undeclared_variable_refuted`). -/
theorem C47_validate_iff_partial (C : Context) (h : Hugr Ops.Op Meta) (ht : IsTree h)
    (hl : LinksOk h) : validate C h = .ok ↔ Valid C h := by
  have hroot : check (h.getParent h.moduleRoot).isNone .rootNotRoot = .ok := by
    rw [getParent_eq ht, ht.root_top]; rfl
  unfold validate
  rw [andThen_ok, andThen_ok, andThen_ok, forAll_ok, linkage_ok ht,
    validateSubtree_ok ht C _ _ _ [] ht.root_live List.nodup_nil (by simp) (by simp)]
  constructor
  · rintro ⟨-, hn, hs, hx⟩
    have hn' := fun n (hl : h.live n = true) =>
      (validateNode_ok ht C n hl).1 (hn n ((mem_nodes ht n).2 hl))
    have hpo : PortsOk h := fun n hl => (hn' n hl).1
    have hs' := fun n d (hd : DeclsAt h n d) (hn : h.live n = true) =>
      (nodeOk_iff ht hl hpo C d n hn).1 (hs n d ((declsFrom_iff ht n d).2 ⟨hd, hn⟩))
    exact
      { tags := fun n hl => (hpo n hl).1
        ports := fun n hl => (hpo n hl).2
        contains := fun n p hp => (hn' n (ht.parent_live n p hp).1).2.1 p hp
        children := fun n hl => (hn' n hl).2.2.2.1.1
        entrypoint := (hn' _ ht.entry_live).2.2.1 rfl
        blocks := fun l hlm p sig hp hs hd =>
          (hn' p (ht.parent_live _ _ ((mem_children ht _ _).1 hs)).2).2.2.2.1.2.1 sig hp l hlm hs hd
        acyclic := fun p hl hb => (hn' p hl).2.2.2.1.2.2 hb
        constants := fun n t hl ho => (hn' n hl).2.2.2.2 t ho
        inDegree := fun n port kind hn hk =>
          let ⟨d, hd⟩ := declsAt_exists ht n hn
          (hs' n d hd hn).2.1 port kind hk
        outDegree := fun n port kind hn hk =>
          let ⟨d, hd⟩ := declsAt_exists ht n hn
          (hs' n d hd hn).2.2.1 port kind hk
        kinds := fun l hlm =>
          let ⟨d, hd⟩ := declsAt_exists ht l.src (hl l hlm).1
          (hs' _ d hd (hl l hlm).1).2.2.2 l hlm rfl
        types := fun n d hn hd => (hs' n d hd hn).1
        exports := hx }
  · intro hv
    have hpo : PortsOk h := fun n hl => ⟨hv.tags n hl, hv.ports n hl⟩
    refine ⟨hroot, fun n hn => ?_, fun n d hd => ?_, hv.exports⟩
    · have hn := (mem_nodes ht n).1 hn
      rw [validateNode_ok ht C n hn]
      exact ⟨hpo n hn, hv.contains n, fun he => he ▸ hv.entrypoint,
        ⟨hv.children n hn, fun sig hs l hlm => hv.blocks l hlm n sig hs, hv.acyclic n hn⟩,
        fun t ho => hv.constants n t hn ho⟩
    · obtain ⟨hd, hn⟩ := (declsFrom_iff ht n d).1 hd
      rw [nodeOk_iff ht hl hpo C d n hn]
      exact ⟨hv.types n d hn hd, fun port kind => hv.inDegree n port kind hn,
        fun port kind => hv.outDegree n port kind hn, fun l hlm _ => hv.kinds l hlm⟩

/-! ## A valid Hugr, and what is wrong with its neighbours -/

/-- The prelude's qubit, and an extension with an operation on a qubit and a boolean. -/
def exContext : Context where
  types := fun e i =>
    if e = "prelude" ∧ i = "qubit" then some { params := [], bound := .explicit .linear } else none
  defs := fun e n => if e = "q" ∧ n = "cx" then .poly [] else .missing
  isPublic := fun n => n == 1 || n == 27
  constOk := fun _ => true

/-- A function with a nested graph (4) that takes a value from outside, a conditional (8), a
control-flow graph (15) of which the second block uses a value of the first, a call (28) of a
polymorphic function and a constant. -/
def validHistory : List (Cmd Ops.Op String) :=
  [ .addNodeWithParent 1 0 (.funcDefn "main" ⟨[], ⟨[qubit, bool], [qubit]⟩⟩),
    .addNodeWithParent 2 1 (.input [qubit, bool]), .addNodeWithParent 3 1 (.output [qubit]),
    .addNodeWithParent 4 1 (.dfg ⟨[qubit], [qubit]⟩),
    .addNodeWithParent 5 4 (.input [qubit]), .addNodeWithParent 6 4 (.output [qubit]),
    .addNodeWithParent 7 4 (.extensionOp "q" "cx" [] ⟨[qubit, bool], [qubit]⟩),
    .addNodeWithParent 8 1 (.conditional [[], []] [qubit] [qubit]),
    .addNodeWithParent 9 8 (.case ⟨[qubit], [qubit]⟩),
    .addNodeWithParent 10 9 (.input [qubit]), .addNodeWithParent 11 9 (.output [qubit]),
    .addNodeWithParent 12 8 (.case ⟨[qubit], [qubit]⟩),
    .addNodeWithParent 13 12 (.input [qubit]), .addNodeWithParent 14 12 (.output [qubit]),
    .addNodeWithParent 15 1 (.cfg ⟨[qubit], [qubit]⟩),
    .addNodeWithParent 16 15 (.dataflowBlock [qubit] [qubit] [[]]),
    .addNodeWithParent 17 15 (.exitBlock [qubit]),
    .addNodeWithParent 18 15 (.dataflowBlock [qubit] [qubit] [[]]),
    .addNodeWithParent 19 16 (.input [qubit]),
    .addNodeWithParent 20 16 (.output [sumOf [[]], qubit]),
    .addNodeWithParent 21 16 (.tag 0 [[]]), .addNodeWithParent 22 16 (.tag 1 [[], []]),
    .addNodeWithParent 23 18 (.input [qubit]),
    .addNodeWithParent 24 18 (.output [sumOf [[]], qubit]), .addNodeWithParent 25 18 (.tag 0 [[]]),
    .addNodeWithParent 26 18 (.extensionOp "q" "cx" [] ⟨[qubit, bool], [qubit]⟩),
    .addNodeWithParent 27 0 (.funcDecl "f"
      ⟨[.runtimeType .linear], ⟨[.variable 0 .linear], [.variable 0 .linear]⟩⟩),
    .addNodeWithParent 28 1 (.call
      ⟨[.runtimeType .linear], ⟨[.variable 0 .linear], [.variable 0 .linear]⟩⟩ [.runtime qubit]
      ⟨[qubit], [qubit]⟩),
    .addNodeWithParent 29 0 (.const bool), .addNodeWithParent 30 1 (.loadConstant bool),
    .connect ⟨2, 0, 4, 0⟩, .connect ⟨2, 2, 4, 1⟩, .connect ⟨2, 1, 7, 1⟩, .connect ⟨5, 0, 7, 0⟩,
    .connect ⟨7, 0, 6, 0⟩, .connect ⟨2, 1, 8, 0⟩, .connect ⟨4, 0, 8, 1⟩, .connect ⟨10, 0, 11, 0⟩,
    .connect ⟨13, 0, 14, 0⟩, .connect ⟨8, 0, 15, 0⟩, .connect ⟨16, 0, 18, 0⟩,
    .connect ⟨18, 0, 17, 0⟩, .connect ⟨19, 0, 20, 1⟩, .connect ⟨21, 0, 20, 0⟩,
    .connect ⟨25, 0, 24, 0⟩, .connect ⟨23, 0, 26, 0⟩, .connect ⟨22, 0, 26, 1⟩,
    .connect ⟨26, 0, 24, 1⟩, .connect ⟨15, 0, 28, 0⟩, .connect ⟨27, 0, 28, 1⟩,
    .connect ⟨28, 0, 3, 0⟩, .connect ⟨29, 0, 30, 0⟩, .setEntrypoint 1 ]

/-- The outcome of validation after a history. -/
def verdict (cmds : List (Cmd Ops.Op String)) : Verdict := validate exContext (built cmds)

set_option maxRecDepth 4000 in
/-- The hypotheses of `C47_validate_iff_partial` are met and so are both sides. -/
example : IsTree (built validHistory) ∧ LinksOk (built validHistory) ∧
    Valid exContext (built validHistory) := by
  obtain ⟨h1, h2⟩ := built_ok validHistory (by decide +kernel) (by decide +kernel)
  exact ⟨h1, h2, (C47_validate_iff_partial _ _ h1 h2).1 (by decide +kernel)⟩

end Verif.Validate
