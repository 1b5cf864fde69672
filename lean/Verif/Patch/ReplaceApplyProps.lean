import Verif.Patch.ReplaceApplySpec
import Verif.Patch.ReplacementProps

/-!
# C78: a replacement that is accepted can be applied
-/
namespace Verif.Patch

open Verif.Graph Verif.Ops Verif.Passes Verif.Validate Verif.Dataflow

/-! ## Findings -/

/-- A replacement in a valid Hugr that is as in `Q` is accepted, but applying it gives `x`. -/
def AcceptedBut (Q : Hugr Ops.Op String → Replacement String → Prop) (x : Vet (Hugr Ops.Op String × List (Nat × Nat))) :
    Prop :=
  ∃ (h : Hugr Ops.Op String) (r : Replacement String) (news : List Nat),
    IsTree h ∧ Valid unpackContext h ∧ IsTree r.replacement ∧ LinksOk r.replacement ∧ PortsFit r.replacement ∧
    Allocated h news ∧
    news.length = (r.replacement.descendants r.replacement.entrypoint).length ∧
    r.verify h = .ok () ∧ Q h r ∧ ∀ order, (∀ l, (order l).Perm l) → r.apply h news order = x

theorem portsFit_of_valid {C : Context} {h : Hugr Ops.Op String} (hv : Valid C h) : PortsFit h := fun n hn =>
  ⟨hv.tags n hn, hv.ports n hn⟩

theorem portsFit_of {h : Hugr Ops.Op String} (ht : IsTree h) (hd : ∀ n < h.cap, h.live n = true → (h.ops n).tagOk = true ∧
    h.ins n = ((h.ops n).ports .incoming).length ∧ h.outs n = ((h.ops n).ports .outgoing).length) : PortsFit h :=
  fun n hn => hd n (ht.in_range n hn) hn

theorem nest_ok : IsTree (built nestHistory) ∧ Valid unpackContext (built nestHistory) ∧ LinksOk (built nestHistory) := by
  obtain ⟨a, b⟩ := flows_ok (cmds := nestHistory) (by decide +kernel) (by decide +kernel) (by decide +kernel)
  exact ⟨a, b, (built_ok nestHistory (by decide +kernel) (by decide +kernel)).2⟩

/-- One block, 5, with an empty dataflow graph, and an empty dataflow graph, 7, outside the control-flow graph. -/
def besideHistory : List (Cmd Ops.Op String) :=
  [ .addNodeWithParent 1 0 (.funcDefn "main" ⟨[], ⟨[bool], [bool]⟩⟩),
    .addNodeWithParent 2 1 (.input [bool]), .addNodeWithParent 3 1 (.output [bool]),
    .addNodeWithParent 4 1 (.cfg ⟨[bool], [bool]⟩),
    .addNodeWithParent 5 4 (.dataflowBlock [bool] [bool] [[]]),
    .addNodeWithParent 6 5 (.dfg ⟨[bool], [sumOf [[]], bool]⟩),
    .addNodeWithParent 7 1 (.dfg ⟨[bool], [sumOf [[]], bool]⟩), .setEntrypoint 4 ]

theorem beside_ok : IsTree (built besideHistory) ∧ LinksOk (built besideHistory) :=
  built_ok besideHistory (by decide +kernel) (by decide +kernel)

theorem beside_ports : PortsFit (built besideHistory) := portsFit_of beside_ok.1 (by decide +kernel)

/-- The second block is put into another. -/
def wrapBlock : Replacement String where
  removal := [7]
  replacement := built besideHistory
  adoptions := [(6, 7)]
  muInp := [⟨5, 5, .controlFlow 0⟩]
  muOut := [⟨5, 6, .controlFlow 0⟩]
  muNew := []

/-- A function with an empty dataflow graph, 4, and another function, 5. -/
def functionsHistory : List (Cmd Ops.Op String) :=
  [ .addNodeWithParent 1 0 (.funcDefn "main" ⟨[], ⟨[bool], [bool]⟩⟩),
    .addNodeWithParent 2 1 (.input [bool]), .addNodeWithParent 3 1 (.output [bool]),
    .addNodeWithParent 4 1 (.dfg ⟨[bool], [bool]⟩), .addNodeWithParent 5 0 (.funcDefn "id" ⟨[], ⟨[bool], [bool]⟩⟩),
    .addNodeWithParent 6 5 (.input [bool]), .addNodeWithParent 7 5 (.output [bool]),
    .connect ⟨6, 0, 7, 0⟩, .connect ⟨2, 0, 4, 0⟩, .connect ⟨4, 0, 3, 0⟩, .setEntrypoint 1 ]

theorem functions_ok : IsTree (built functionsHistory) ∧ LinksOk (built functionsHistory) :=
  built_ok functionsHistory (by decide +kernel) (by decide +kernel)

theorem functions_ports : PortsFit (built functionsHistory) := portsFit_of functions_ok.1 (by decide +kernel)

/-- The content of the dataflow graph is put into another. -/
def wrapBody : Replacement String where
  removal := [4]
  replacement := built functionsHistory
  adoptions := [(4, 4)]
  muInp := [⟨2, 4, .value 0 0⟩]
  muOut := [⟨4, 3, .value 0 0⟩]
  muNew := []

theorem allocated_range {h : Hugr Ops.Op String} (ht : IsTree h) (hc : h.cap ≤ 20) (k : Nat) :
    Allocated h ((List.range k).map (20 + ·)) where
  nodup := List.nodup_range.map fun a b e => by simpa using e
  fresh n hn := by
    obtain ⟨a, _, rfl⟩ := List.mem_map.1 hn
    cases hl : h.live (20 + a) with
    | false => rfl
    | true => have := ht.in_range _ hl; omega

theorem entryStays_of {h : Hugr Ops.Op String} {r : Replacement String} (ht : IsTree h) (hv : r.verify h = .ok ())
    {R : List Nat} (hR : getRemoved h r = .ok R) (he : h.entrypoint ∉ R) : EntryStays h r := by
  obtain ⟨R', h1, h2⟩ := C77_removed_nodes ht hv
  rw [hR] at h1
  cases h1
  exact fun hx => he ((h2 _).2 hx)

theorem oneBlock_links : LinksOk (built oneBlockHistory) := (built_ok oneBlockHistory (by decide +kernel) (by decide +kernel)).2

theorem up1 {par : Nat → Option Nat} {a b : Nat} (h : par a = some b) : Above par a b := .of_parent h

theorem up2 {par : Nat → Option Nat} {a b c : Nat} (h : par a = some b) (h2 : par b = some c) : Above par a c :=
  .step h (.of_parent h2)

/-- **C78** Two edges into the same port of a node that stays are accepted. The second one then finds the first in the
place of the edge it is to replace, and applying the replacement fails half way. -/
theorem C78_same_target_refuted : AcceptedBut
    (fun h r => PortsThere h r ∧ NodesInside r ∧ EntryStays h r ∧ AdoptsSome h r) (.err (.noRemovedEdge .hostToHost)) := by
  have hv : wrapIt.verify (built nestHistory) = .ok () := by decide +kernel
  refine ⟨built nestHistory, wrapIt, (List.range 6).map (20 + ·), nest_ok.1, nest_ok.2.1, nest_ok.1, nest_ok.2.2, portsFit_of_valid nest_ok.2.1,
    allocated_range nest_ok.1 (by decide +kernel) 6, by decide +kernel, hv, ⟨?_, ?_, ?_, ?_⟩, fun order _ => rfl⟩
  · simp [PortsThere, PortThere, wrapIt]
  · have : Above (built nestHistory).hier.parent 4 (built nestHistory).entrypoint := up1 (by decide +kernel)
    simpa [NodesInside, wrapIt] using this
  · exact entryStays_of nest_ok.1 hv (R := [6, 5, 4]) (by decide +kernel) (by decide +kernel)
  · simp [AdoptsSome, Replacement.adopted, wrapIt]

/-- **C78** A control-flow edge from a port that does not exist is accepted, and applying the replacement panics. -/
theorem C78_absent_port_panics : AcceptedBut
    (fun h r => TargetsDiffer r ∧ NodesInside r ∧ EntryStays h r ∧ AdoptsSome h r) .panic := by
  have hv : { wrapBlock with muOut := [⟨5, 6, .controlFlow 3⟩] }.verify (built twoBlocksHistory) = .ok () := by decide +kernel
  refine ⟨built twoBlocksHistory, { wrapBlock with muOut := [⟨5, 6, .controlFlow 3⟩] }, (List.range 3).map (20 + ·),
    twoBlocks_ok.1, twoBlocks_ok.2, beside_ok.1, beside_ok.2, beside_ports, allocated_range twoBlocks_ok.1 (by decide +kernel) 3,
    by decide +kernel, hv, ⟨?_, ?_, ?_, ?_⟩, fun order _ => rfl⟩
  · simp [TargetsDiffer, wrapBlock]
  · have e1 : Above (built besideHistory).hier.parent 5 (built besideHistory).entrypoint := up1 (by decide +kernel)
    have e2 : Above (built besideHistory).hier.parent 6 (built besideHistory).entrypoint :=
      up2 (b := 5) (by decide +kernel) (by decide +kernel)
    have e3 : 6 ≠ (built besideHistory).entrypoint := by decide +kernel
    simpa [NodesInside, wrapBlock] using ⟨e1, e2, e3⟩
  · exact entryStays_of twoBlocks_ok.1 hv (R := [7]) (by decide +kernel) (by decide +kernel)
  · intro v hvm
    have : v = 7 := by simpa [Replacement.adopted, wrapBlock] using hvm
    subst this
    decide +kernel

/-- **C78** A node of the replacement that is not below its root may adopt, says the check, but it is not copied, and
applying the replacement panics. -/
theorem C78_adopter_outside_panics : AcceptedBut
    (fun h r => PortsThere h r ∧ TargetsDiffer r ∧ EntryStays h r ∧ AdoptsSome h r) .panic := by
  have hv : { wrapBlock with adoptions := [(7, 7)] }.verify (built twoBlocksHistory) = .ok () := by decide +kernel
  refine ⟨built twoBlocksHistory, { wrapBlock with adoptions := [(7, 7)] }, (List.range 3).map (20 + ·),
    twoBlocks_ok.1, twoBlocks_ok.2, beside_ok.1, beside_ok.2, beside_ports, allocated_range twoBlocks_ok.1 (by decide +kernel) 3,
    by decide +kernel, hv, ⟨?_, ?_, ?_, ?_⟩, fun order _ => rfl⟩
  · have e1 : 0 < (built twoBlocksHistory).outs 5 := by decide +kernel
    have e2 : 0 < (built besideHistory).outs 5 := by decide +kernel
    simpa [PortsThere, PortThere, wrapBlock] using ⟨e1, e2⟩
  · simp [TargetsDiffer, wrapBlock]
  · exact entryStays_of twoBlocks_ok.1 hv (R := [7]) (by decide +kernel) (by decide +kernel)
  · intro v hvm
    have : v = 7 := by simpa [Replacement.adopted] using hvm
    subst this
    decide +kernel

/-- **C78** An edge from a node of the replacement that is not below its root is accepted, but this node is not copied,
and applying the replacement fails half way. -/
theorem C78_source_outside_refuted : AcceptedBut
    (fun h r => PortsThere h r ∧ TargetsDiffer r ∧ EntryStays h r ∧ AdoptsSome h r)
    (.err (.badEdgeSpec .outgoing .replToHost)) := by
  have hv : { wrapBody with muOut := [⟨6, 3, .value 0 0⟩] }.verify (built nestHistory) = .ok () := by decide +kernel
  refine ⟨built nestHistory, { wrapBody with muOut := [⟨6, 3, .value 0 0⟩] }, (List.range 4).map (20 + ·), nest_ok.1,
    nest_ok.2.1, functions_ok.1, functions_ok.2, functions_ports, allocated_range nest_ok.1 (by decide +kernel) 4, by decide +kernel, hv,
    ⟨?_, ?_, ?_, ?_⟩, fun order _ => rfl⟩
  · simp [PortsThere, PortThere, wrapBody]
  · simp [TargetsDiffer, wrapBody]
  · exact entryStays_of nest_ok.1 hv (R := [4]) (by decide +kernel) (by decide +kernel)
  · intro v hvm
    have : v = 4 := by simpa [Replacement.adopted, wrapBody] using hvm
    subst this
    decide +kernel

/-- **C78** A replacement that removes the entrypoint is accepted, and applying it panics. -/
theorem C78_entrypoint_panics : AcceptedBut
    (fun h r => PortsThere h r ∧ TargetsDiffer r ∧ NodesInside r ∧ AdoptsSome h r) .panic := by
  have hh : IsTree (built (twoBlocksHistory ++ [.setEntrypoint 7])) ∧ Valid unpackContext (built (twoBlocksHistory ++ [.setEntrypoint 7])) :=
    flows_ok (by decide +kernel) (by decide +kernel) (by decide +kernel)
  refine ⟨built (twoBlocksHistory ++ [.setEntrypoint 7]), wrapBlock, (List.range 3).map (20 + ·),
    hh.1, hh.2, beside_ok.1, beside_ok.2, beside_ports, allocated_range hh.1 (by decide +kernel) 3,
    by decide +kernel, by decide +kernel, ⟨?_, ?_, ?_, ?_⟩, fun order _ => rfl⟩
  · have e1 : 0 < (built (twoBlocksHistory ++ [.setEntrypoint 7])).outs 5 := by decide +kernel
    have e2 : 0 < (built besideHistory).outs 5 := by decide +kernel
    simpa [PortsThere, PortThere, wrapBlock] using ⟨e1, e2⟩
  · simp [TargetsDiffer, wrapBlock]
  · have e1 : Above (built besideHistory).hier.parent 5 (built besideHistory).entrypoint := up1 (by decide +kernel)
    have e2 : Above (built besideHistory).hier.parent 6 (built besideHistory).entrypoint :=
      up2 (b := 5) (by decide +kernel) (by decide +kernel)
    have e3 : 6 ≠ (built besideHistory).entrypoint := by decide +kernel
    simpa [NodesInside, wrapBlock] using ⟨e1, e2, e3⟩
  · intro v hvm
    have : v = 7 := by simpa [Replacement.adopted, wrapBlock] using hvm
    subst this
    decide +kernel

/-- **C78** A replacement that adopts a node without children is accepted, and applying it panics in debug builds. -/
theorem C78_nothing_adopted_panics : AcceptedBut
    (fun h r => PortsThere h r ∧ TargetsDiffer r ∧ NodesInside r ∧ EntryStays h r) .panic := by
  have hv : { wrapBody with adoptions := [(4, 5)] }.verify (built nestHistory) = .ok () := by decide +kernel
  refine ⟨built nestHistory, { wrapBody with adoptions := [(4, 5)] }, (List.range 4).map (20 + ·), nest_ok.1,
    nest_ok.2.1, functions_ok.1, functions_ok.2, functions_ports, allocated_range nest_ok.1 (by decide +kernel) 4, by decide +kernel, hv,
    ⟨?_, ?_, ?_, ?_⟩, fun order _ => rfl⟩
  · simp [PortsThere, PortThere, wrapBody]
  · simp [TargetsDiffer, wrapBody]
  · have e1 : Above (built functionsHistory).hier.parent 4 (built functionsHistory).entrypoint := up1 (by decide +kernel)
    have e3 : 4 ≠ (built functionsHistory).entrypoint := by decide +kernel
    simpa [NodesInside, wrapBody] using ⟨e1, e3⟩
  · exact entryStays_of nest_ok.1 hv (R := [6, 5, 4]) (by decide +kernel) (by decide +kernel)

/-- Where nothing of this is wrong: the content of the dataflow graph is in the new one. -/
theorem wrapBody_applied : ∃ g map, wrapBody.apply (built nestHistory) ((List.range 4).map (20 + ·)) id = .ok (g, map) ∧
    map.lookup 4 = some 23 ∧ g.children 23 = [5, 6] ∧ g.live 4 = false ∧ g.hier.parent 23 = some 1 := by
  have : ∃ x, wrapBody.apply (built nestHistory) ((List.range 4).map (20 + ·)) id = .ok x ∧
    x.2.lookup 4 = some 23 ∧ x.1.children 23 = [5, 6] ∧ x.1.live 4 = false ∧ x.1.hier.parent 23 = some 1 :=
    ⟨_, rfl, by decide +kernel, by decide +kernel, by decide +kernel, by decide +kernel⟩
  obtain ⟨⟨g, map⟩, h⟩ := this
  exact ⟨g, map, h⟩

end Verif.Patch
