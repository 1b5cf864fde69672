import Verif.Graph.SerializeProps
import Verif.Ops.PortProps

/-!
# C25 for the operations of the specification; examples and findings
-/
namespace Verif.Graph

/-- The result of a computation that does not panic. -/
def runGet {α : Type} (d : α) : Ops.Run α → α
  | .panic => d
  | .ok a => a

/-- `Direction`, between the two models. -/
def Dir.toOps : Dir → Ops.Dir
  | .incoming => .incoming
  | .outgoing => .outgoing

/-- The operations of `Verif.Ops` (`OpType`), as the graph sees them. Operations whose port queries
panic (`Tag` operations with an invalid tag) count as having no ports: they cannot be added to a
graph. -/
def opsInfo : SerInfo Ops.Op where
  default := .module
  inputs := fun op => runGet 0 (op.portCount .incoming)
  outputs := fun op => runGet 0 (op.portCount .outgoing)
  isModule := fun op => match op with | .module => true | _ => false
  valuePorts := fun op dir => runGet 0 (op.valuePortCount dir.toOps)
  staticPort := fun op dir => runGet none (op.staticPort dir.toOps)
  otherIsOrder := fun op dir => op.otherPortKind dir.toOps == some .stateOrder
  otherPort := fun op dir => runGet none (op.otherPort dir.toOps)

theorem order_port (op : Ops.Op) (dir : Ops.Dir) (i : Nat)
    (hi : i < runGet 0 (op.portCount dir)) (hv : ¬ i < runGet 0 (op.valuePortCount dir))
    (hs : runGet none (op.staticPort dir) ≠ some i)
    (ho : op.otherPortKind dir = some .stateOrder) : runGet none (op.otherPort dir) = some i := by
  have hn : op.nonDfPortCount dir = 1 := by
    cases op <;> cases dir <;>
      simp [Ops.Op.otherPortKind, Ops.Op.otherInput, Ops.Op.otherOutput] at ho <;> rfl
  unfold Ops.Op.portCount at hi
  unfold Ops.Op.staticPort at hs
  unfold Ops.Op.otherPort
  cases hvc : op.valuePortCount dir with
  | panic => rw [hvc] at hi; simp [Ops.Run.map, runGet] at hi
  | ok n =>
    rw [hvc] at hi hv hs
    simp only [Ops.Run.map, runGet, hn] at hi hv hs
    simp only [ho, hn, Option.isSome_some, le_refl, and_self, if_true, runGet]
    cases dir with
    | incoming =>
      rw [Ops.tag_static]
      simp only [true_and]
      cases hk : op.staticPortKind .incoming with
      | none => rw [hk] at hi; simp at hi ⊢; omega
      | some k => rw [hk] at hi hs; simp at hi hs ⊢; omega
    | outgoing =>
      have hst : op.staticPortKind .outgoing = none := by
        cases op <;> simp [Ops.Op.otherPortKind, Ops.Op.otherOutput] at ho <;> rfl
      rw [hst] at hi
      simp at hi ⊢; omega

/-- **C25** The law holds for every operation. -/
theorem C25_ops_law : opsInfo.Law := by
  refine ⟨?_, ?_, ?_⟩
  · intro op h
    cases op <;> simp [opsInfo] at h
    exact ⟨rfl, rfl⟩
  · intro op i hi hv hs ho
    exact order_port op .incoming i hi hv hs (by simpa [opsInfo, Dir.toOps] using ho)
  · intro op i hi hv hs ho
    exact order_port op .outgoing i hi hv hs (by simpa [opsInfo, Dir.toOps] using ho)

/-- **C25** Every Hugr over the operations of the specification that was built by a documented history
and whose nodes have the ports of their operations survives being written and read. -/
theorem C25_history_round_trip {Meta : Type} (cmds : List (Cmd Ops.Op Meta)) (h : Hugr Ops.Op Meta)
    (hd : AllDocumented opsInfo.toOpInfo (Hugr.new opsInfo.toOpInfo .module) cmds)
    (hr : run opsInfo.toOpInfo (Hugr.new opsInfo.toOpInfo .module) cmds = some h)
    (hpm : PortsMatch opsInfo.toOpInfo h) (hmod : h.ops h.moduleRoot = .module) :
    ∃ s h', h.serialize opsInfo = some s ∧ deserialize opsInfo s = .ok h' ∧
      Renumbered h (h.descendants h.moduleRoot) h' ∧
      (∀ i x : Nat, (h.descendants h.moduleRoot)[i]? = some x → h'.metadata i = h.metadata x) := by
  obtain ⟨ht, hl⟩ := C20_tree_partial opsInfo.toOpInfo .module cmds h hr hd
  obtain ⟨s, h', h1, h2, -, h3, h4, -, -⟩ := C25_round_trip opsInfo C25_ops_law h ht hl hpm
    (by rw [hmod]; rfl)
  exact ⟨s, h', h1, h2, h3, h4⟩

/-! ## Example -/

/-- A function calling another one, with an order edge; nodes removed on the way. -/
def serHistory : List (Cmd Ops.Op String) :=
  let unit : Types.Ty := .sumUnit 1
  let sig : Types.PolyFunc := ⟨[], ⟨[unit], [unit]⟩⟩
  [ .addNodeWithParent 1 0 (.funcDecl "old" sig),
    .addNodeWithParent 2 0 (.funcDefn "main" sig),
    .addNodeWithParent 3 2 (.input [unit]),
    .addNodeWithParent 4 2 (.output [unit]),
    .addNodeWithParent 5 2 (.call sig [] ⟨[unit], [unit]⟩),
    .removeNode 1,
    .addNodeWithParent 1 0 (.funcDecl "new" sig),
    .connect ⟨1, 0, 5, 1⟩, .connect ⟨3, 0, 5, 0⟩, .connect ⟨5, 0, 4, 0⟩, .connect ⟨3, 1, 5, 2⟩,
    .setMetadata 5 "name" "call", .setEntrypoint 2 ]

example : AllDocumented opsInfo.toOpInfo (Hugr.new opsInfo.toOpInfo .module) serHistory := by
  decide +kernel

example : (run opsInfo.toOpInfo (Hugr.new opsInfo.toOpInfo .module) serHistory).map (fun h =>
    (h.nodes.all (fun n => h.ins n == opsInfo.inputs (h.ops n) && h.outs n == opsInfo.outputs (h.ops n)),
      h.descendants 0)) = some (true, [0, 2, 1, 3, 4, 5]) := by rfl

/-- What is written. -/
example : ((run opsInfo.toOpInfo (Hugr.new opsInfo.toOpInfo .module) serHistory).bind
    (fun h => h.serialize opsInfo)).map (fun s =>
      (s.nodes.map Prod.fst, s.edges, s.metadata, s.entrypoint)) =
    some ([0, 0, 0, 1, 1, 1],
      [((2, some 0), (5, some 1)), ((3, some 0), (5, some 0)), ((3, none), (5, none)),
        ((5, some 0), (4, some 0))],
      some [none, none, none, none, none, some [("name", "call")]], some 1) := by rfl

/-! ## Findings -/

/-- **C25** Finding: a node with more ports than its operation (made by `add_ports`; `validate`
would reject it) is written without complaint, and the link of the extra port is read back as a link
of the order port. -/
theorem C25_extra_port_refuted :
    ∃ (h h' : Hugr Ops.Op String) (s : SerHugr Ops.Op String),
      run opsInfo.toOpInfo (Hugr.new opsInfo.toOpInfo .module)
        [.addNodeWithParent 1 0 (.input []), .addNodeWithParent 2 0 (.output []),
          .addPorts 1 .outgoing 2, .connect ⟨1, 2, 2, 0⟩] = some h ∧
      h.serialize opsInfo = some s ∧ deserialize opsInfo s = .ok h' ∧
      h.linkedInputs 1 0 = [] ∧ h.linkedInputs 1 2 = [(2, 0)] ∧
      h'.linkedInputs 1 0 = [(2, 0)] ∧ h'.linkedInputs 1 2 = [] :=
  ⟨_, _, _, rfl, rfl, rfl, rfl, rfl, rfl, rfl⟩

/-- **C25** Finding: if the operation has no order port, what was written cannot be read: reading
panics instead of returning an error. -/
theorem C25_read_panics :
    ∃ (h : Hugr Ops.Op String) (s : SerHugr Ops.Op String),
      run opsInfo.toOpInfo (Hugr.new opsInfo.toOpInfo .module)
        [.addNodeWithParent 1 0 (.const (.sumUnit 1)), .addNodeWithParent 2 0 (.output []),
          .addPorts 1 .outgoing 2, .connect ⟨1, 2, 2, 0⟩] = some h ∧
      h.serialize opsInfo = some s ∧ deserialize opsInfo s = .panic :=
  ⟨_, _, rfl, rfl, rfl⟩

/-- **C25** Finding: writing a Hugr with a node that does not reach the module root panics, although
the conversion can return an error. -/
theorem C25_write_panics :
    ∃ h : Hugr Ops.Op String,
      run opsInfo.toOpInfo (Hugr.new opsInfo.toOpInfo .module)
        [.addNodeWithParent 1 0 (.dfg ⟨[], []⟩), .addNodeWithParent 2 1 (.input []),
          .removeNode 1] = some h ∧
      h.serialize opsInfo = none :=
  ⟨_, rfl, rfl⟩

/-- **C25** Finding: a file in which a node names a parent that does not exist is accepted. -/
theorem C25_unknown_parent_accepted :
    ∃ h : Hugr Ops.Op String,
      deserialize opsInfo { nodes := [(0, .module), (7, .input [])], edges := [], metadata := none,
                            entrypoint := none } = .ok h ∧
      h.live 1 = true ∧ h.hier.parent 1 = some 7 ∧ h.live 7 = false :=
  ⟨_, rfl, rfl, rfl, rfl⟩

/-- **C25** Finding: reading a file without nodes panics. -/
theorem C25_empty_panics (s : SerHugr Ops.Op String) (hs : s.nodes = []) :
    deserialize opsInfo s = .panic := by
  unfold deserialize; rw [hs]

end Verif.Graph
