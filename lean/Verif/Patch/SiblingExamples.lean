import Verif.Patch.SiblingUse

/-!
# Property C61: examples and findings
-/
namespace Verif.Patch

open Verif.Graph Verif.Ops Verif.Passes Verif.Validate Verif.Dataflow Relation

deriving instance DecidableEq for Subgraph

/-- The two calls, as `try_from_nodes` gives them. -/
def foundCalls : Subgraph :=
  { nodes := [5, 4], inputs := [[(4, 0)], [(4, 1)]], outputs := [(5, 0), (5, 1)], functionCalls := [[(4, 2), (5, 2)]] }

theorem twice_flow : InFlow (built twiceHistory) foundCalls.nodes := by
  intro n hn
  have : n = 5 ∨ n = 4 := by simpa [foundCalls] using hn
  rcases this with rfl | rfl <;> exact ⟨1, rfl, rfl⟩

/-- `C61_validate_subgraph`: the two calls have a right boundary; without the second output it is wrong. -/
example : Bounded (built twiceHistory) foundCalls ∧ ¬ Bounded (built twiceHistory) { foundCalls with outputs := [(5, 0)] } := by
  refine ⟨((C61_validate_subgraph twice_valid.1 twice_valid.2 twice_flow (by decide +kernel)).1).1 (by decide +kernel), ?_⟩
  intro hb
  have := ((C61_validate_subgraph (s := { foundCalls with outputs := [(5, 0)] }) twice_valid.1 twice_valid.2
    twice_flow (by decide +kernel)).1).2 hb
  revert this
  decide +kernel

/-- `C61_from_nodes`: the two calls are accepted. So only values and calls cross their boundary, and they are
convex. -/
example : tryFromNodes (built twiceHistory) [4, 5] = .ok foundCalls ∧ Crossable (built twiceHistory) [4, 5] ∧
    Convex (built twiceHistory) 1 [4, 5] := by
  have hs : tryFromNodes (built twiceHistory) [4, 5] = .ok foundCalls := by decide +kernel
  have := (C61_from_nodes (p := 1) twice_valid.1 twice_valid.2 rfl (nodes := [4, 5]) (by decide) (by decide +kernel)).2.1
    (by
      intro n hn port
      by_contra hlt
      have := (C61_from_nodes (p := 1) twice_valid.1 twice_valid.2 rfl (nodes := [4, 5]) (by decide)
        (by decide +kernel)).1.2 ⟨n, hn, port, by omega⟩
      rw [hs] at this
      cases this)
  exact ⟨hs, this.1 ⟨_, hs⟩⟩

/-- `C61_from_nodes_replace`: the two calls found are replaced, and the result is valid. -/
example : ∃ g map, simpleReplace foundCalls (built twiceHistory) (built handHistory) [10, 11, 12, 13, 14, 15, 16] = .ok g map ∧
    Valid anaContext g := by
  obtain ⟨g, map, f, h1, _, _, h2⟩ := C61_from_nodes_replace (p := 1) (nodes := [4, 5]) twice_valid.1 twice_valid.2 rfl
    (by decide) (by decide +kernel)
    (by
      intro n hn
      have : n = 4 ∨ n = 5 := by simpa using hn
      rcases this with rfl | rfl <;> refine ⟨by decide +kernel, ?_⟩ <;> rintro (⟨_, e⟩ | ⟨_, e⟩) <;> cases e)
    (by decide +kernel) (show tryFromNodes (built twiceHistory) [4, 5] = .ok foundCalls by decide +kernel) hand_valid.1 hand_valid.2 rfl rfl hand_body
    (by decide +kernel) hand_unordered (fun n d hn hd => .inr hand_decls)
    (news := [10, 11, 12, 13, 14, 15, 16]) (by decide +kernel) ⟨by decide, by decide +kernel⟩
  exact ⟨g, map, h1, h2 fun x t hx hop => rfl⟩

/-- `C61_try_new`: the boundary of the two calls, with the ports of the calls among the inputs, gives them. -/
example : trySubgraph (built twiceHistory) [[(4, 0)], [(4, 1)], [(4, 2)], [(5, 2)]] [(5, 0), (5, 1)] = .ok foundCalls ∧
    Between (built twiceHistory) 1 [[(4, 0)], [(4, 1)], [(4, 2)], [(5, 2)]] [(5, 0), (5, 1)] 4 ∧
    ¬ Between (built twiceHistory) 1 [[(4, 0)], [(4, 1)], [(4, 2)], [(5, 2)]] [(5, 0), (5, 1)] 3 := by
  have hs : trySubgraph (built twiceHistory) [[(4, 0)], [(4, 1)], [(4, 2)], [(5, 2)]] [(5, 0), (5, 1)] = .ok foundCalls := by
    decide +kernel
  have hm := ((C61_try_new (p := 1) twice_valid.1 twice_valid.2 rfl (.inl (by decide)) (by decide +kernel) (by decide +kernel)
    (by decide +kernel) (by
      intro part hpart a ha b hb hf
      have : part = [(4, 0)] ∨ part = [(4, 1)] ∨ part = [(4, 2)] ∨ part = [(5, 2)] := by simpa using hpart
      rcases this with rfl | rfl | rfl | rfl <;> rw [List.mem_singleton] at ha hb <;> rw [hb, ← ha] <;> exact hf)).2.1 _ hs).1
  exact ⟨hs, (hm 4).1 (by decide), fun e => absurd ((hm 3).2 e) (by decide)⟩

/-- `C61_validate`: the two calls are accepted. -/
example : foundCalls.validate (built twiceHistory) = .ok () ∧ Convex (built twiceHistory) 1 foundCalls.nodes := by
  have hs : foundCalls.validate (built twiceHistory) = .ok () := by decide +kernel
  exact ⟨hs, ((C61_validate (p := 1) twice_valid.1 twice_valid.2 rfl (by decide +kernel) (.inl (by decide))
    (by decide +kernel)).1.1 hs).2.2.2⟩

/-! ## Findings -/

theorem no_children {l : List Nat} (hl : l = []) {a b : Nat} {r : List Nat} (he : l = a :: b :: r) : False := by
  rw [hl] at he; cases he


/-- The call 4 comes before the call 5, and both before the call 6; all of no values. -/
def orderedHistory : List (Cmd Ops.Op String) :=
  [ .addNodeWithParent 1 0 (.funcDefn "main" ⟨[], ⟨[], []⟩⟩),
    .addNodeWithParent 2 1 (.input []), .addNodeWithParent 3 1 (.output []),
    .addNodeWithParent 4 1 (.call ⟨[], ⟨[], []⟩⟩ [] ⟨[], []⟩), .addNodeWithParent 5 1 (.call ⟨[], ⟨[], []⟩⟩ [] ⟨[], []⟩),
    .addNodeWithParent 6 1 (.call ⟨[], ⟨[], []⟩⟩ [] ⟨[], []⟩), .addNodeWithParent 7 0 (.funcDecl "f" ⟨[], ⟨[], []⟩⟩),
    .connect ⟨7, 0, 4, 0⟩, .connect ⟨7, 0, 5, 0⟩, .connect ⟨7, 0, 6, 0⟩,
    .connect ⟨4, 0, 5, 1⟩, .connect ⟨4, 0, 6, 1⟩, .connect ⟨5, 0, 6, 1⟩ ]

/-- **C61, finding** `try_from_nodes` panics if two order links go into one of the nodes, even if both come from the
other nodes (`single_linked_output(..).unwrap()`). -/
theorem C61_two_orders_panics : IsTree (built orderedHistory) ∧ Valid anaContext (built orderedHistory) ∧
    Crossable (built orderedHistory) [4, 5, 6] ∧ Convex (built orderedHistory) 1 [4, 5, 6] ∧
    tryFromNodes (built orderedHistory) [4, 5, 6] = .panic := by
  obtain ⟨h1, h2⟩ := built_ok orderedHistory (by decide +kernel) (by decide +kernel)
  refine ⟨h1, (C47_validate_iff_partial _ _ h1 h2).1 (by decide +kernel), ?_, ?_, by decide +kernel⟩
  · intro l hl hx
    right
    revert hx
    have hm : l ∈ ([⟨7, 0, 4, 0⟩, ⟨7, 0, 5, 0⟩, ⟨7, 0, 6, 0⟩, ⟨4, 0, 5, 1⟩, ⟨4, 0, 6, 1⟩, ⟨5, 0, 6, 1⟩] : List Link) := by
      revert l
      decide +kernel
    clear hl
    unfold Crosses
    simp only [List.mem_cons, List.not_mem_nil, or_false] at hm
    rcases hm with rfl | rfl | rfl | rfl | rfl | rfl
    · exact fun _ => ⟨by decide, _, rfl⟩
    · exact fun _ => ⟨by decide, _, rfl⟩
    · exact fun _ => ⟨by decide, _, rfl⟩
    · exact fun hx => absurd (by decide) hx
    · exact fun hx => absurd (by decide) hx
    · exact fun hx => absurd (by decide) hx
  · intro a b c ha hb hc hab _
    exact hb (region_closed (A := [4, 5, 6]) (by decide +kernel) ha hab)

/-- `main` (1) with the call 4, and 5 whose value is not used. -/
def looseHistory : List (Cmd Ops.Op String) :=
  [ .addNodeWithParent 1 0 (.funcDefn "main" ⟨[], bool2⟩),
    .addNodeWithParent 2 1 (.input [bool, bool]), .addNodeWithParent 3 1 (.output [bool, bool]),
    .addNodeWithParent 4 1 (.call ⟨[], bool2⟩ [] bool2), .addNodeWithParent 5 1 (.tag 0 [[], []]),
    .addNodeWithParent 6 0 (.funcDecl "f" ⟨[], bool2⟩),
    .connect ⟨2, 0, 4, 0⟩, .connect ⟨2, 1, 4, 1⟩, .connect ⟨6, 0, 4, 2⟩,
    .connect ⟨4, 0, 3, 0⟩, .connect ⟨4, 1, 3, 1⟩ ]

/-- **C61, finding** `validate` rejects a subgraph that `try_from_nodes` made, if one of its nodes is not connected with
its boundary. -/
theorem C61_isolated_node_refuted : IsTree (built looseHistory) ∧ Valid anaContext (built looseHistory) ∧
    ∃ s, tryFromNodes (built looseHistory) [4, 5] = .ok s ∧ s.validate (built looseHistory) = .err .invalidNodeSet := by
  obtain ⟨h1, h2⟩ := built_ok looseHistory (by decide +kernel) (by decide +kernel)
  exact ⟨h1, (C47_validate_iff_partial _ _ h1 h2).1 (by decide +kernel),
    ⟨[4, 5], [[(4, 0)], [(4, 1)]], [(4, 0), (4, 1)], [[(4, 2)]]⟩, by decide +kernel, by decide +kernel⟩

/-- **C61, finding** If no links cross the boundary, `try_from_nodes` accepts any nodes: here a function with nodes of
the region of a DFG node inside of it. -/
theorem C61_no_shared_parent_accepted : ∃ s, tryFromNodes (built handHistory) [1, 8, 9, 10] = .ok s ∧ 1 ∈ s.nodes ∧ 10 ∈ s.nodes ∧
    (built handHistory).hier.parent 1 ≠ (built handHistory).hier.parent 10 :=
  ⟨⟨[1, 8, 9, 10], [], [], []⟩, by decide +kernel, by decide, by decide, by decide +kernel⟩

/-- The DFG node 4, the entrypoint, has neither inputs nor outputs. -/
def emptyHistory : List (Cmd Ops.Op String) :=
  [ .addNodeWithParent 1 0 (.funcDefn "main" ⟨[], ⟨[], []⟩⟩),
    .addNodeWithParent 2 1 (.input []), .addNodeWithParent 3 1 (.output []),
    .addNodeWithParent 4 1 (.dfg ⟨[], []⟩), .addNodeWithParent 5 4 (.input []), .addNodeWithParent 6 4 (.output []),
    .setEntrypoint 4 ]

/-- **C61, finding** The input and the output of a region are accepted as nodes of a subgraph. Replacing it leaves the
region without them. -/
theorem C61_input_output_accepted : IsTree (built emptyHistory) ∧ Valid anaContext (built emptyHistory) ∧
    ∃ s, tryFromNodes (built twiceHistory) [2, 3, 4, 5] = .ok s ∧ s.validate (built twiceHistory) ≠ .ok () ∧
      tryNew s (built twiceHistory) (built emptyHistory) = .ok ∧
      ∃ g map, simpleReplace s (built twiceHistory) (built emptyHistory) [10, 11, 12] = .ok g map ∧ g.children 1 = [] ∧
        ∀ C, ¬ Valid C g := by
  obtain ⟨h1, h2⟩ := built_ok emptyHistory (by decide +kernel) (by decide +kernel)
  refine ⟨h1, (C47_validate_iff_partial _ _ h1 h2).1 (by decide +kernel), ⟨[3, 5, 2, 4], [], [], [[(4, 2), (5, 2)]]⟩,
    by decide +kernel, by decide +kernel, by decide +kernel, _, _, rfl, by decide +kernel, fun C hv => ?_⟩
  obtain ⟨inp, out, rest, hc, _⟩ := hv.children 1 rfl
  exact no_children (by decide +kernel) hc

/-- The CFG node 4 has the blocks 5, with the successors 10 and the exit 6, and 10, with the successor 5. -/
def blocksHistory : List (Cmd Ops.Op String) :=
  [ .addNodeWithParent 1 0 (.funcDefn "main" ⟨[], ⟨[], []⟩⟩),
    .addNodeWithParent 2 1 (.input []), .addNodeWithParent 3 1 (.output []), .addNodeWithParent 4 1 (.cfg ⟨[], []⟩),
    .addNodeWithParent 5 4 (.dataflowBlock [] [] [[], []]), .addNodeWithParent 6 4 (.exitBlock []),
    .addNodeWithParent 7 5 (.input []), .addNodeWithParent 8 5 (.output [bool]), .addNodeWithParent 9 5 (.tag 0 [[], []]),
    .addNodeWithParent 10 4 (.dataflowBlock [] [] [[]]), .addNodeWithParent 11 10 (.input []),
    .addNodeWithParent 12 10 (.output [sumOf [[]]]), .addNodeWithParent 13 10 (.tag 0 [[]]),
    .connect ⟨9, 0, 8, 0⟩, .connect ⟨13, 0, 12, 0⟩, .connect ⟨5, 0, 10, 0⟩, .connect ⟨5, 1, 6, 0⟩, .connect ⟨10, 0, 5, 0⟩ ]

/-- **C61, finding** Basic blocks are accepted as a subgraph if the boundary has only branches other than the first
(`is_non_value_edge` looks only at the first control-flow port): then `signature` panics. -/
theorem C61_blocks_accepted : IsTree (built blocksHistory) ∧ Valid anaContext (built blocksHistory) ∧
    ∃ s, tryFromNodes (built blocksHistory) [5, 10] = .ok s ∧ s.outputs = [(5, 1)] ∧ s.validate (built blocksHistory) = .ok () ∧
      s.signature (built blocksHistory) = none := by
  obtain ⟨h1, h2⟩ := built_ok blocksHistory (by decide +kernel) (by decide +kernel)
  exact ⟨h1, (C47_validate_iff_partial _ _ h1 h2).1 (by decide +kernel), ⟨[10, 5], [], [(5, 1)], []⟩,
    by decide +kernel, rfl, by decide +kernel, by decide +kernel⟩

end Verif.Patch
