import Verif.Persistent.Props

/-!
# C39: examples and refuted claims
-/
namespace Verif.Persistent

instance {ε α : Type} [DecidableEq ε] [DecidableEq α] : DecidableEq (Except ε α) := fun a b =>
  match a, b with
  | .ok a, .ok b => if h : a = b then isTrue (by rw [h]) else isFalse (by simpa using h)
  | .error a, .error b => if h : a = b then isTrue (by rw [h]) else isFalse (by simpa using h)
  | .ok _, .error _ => isFalse (by simp)
  | .error _, .ok _ => isFalse (by simp)

/-- Commits on one base (0): 1 and 2 delete node 1 of the base, 3 deletes node 5 of the base and
node 7 of commit 2, 4 deletes node 6 of the base. -/
def exampleCmds : List Cmd :=
  [.setBase 0, .commit 0 [(0, 1)] [8, 9] [], .commit 0 [(0, 1)] [8, 9] [],
    .commit 0 [(0, 5), (2, 7)] [8, 9] [], .commit 0 [(0, 6)] [8, 9] []]

/-- The store made by `exampleCmds`. -/
def exampleWorld : World :=
  [⟨0, 0, true, [], [], []⟩, ⟨0, 1, false, [(0, 1)], [8, 9], [0]⟩, ⟨0, 2, false, [(0, 1)], [8, 9], [0]⟩,
    ⟨0, 3, false, [(0, 5), (2, 7)], [8, 9], [0, 2]⟩, ⟨0, 4, false, [(0, 6)], [8, 9], [0]⟩]

theorem example_run (cmds : List Cmd) (hugrs : List PHugr)
    (h : run ⟨exampleWorld, []⟩ cmds = some ⟨exampleWorld, hugrs⟩) :
    run start (exampleCmds ++ cmds) = some ⟨exampleWorld, hugrs⟩ := by
  rw [← h]
  rfl

/-- Non-vacuity of `C39_histories`, `C39_store`, `C39_is_valid`: a history of four commits. -/
example : run start (exampleCmds ++ [.create [3], .addCommits 0 [4]]) =
    some ⟨exampleWorld, [⟨[3, 0, 2, 4], 0, 0, [(4, [])]⟩]⟩ := by
  apply example_run
  decide +kernel

/-- Non-vacuity of `C39_try_new`: a successful and an unsuccessful creation. -/
example : (∃ p, tryNew exampleWorld [1, 4] = .ok p) ∧
    tryNew exampleWorld [1, 3] = .error (.incompatibleHistory 0 1) :=
  ⟨⟨⟨[4, 1, 0], 0, 0, []⟩, by decide +kernel⟩, by decide +kernel⟩

/-- Non-vacuity of `C39_find_conflicting`. -/
example : findConflictingNode exampleWorld 0 [1, 4, 2] = some 1 ∧
    findConflictingNode exampleWorld 0 [1, 4] = none := by decide +kernel

/-- Non-vacuity of `C39_try_add_commits`: a successful and an unsuccessful addition. -/
example : (∃ p', tryAddCommits exampleWorld ⟨[1, 0], 0, 0, []⟩ [4] = (p', none)) ∧
    (tryAddCommits exampleWorld ⟨[1, 0], 0, 0, []⟩ [2]).2 = some (.incompatibleHistory 0 1) := by
  refine ⟨⟨⟨[1, 0, 4], 0, 0, [(4, [])]⟩, by decide +kernel⟩, by decide +kernel⟩

/-- Non-vacuity of `C39_try_add_replacement`: a replacement of a node of commit 1. -/
example : ∃ w' p', tryAddReplacement exampleWorld ⟨[1, 0], 0, 0, []⟩ [(0, 4), (1, 3)] [8, 9] =
    (w', p', none) ∧ p'.members = [1, 0, 5] := by
  refine ⟨_, _, rfl, ?_⟩
  decide +kernel

/-- Non-vacuity of `C39_node_status`: a deleted and a remaining node of the base. -/
example : nodeStatus exampleWorld ⟨[1, 0], 0, 0, []⟩ 0 1 = .deleted 1 ∧
    nodeStatus exampleWorld ⟨[1, 0], 0, 0, []⟩ 0 5 = .valid ∧
    nodeStatus exampleWorld ⟨[1, 0], 0, 0, []⟩ 1 8 = .replacementIO := by decide +kernel

/-- Finding. When `try_add_commit` fails, commits can have been added that conflict with the
history: the ancestors are visited in an order in which a child can come before its parent, and the
conflict is noticed at the parent. The persistent HUGR is then not a history, and `is_valid` rejects
it. -/
theorem C39_failed_addition_refuted : ∃ (cmds : List Cmd) (st : State) (p p' : PHugr) (e : Err),
    run start cmds = some st ∧ p ∈ st.hugrs ∧ tryAddCommits st.world p [3] = (p', some e) ∧
    ¬IsHistory st.world p'.members p'.base ∧
    isValid st.world p' = .error (.incompatibleHistory 0 1) := by
  refine ⟨exampleCmds ++ [.create [1]], ⟨exampleWorld, [⟨[1, 0], 0, 0, []⟩]⟩, ⟨[1, 0], 0, 0, []⟩,
    ⟨[1, 0, 2], 0, 0, [(0, [1, 2]), (2, [])]⟩, .incompatibleHistory 0 1, ?_, ?_, ?_, ?_, ?_⟩
  · apply example_run
    decide +kernel
  · exact List.mem_cons_self ..
  · decide +kernel
  · intro h
    exact h.compatible 1 (by decide) 2 (by decide) (by decide) (0, 1) (by decide) (by decide)
  · decide +kernel

/-- Finding. The ancestors are not listed in reverse topological order, as the documentation of
`get_ancestors_while` says: the base comes before its child 2. -/
theorem C39_order_refuted : ∃ (cmds : List Cmd) (st : State) (l : List Nat) (p c : Nat),
    run start cmds = some st ∧ getAncestorsWhile st.world (fun _ => true) [3] = l ∧
    p ∈ st.world.parents c ∧ [p, c].Sublist l := by
  refine ⟨exampleCmds, ⟨exampleWorld, []⟩, [3, 0, 2], 0, 2, rfl, ?_, ?_, ?_⟩
  · decide +kernel
  · decide
  · decide

/-- Finding. `try_add_replacement` does not return `UnknownParent` when a parent is missing from the
persistent HUGR but exists in the state space: it adds the parent. -/
theorem C39_unknown_parent_refuted : ∃ (cmds : List Cmd) (st : State) (p p' : PHugr) (w' : World),
    run start cmds = some st ∧ p ∈ st.hugrs ∧ 4 ∉ p.members ∧
    tryAddReplacement st.world p [(4, 0)] [8, 9] = (w', p', none) ∧ 4 ∈ p'.members := by
  refine ⟨exampleCmds ++ [.create [1]], ⟨exampleWorld, [⟨[1, 0], 0, 0, []⟩]⟩, ⟨[1, 0], 0, 0, []⟩,
    ⟨[1, 0, 4, 5], 0, 0, [(5, [])]⟩, exampleWorld ++ [⟨0, 5, false, [(4, 0)], [8, 9], [4]⟩],
    ?_, ?_, ?_, ?_, ?_⟩
  · apply example_run
    decide +kernel
  · exact List.mem_cons_self ..
  · decide
  · decide +kernel
  · decide

/-- Finding. The ancestors of a commit need not be compatible with each other: `Commit::try_new`
accepts a commit on top of the conflicting commits 1 and 2, and `from_commit` panics on it. -/
theorem C39_from_commit_panics : ∃ (cmds : List Cmd) (st : State) (c : Nat),
    run start cmds = some st ∧ c < st.world.length ∧
    tryNew st.world [c] = .error (.incompatibleHistory 0 1) := by
  refine ⟨exampleCmds ++ [.commit 0 [(1, 0)] [8, 9] [2]],
    ⟨exampleWorld ++ [⟨0, 5, false, [(1, 0)], [8, 9], [2, 1]⟩], []⟩, 5, rfl, ?_, ?_⟩
  · decide
  · decide +kernel

end Verif.Persistent
