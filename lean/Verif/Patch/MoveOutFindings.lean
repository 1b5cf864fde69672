import Verif.Patch.MoveOut
import Verif.Patch.CfgToDfgProps

/-!
# C76: what `normalize_cfg` gets wrong when it moves blocks out of a control-flow graph
-/
namespace Verif.Patch

open Verif.Graph Verif.Ops Verif.Passes Verif.Validate Verif.Dataflow

/-! ## Hugrs -/

/-- `main` takes a truth value and returns what the control-flow graph 4 gives, which starts with the block 5. -/
def mainHistory (outs entryOther : List Types.Ty) (entryRows : List (List Types.Ty)) (rest : List (Cmd Ops.Op String)) :
    List (Cmd Ops.Op String) :=
  [ .addNodeWithParent 1 0 (.funcDefn "main" ⟨[], ⟨[bool], outs⟩⟩),
    .addNodeWithParent 2 1 (.input [bool]), .addNodeWithParent 3 1 (.output outs),
    .addNodeWithParent 4 1 (.cfg ⟨[bool], outs⟩),
    .addNodeWithParent 5 4 (.dataflowBlock [bool] entryOther entryRows),
    .addNodeWithParent 6 4 (.exitBlock outs), .connect ⟨2, 0, 4, 0⟩ ] ++
  (List.range outs.length).map (fun k => .connect ⟨4, k, 3, k⟩) ++ rest ++ [ .setEntrypoint 4 ]

/-- The block 5 goes to the exit. The block 7, that nothing goes to, goes to 5. -/
def backHistory : List (Cmd Ops.Op String) := mainHistory [bool] [bool] [[]]
  [ .addNodeWithParent 7 4 (.dataflowBlock [bool] [bool] [[]]),
    .addNodeWithParent 8 5 (.input [bool]), .addNodeWithParent 9 5 (.output [sumOf [[]], bool]),
    .addNodeWithParent 10 5 (.tag 0 [[]]),
    .addNodeWithParent 11 7 (.input [bool]), .addNodeWithParent 12 7 (.output [sumOf [[]], bool]),
    .addNodeWithParent 13 7 (.tag 0 [[]]),
    .connect ⟨5, 0, 6, 0⟩, .connect ⟨7, 0, 5, 0⟩, .connect ⟨10, 0, 9, 0⟩, .connect ⟨8, 0, 9, 1⟩,
    .connect ⟨13, 0, 12, 0⟩, .connect ⟨11, 0, 12, 1⟩ ]

/-- The block 5 goes back to itself or to the block 7, which takes nothing and goes to the exit. -/
def loopHistory (outs : List Types.Ty) (rest : List (Cmd Ops.Op String)) : List (Cmd Ops.Op String) :=
  mainHistory outs [] [[bool], []] <|
  [ .addNodeWithParent 7 4 (.dataflowBlock [] outs [[]]),
    .addNodeWithParent 8 5 (.input [bool]), .addNodeWithParent 9 5 (.output [sumOf [[bool], []]]),
    .addNodeWithParent 10 5 (.tag 0 [[bool], []]),
    .addNodeWithParent 11 7 (.input []), .addNodeWithParent 12 7 (.output (sumOf [[]] :: outs)),
    .addNodeWithParent 13 7 (.tag 0 [[]]),
    .connect ⟨5, 0, 5, 0⟩, .connect ⟨5, 1, 7, 0⟩, .connect ⟨7, 0, 6, 0⟩, .connect ⟨8, 0, 10, 0⟩, .connect ⟨10, 0, 9, 0⟩,
    .connect ⟨13, 0, 12, 0⟩ ] ++ rest

/-- The last block makes both results. -/
def twoHistory : List (Cmd Ops.Op String) := loopHistory [bool, bool]
  [ .addNodeWithParent 14 7 (.tag 0 [[], []]), .connect ⟨14, 0, 12, 1⟩, .connect ⟨14, 0, 12, 2⟩ ]

/-- The last block outputs the input of `main`. -/
def outerHistory : List (Cmd Ops.Op String) := loopHistory [bool]
  [ .connect ⟨2, 1, 4, 1⟩, .connect ⟨2, 0, 12, 1⟩ ]

/-- A dataflow graph in the last block outputs the input of the first block. -/
def innerHistory : List (Cmd Ops.Op String) := loopHistory [bool]
  [ .addNodeWithParent 14 7 (.dfg ⟨[], [bool]⟩), .addNodeWithParent 15 14 (.input []),
    .addNodeWithParent 16 14 (.output [bool]), .connect ⟨8, 0, 16, 0⟩, .connect ⟨14, 0, 12, 1⟩ ]

/-- The block 5 goes to 7, which goes back to itself or to the exit. 7 uses the input of `main`, 5 does not use any. -/
def beforeHistory : List (Cmd Ops.Op String) := mainHistory [bool] [bool] [[]]
  [ .addNodeWithParent 7 4 (.dataflowBlock [bool] [] [[bool], [bool]]),
    .addNodeWithParent 8 5 (.input [bool]), .addNodeWithParent 9 5 (.output [sumOf [[]], bool]),
    .addNodeWithParent 10 5 (.tag 0 [[]]),
    .addNodeWithParent 11 7 (.input [bool]), .addNodeWithParent 12 7 (.output [sumOf [[bool], [bool]]]),
    .addNodeWithParent 13 7 (.tag 0 [[bool], [bool]]),
    .connect ⟨5, 0, 7, 0⟩, .connect ⟨7, 0, 7, 0⟩, .connect ⟨7, 1, 6, 0⟩,
    .addNodeWithParent 14 5 (.tag 0 [[], []]), .connect ⟨10, 0, 9, 0⟩, .connect ⟨14, 0, 9, 1⟩,
    .connect ⟨13, 0, 12, 0⟩, .connect ⟨2, 1, 4, 1⟩, .connect ⟨2, 0, 13, 0⟩ ]

/-! ## Lemmas -/

/-- What is above `x`, when the nodes `xs` are above it. -/
theorem above_chain {par : Nat → Option Nat} : ∀ {x : Nat} (xs : List Nat), (x :: xs).map par = xs.map some ++ [none] →
    ∀ {a}, Above par x a → a ∈ x :: xs
  | x, [], h, a, ha => by
    rcases above_cases ha with rfl | ⟨q, hq, _⟩
    · simp
    · simp only [List.map_cons, List.map_nil, List.nil_append, List.cons.injEq] at h
      rw [h.1] at hq; cases hq
  | x, y :: ys, h, a, ha => by
    simp only [List.map_cons, List.cons_append, List.cons.injEq] at h
    rcases above_cases ha with rfl | ⟨q, hq, hqa⟩
    · simp
    · rw [h.1] at hq; cases hq
      have := above_chain ys (by simpa using h.2) hqa
      exact List.mem_cons_of_mem _ this

/-- The hugrs are valid. -/
theorem flows_ok {cmds : List (Cmd Ops.Op String)}
    (hs : (run opsInfo.toOpInfo (Hugr.new opsInfo.toOpInfo .module) cmds).isSome = true)
    (hd : AllDocumented opsInfo.toOpInfo (Hugr.new opsInfo.toOpInfo .module) cmds)
    (hv : validate unpackContext (built cmds) = .ok) : IsTree (built cmds) ∧ Valid unpackContext (built cmds) := by
  obtain ⟨h1, h2⟩ := built_ok cmds hs hd
  exact ⟨h1, (C47_validate_iff_partial _ _ h1 h2).1 hv⟩

theorem back_ok : IsTree (built backHistory) ∧ Valid unpackContext (built backHistory) :=
  flows_ok (by decide +kernel) (by decide +kernel) (by decide +kernel)

theorem two_ok : IsTree (built twoHistory) ∧ Valid unpackContext (built twoHistory) :=
  flows_ok (by decide +kernel) (by decide +kernel) (by decide +kernel)

theorem outer_ok : IsTree (built outerHistory) ∧ Valid unpackContext (built outerHistory) :=
  flows_ok (by decide +kernel) (by decide +kernel) (by decide +kernel)

theorem inner_ok : IsTree (built innerHistory) ∧ Valid unpackContext (built innerHistory) :=
  flows_ok (by decide +kernel) (by decide +kernel) (by decide +kernel)

theorem before_ok : IsTree (built beforeHistory) ∧ Valid unpackContext (built beforeHistory) :=
  flows_ok (by decide +kernel) (by decide +kernel) (by decide +kernel)

/-- What a function says of a result. -/
theorem ask_eq {α : Type} (f : Hugr Ops.Op String → α) {r : Option (Hugr Ops.Op String)} {g : Hugr Ops.Op String} {v : α}
    (h1 : r = some g) (h2 : r.map f = some v) : f g = v := by
  rw [h1] at h2; exact Option.some.inj h2

theorem ask_some {r : Option (Hugr Ops.Op String)} (h : r.isSome = true) : ∃ g, r = some g := Option.isSome_iff_exists.1 h

/-- The pass gives something that is not valid for a valid Hugr whose entrypoint is a control-flow graph. -/
def GivesInvalid : Prop := ∃ (h g : Hugr Ops.Op String) (sig : Types.Signature) (d1 w1 d2 w2 : Nat),
  IsTree h ∧ Valid unpackContext h ∧ h.ops h.entrypoint = .cfg sig ∧
  h.live d1 = false ∧ h.live w1 = false ∧ h.live d2 = false ∧ h.live w2 = false ∧
  normalizeMoves h d1 w1 d2 w2 = some g ∧ ¬ Valid unpackContext g

/-! ## Findings -/

/-- **C76** When the entry block is the only block before the exit and an unreachable block goes back to it, then the
entry block becomes the exit, and the control-flow graph has no entry block: normalize_cfgs.rs:277-308 does not look
whether the block before the exit is the entry block. -/
theorem C76_entry_removed : GivesInvalid := by
  obtain ⟨g, h1⟩ := ask_some (by decide +kernel : (normalizeMoves (built backHistory) 20 21 20 21).isSome = true)
  have e1 := ask_eq (fun g => g.ops 4) (v := .cfg ⟨[bool], [bool]⟩) h1 rfl
  have e2 := ask_eq (fun g => g.ops 5) (v := .exitBlock [bool]) h1 rfl
  have e3 := ask_eq (fun g => (g.live 4, g.children 4)) (v := (true, [5, 7])) h1 (by decide +kernel)
  obtain ⟨e3, e4⟩ := Prod.mk.inj e3
  refine ⟨_, g, ⟨[bool], [bool]⟩, 20, 21, 20, 21, back_ok.1, back_ok.2, rfl, by decide +kernel, by decide +kernel, by decide +kernel,
    by decide +kernel, h1, fun hv => ?_⟩
  have := hv.children 4 e3
  unfold ChildrenOk at this
  rw [e1] at this
  obtain ⟨entry, exit, rest, other, rows, c1, c2, _⟩ := this
  rw [e4] at c1; cases c1
  rw [e2] at c2; cases c2

/-- **C76** When the last block takes at least two values less than the control-flow graph gives, then the last results
of the control-flow graph are not passed on any more: normalize_cfgs.rs:294-298 removes the ports before :322-328
moves what they are linked to. -/
theorem C76_results_removed : GivesInvalid := by
  obtain ⟨g, h1⟩ := ask_some (by decide +kernel : (normalizeMoves (built twoHistory) 20 21 20 21).isSome = true)
  have e1 := ask_eq (fun g => g.ops 3) (v := .output [bool, bool]) h1 rfl
  have e2 := ask_eq (fun g => (g.live 3, (linksTo g 3 1).length)) (v := (true, 0)) h1 (by decide +kernel)
  obtain ⟨e2, e3⟩ := Prod.mk.inj e2
  refine ⟨_, g, ⟨[bool], [bool, bool]⟩, 20, 21, 20, 21, two_ok.1, two_ok.2, rfl, by decide +kernel, by decide +kernel, by decide +kernel,
    by decide +kernel, h1, fun hv => ?_⟩
  have := hv.inDegree 3 1 (.value bool) e2 (by rw [e1]; rfl)
  rw [e3] at this
  exact absurd this (by simp [InDegreeOk])

/-- **C76** When something in the last block uses a value from outside the control-flow graph, then the result is not
valid: normalize_cfgs.rs:278-283 ignores such links, but the value must come before the new dataflow graph, and no
order says so. -/
theorem C76_order_wrong : GivesInvalid := by
  obtain ⟨g, h1⟩ := ask_some (by decide +kernel : (normalizeMoves (built outerHistory) 20 21 20 21).isSome = true)
  have e1 := ask_eq (fun g => g.ops 0) (v := .module) h1 rfl
  have e2 := ask_eq (fun g => [12, 20, 1, 0, 2].map g.hier.parent) (v := [some 20, some 1, some 0, none, some 1]) h1
    (by decide +kernel)
  have e3 := ask_eq (fun g => decide (⟨2, 0, 12, 0⟩ ∈ g.links ∧ ∀ l ∈ g.links, l.src = 2 → l.dst = 20 → False)) (v := true) h1
    (by decide +kernel)
  simp only [List.map_cons, List.map_nil, List.cons.injEq, and_true] at e2
  obtain ⟨p12, p20, p1, p0, p2⟩ := e2
  obtain ⟨hl, hno⟩ := of_decide_eq_true e3
  have p2 : g.hier.parent 2 = some 1 := by simpa using p2
  refine ⟨_, g, ⟨[bool], [bool]⟩, 20, 21, 20, 21, outer_ok.1, outer_ok.2, rfl, by decide +kernel, by decide +kernel, by decide +kernel,
    by decide +kernel, h1, fun hv => ?_⟩
  obtain ⟨kind, k1, _, P, hP, hor⟩ := hv.kinds _ hl
  have o2 := ask_eq (fun g => g.ops 2) (v := .input [bool]) h1 rfl
  unfold srcKind at k1
  simp only [o2] at k1 hP hor
  cases k1
  rw [p2] at hP; cases hP
  rcases hor with h2 | ⟨q, a, hq, hqa, ⟨h2, _⟩ | ⟨_, ⟨h2, o, ho, s1, s2, _⟩ | ⟨g', sig, _, _, _, hg, _, hop, _⟩⟩⟩
  · rw [p12] at h2; cases h2
  · cases h2
  · rw [p12] at hq; cases hq
    have := above_chain [1, 0] (by simp [p20, p1, p0]) hqa
    simp only [List.mem_cons, List.not_mem_nil, or_false] at this
    rcases this with rfl | rfl | rfl
    · exact hno o ho s1 s2
    · rw [p1] at h2; cases h2
    · rw [p0] at h2; cases h2
  · rw [p1] at hg; cases hg
    rw [e1] at hop; cases hop

/-- **C76** When something inside a node of the last block uses a value of another block, then the result is not valid:
normalize_cfgs.rs:279 looks only at the children of the block. -/
theorem C76_inner_wrong : GivesInvalid := by
  obtain ⟨g, h1⟩ := ask_some (by decide +kernel : (normalizeMoves (built innerHistory) 20 21 20 21).isSome = true)
  have e2 := ask_eq (fun g => [16, 14, 20, 1, 0, 8, 5].map g.hier.parent)
    (v := [some 14, some 20, some 1, some 0, none, some 5, some 4]) h1 (by decide +kernel)
  have e3 := ask_eq (fun g => decide (⟨8, 0, 16, 0⟩ ∈ g.links)) (v := true) h1 (by decide +kernel)
  simp only [List.map_cons, List.map_nil, List.cons.injEq, and_true] at e2
  obtain ⟨p16, p14, p20, p1, p0, p8, p5⟩ := e2
  have hl : (⟨8, 0, 16, 0⟩ : Link) ∈ g.links := of_decide_eq_true e3
  refine ⟨_, g, ⟨[bool], [bool]⟩, 20, 21, 20, 21, inner_ok.1, inner_ok.2, rfl, by decide +kernel, by decide +kernel, by decide +kernel,
    by decide +kernel, h1, fun hv => ?_⟩
  obtain ⟨kind, k1, _, P, hP, hor⟩ := hv.kinds _ hl
  simp only at hP hor
  rw [p8] at hP; cases hP
  rcases hor with h2 | ⟨q, a, hq, hqa, hor⟩
  · rw [p16] at h2; cases h2
  rw [p16] at hq; cases hq
  have := above_chain [20, 1, 0] (by simp [p14, p20, p1, p0]) hqa
  have up : ∀ x, g.hier.parent a = some x → x = 20 ∨ x = 1 ∨ x = 0 := by
    intro x hx
    simp only [List.mem_cons, List.not_mem_nil, or_false] at this
    rcases this with rfl | rfl | rfl | rfl
    · rw [p14] at hx; cases hx; simp
    · rw [p20] at hx; cases hx; simp
    · rw [p1] at hx; cases hx; simp
    · rw [p0] at hx; cases hx
  rcases hor with ⟨_, h2⟩ | ⟨_, ⟨h2, _⟩ | ⟨g', sig, _, _, _, hg, ha, _⟩⟩
  · have := up _ h2; omega
  · have := up _ h2; omega
  · rw [p5] at hg; cases hg
    have := up _ ha; omega

/-- **C76** When the entry block is moved out, and another block uses a value from outside the control-flow graph, then
the result is not valid: normalize_cfgs.rs:250-255 moves the order that the value comes before the control-flow
graph to the entry block. -/
theorem C76_entry_order_wrong : GivesInvalid := by
  obtain ⟨g, h1⟩ := ask_some (by decide +kernel : (normalizeMoves (built beforeHistory) 20 21 20 21).isSome = true)
  have e1 := ask_eq (fun g => g.ops 0) (v := .module) h1 rfl
  have e2 := ask_eq (fun g => [13, 7, 4, 1, 0, 2].map g.hier.parent) (v := [some 7, some 4, some 1, some 0, none, some 1]) h1
    (by decide +kernel)
  have e3 := ask_eq (fun g => decide (⟨2, 0, 13, 0⟩ ∈ g.links ∧ ∀ l ∈ g.links, l.src = 2 → l.dst = 4 → False)) (v := true) h1
    (by decide +kernel)
  simp only [List.map_cons, List.map_nil, List.cons.injEq, and_true] at e2
  obtain ⟨p13, p7, p4, p1, p0, p2⟩ := e2
  obtain ⟨hl, hno⟩ := of_decide_eq_true e3
  refine ⟨_, g, ⟨[bool], [bool]⟩, 20, 21, 20, 21, before_ok.1, before_ok.2, rfl, by decide +kernel, by decide +kernel, by decide +kernel,
    by decide +kernel, h1, fun hv => ?_⟩
  obtain ⟨kind, k1, _, P, hP, hor⟩ := hv.kinds _ hl
  have o2 := ask_eq (fun g => g.ops 2) (v := .input [bool]) h1 rfl
  unfold srcKind at k1
  simp only [o2] at k1 hP hor
  cases k1
  rw [p2] at hP; cases hP
  rcases hor with h2 | ⟨q, a, hq, hqa, ⟨h2, _⟩ | ⟨_, ⟨h2, o, ho, s1, s2, _⟩ | ⟨g', sig, _, _, _, hg, _, hop, _⟩⟩⟩
  · rw [p13] at h2; cases h2
  · cases h2
  · rw [p13] at hq; cases hq
    have := above_chain [4, 1, 0] (by simp [p7, p4, p1, p0]) hqa
    simp only [List.mem_cons, List.not_mem_nil, or_false] at this
    rcases this with rfl | rfl | rfl | rfl
    · rw [p7] at h2; cases h2
    · exact hno o ho s1 s2
    · rw [p1] at h2; cases h2
    · rw [p0] at h2; cases h2
  · rw [p1] at hg; cases hg
    rw [e1] at hop; cases hop

end Verif.Patch
