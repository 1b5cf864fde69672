import Verif.Patch.UntuplePass

/-!
# Property C67: `UntuplePass` keeps what functions return
-/
namespace Verif.Patch

open Verif.Graph Verif.Ops Verif.Passes Verif.Validate Verif.Dataflow Relation

variable {Meta : Type} {C : Validate.Context} {h : Hugr Ops.Op Meta} {alloc : Hugr Ops.Op Meta → Nat → List Nat}

/-- **C67** `UntuplePass` on a region of a valid Hugr never gives an error. If it does not panic, then the result is valid; each
function returns the same as before; the pass has removed exactly the nodes of the region that unpack a tuple made in it, and has
otherwise only removed or added nodes that make tuples.

Partial: without recursion into nested regions, and if the region is a block of a control-flow graph, its values must not be used in
other blocks. The pass can panic, see below. -/
theorem C67_untuple_partial (ht : IsTree h) (hv : Valid C h) (hf : Forgets opsInfo.toOpInfo h) (hto : TupleOps h)
    (hall : GivesUnused alloc) (debug : Bool) (parent : Option Nat) (hu : UsedInside h (parent.getD h.entrypoint)) :
    untuplePass C debug alloc h parent ≠ .rewriteError ∧
    ∀ g, untuplePass C debug alloc h parent = .ok g → IsTree g ∧ Valid C g ∧ Untuples h (parent.getD h.entrypoint) g ∧
      ∀ (W E : Type) (S : Sem W E) k args outs, Returns g S k args outs ↔ Returns h S k args outs := by
  unfold untuplePass
  cases hfind : findRewrites C debug h (parent.getD h.entrypoint) with
  | none => exact ⟨nofun, nofun⟩
  | some rws =>
    obtain ⟨g, q1, q2⟩ := findRewrites_apply ht hv hf hto hu hall hfind
    simp only [q1]
    exact ⟨nofun, fun g' e => by cases e; exact q2⟩

/-- **C67** The rewrites that `find_rewrites` gives can all be applied, one after the other: only finding them may panic. -/
theorem C67_rewrites_apply_partial (ht : IsTree h) (hv : Valid C h) (hf : Forgets opsInfo.toOpInfo h) (hto : TupleOps h)
    (hall : GivesUnused alloc) (debug : Bool) (parent : Option Nat) (hu : UsedInside h (parent.getD h.entrypoint)) :
    (∃ g, untuplePass C debug alloc h parent = .ok g) ↔ ∃ rws, findRewrites C debug h (parent.getD h.entrypoint) = some rws := by
  unfold untuplePass
  cases hfind : findRewrites C debug h (parent.getD h.entrypoint) with
  | none => exact ⟨(fun ⟨_, e⟩ => nomatch e), (fun ⟨_, e⟩ => nomatch e)⟩
  | some rws =>
    obtain ⟨g, q1, _⟩ := findRewrites_apply ht hv hf hto hu hall hfind
    exact ⟨fun _ => ⟨_, rfl⟩, fun _ => ⟨g, q1⟩⟩

/-! ## Examples -/

/-- The indices after all others. -/
def allocLast (h : Hugr Ops.Op Meta) (k : Nat) : List Nat := (List.range k).map (h.cap + ·)

theorem allocLast_unused : GivesUnused (allocLast (Meta := Meta)) := by
  intro h k ht
  refine ⟨by simp [allocLast], List.nodup_range.map fun a b e => by simpa using e, fun n hn => ?_⟩
  obtain ⟨q, _, rfl⟩ := List.mem_map.1 hn
  cases hl : h.live (h.cap + q) with
  | false => rfl
  | true => have := ht.in_range _ hl; omega

/-- A context that knows the tuples of the prelude. -/
def tupleContext : Validate.Context where
  types := fun _ _ => none
  defs := fun ext name =>
    if ext = "prelude" ∧ (name = "MakeTuple" ∨ name = "UnpackTuple") then .poly [.listType (.runtimeType .linear)] else .missing
  isPublic := fun n => n == 1
  constOk := fun _ => true

/-- `UnpackTuple::new` as an operation. -/
def unpackTupleOp (types : List Types.Ty) : Ops.Op :=
  .extensionOp "prelude" "UnpackTuple" [.list (types.map .runtime)] ⟨[sumOf [types]], types⟩

/-- Whether a node has the signature of its definition. -/
def tupleOpOk : Ops.Op → Bool
  | .extensionOp "prelude" "MakeTuple" _ sg => decide (sg.output = [sumOf [sg.input]])
  | .extensionOp "prelude" "UnpackTuple" _ sg => decide (sg.input = [sumOf [sg.output]])
  | _ => true

theorem tupleOps_of (hk : ∀ n, tupleOpOk (h.ops n) = true) : TupleOps h := by
  constructor <;> intro n a sg e <;> have := hk n <;> rw [e] at this <;> simpa [tupleOpOk] using this

theorem tupleOps_built (cmds : List (Cmd Ops.Op String)) (N : Nat) (ht : IsTree (built cmds)) (hN : (built cmds).cap = N)
    (hk : ∀ n < N, tupleOpOk ((built cmds).ops n) = true) : TupleOps (built cmds) := by
  refine tupleOps_of fun n => ?_
  by_cases hn : n < N
  · exact hk n hn
  · have hl : (built cmds).live n = false := by
      cases hl : (built cmds).live n with
      | false => rfl
      | true => have := ht.in_range _ hl; omega
    rw [forgets_built cmds n hl]; rfl

theorem valid_built (cmds : List (Cmd Ops.Op String)) {C : Validate.Context}
    (hs : (run opsInfo.toOpInfo (Hugr.new opsInfo.toOpInfo .module) cmds).isSome = true)
    (hd : AllDocumented opsInfo.toOpInfo (Hugr.new opsInfo.toOpInfo .module) cmds) (hv : validate C (built cmds) = .ok) :
    IsTree (built cmds) ∧ Valid C (built cmds) := by
  obtain ⟨h1, h2⟩ := built_ok cmds hs hd
  exact ⟨h1, (C47_validate_iff_partial _ _ h1 h2).1 hv⟩

/-- `main` (1) makes a tuple (4), unpacks it (5), makes a tuple of the values in the other order (6), unpacks this (7), and outputs the
values and the second tuple. -/
def untupleHistory : List (Cmd Ops.Op String) :=
  [ .addNodeWithParent 1 0 (.funcDefn "main" ⟨[], ⟨[bool, bool], [bool, bool, pairTy]⟩⟩),
    .addNodeWithParent 2 1 (.input [bool, bool]), .addNodeWithParent 3 1 (.output [bool, bool, pairTy]),
    .addNodeWithParent 4 1 (makeTupleOp [bool, bool]), .addNodeWithParent 5 1 (unpackTupleOp [bool, bool]),
    .addNodeWithParent 6 1 (makeTupleOp [bool, bool]), .addNodeWithParent 7 1 (unpackTupleOp [bool, bool]),
    .connect ⟨2, 0, 4, 0⟩, .connect ⟨2, 1, 4, 1⟩, .connect ⟨4, 0, 5, 0⟩, .connect ⟨5, 0, 6, 1⟩, .connect ⟨5, 1, 6, 0⟩,
    .connect ⟨6, 0, 7, 0⟩, .connect ⟨7, 0, 3, 0⟩, .connect ⟨7, 1, 3, 1⟩, .connect ⟨6, 0, 3, 2⟩ ]

theorem untuple_valid : IsTree (built untupleHistory) ∧ Valid tupleContext (built untupleHistory) :=
  valid_built _ (by decide +kernel) (by decide +kernel) (by decide +kernel)

theorem untuple_ops : TupleOps (built untupleHistory) :=
  tupleOps_built _ 8 untuple_valid.1 rfl (by decide +kernel)

/-- Whether there is a result, and its links. -/
def untupledLinks {Meta : Type} : Untupled Meta → Option (List Link)
  | .ok g => some g.links
  | _ => none

/-- Whether the pass panicked. -/
def didPanic {Meta : Type} : Untupled Meta → Bool
  | .panic => true
  | _ => false

theorem didPanic_iff {x : Untupled Meta} : didPanic x = true ↔ x = .panic := by
  cases x <;> simp [didPanic]

/-- The pass makes the links from the inputs to the outputs, and to the only tuple that is left. -/
theorem untuple_links : untupledLinks (untuplePass tupleContext true allocLast (built untupleHistory) (some 1)) =
    some [⟨2, 1, 14, 0⟩, ⟨2, 0, 14, 1⟩, ⟨14, 0, 3, 2⟩, ⟨2, 1, 3, 0⟩, ⟨2, 0, 3, 1⟩] := by decide +kernel

/-- The hypotheses of `C67_untuple_partial` are met, and there is a result. -/
example : ∃ g, untuplePass tupleContext true allocLast (built untupleHistory) (some 1) = .ok g ∧ Valid tupleContext g ∧
    ∀ (W E : Type) (S : Sem W E) k args outs, Returns g S k args outs ↔ Returns (built untupleHistory) S k args outs := by
  cases hr : untuplePass tupleContext true allocLast (built untupleHistory) (some 1) with
  | ok g =>
    obtain ⟨_, h1, _, h2⟩ := (C67_untuple_partial untuple_valid.1 untuple_valid.2 (forgets_built _) untuple_ops allocLast_unused true (some 1)
      (fun _ _ _ e => by cases e)).2 g hr
    exact ⟨g, rfl, h1, h2⟩
  | rewriteError => have := untuple_links; rw [hr] at this; cases this
  | panic => have := untuple_links; rw [hr] at this; cases this

/-! ## Panics -/

/-- `main` (1) makes a tuple (4), unpacks it (5), and outputs only the first value. -/
def unusedHistory : List (Cmd Ops.Op String) :=
  [ .addNodeWithParent 1 0 (.funcDefn "main" ⟨[], ⟨[bool, bool], [bool]⟩⟩),
    .addNodeWithParent 2 1 (.input [bool, bool]), .addNodeWithParent 3 1 (.output [bool]),
    .addNodeWithParent 4 1 (makeTupleOp [bool, bool]), .addNodeWithParent 5 1 (unpackTupleOp [bool, bool]),
    .connect ⟨2, 0, 4, 0⟩, .connect ⟨2, 1, 4, 1⟩, .connect ⟨4, 0, 5, 0⟩, .connect ⟨5, 0, 3, 0⟩ ]

/-- **C67** Finding: the pass panics on a valid Hugr if a value of an unpacked tuple is not used: the outputs of the replacement
are not those of the subgraph. -/
theorem C67_untuple_unused_panics : Valid tupleContext (built unusedHistory) ∧ TupleOps (built unusedHistory) ∧
    ∀ debug, untuplePass tupleContext debug allocLast (built unusedHistory) (some 1) = .panic := by
  have hv : IsTree (built unusedHistory) ∧ Valid tupleContext (built unusedHistory) :=
    valid_built _ (by decide +kernel) (by decide +kernel) (by decide +kernel)
  refine ⟨hv.2, tupleOps_built _ 6 hv.1 rfl (by decide +kernel), fun debug => didPanic_iff.1 ?_⟩
  cases debug <;> decide +kernel

/-- `main` (1) makes a tuple (4), unpacks it (5), and outputs the values and twice the tuple. -/
def reusedHistory : List (Cmd Ops.Op String) :=
  [ .addNodeWithParent 1 0 (.funcDefn "main" ⟨[], ⟨[bool, bool], [bool, bool, pairTy, pairTy]⟩⟩),
    .addNodeWithParent 2 1 (.input [bool, bool]), .addNodeWithParent 3 1 (.output [bool, bool, pairTy, pairTy]),
    .addNodeWithParent 4 1 (makeTupleOp [bool, bool]), .addNodeWithParent 5 1 (unpackTupleOp [bool, bool]),
    .connect ⟨2, 0, 4, 0⟩, .connect ⟨2, 1, 4, 1⟩, .connect ⟨4, 0, 5, 0⟩, .connect ⟨5, 0, 3, 0⟩, .connect ⟨5, 1, 3, 1⟩,
    .connect ⟨4, 0, 3, 2⟩, .connect ⟨4, 0, 3, 3⟩ ]

/-- **C67** Finding: the pass panics on a valid Hugr if a tuple is unpacked and used twice otherwise: it counts the links, but the
subgraph has one output for them. -/
theorem C67_untuple_reused_panics : Valid tupleContext (built reusedHistory) ∧ TupleOps (built reusedHistory) ∧
    ∀ debug, untuplePass tupleContext debug allocLast (built reusedHistory) (some 1) = .panic := by
  have hv : IsTree (built reusedHistory) ∧ Valid tupleContext (built reusedHistory) :=
    valid_built _ (by decide +kernel) (by decide +kernel) (by decide +kernel)
  refine ⟨hv.2, tupleOps_built _ 6 hv.1 rfl (by decide +kernel), fun debug => didPanic_iff.1 ?_⟩
  cases debug <;> decide +kernel

/-- A type variable. -/
def someTy : Types.Ty := .variable 0 .copyable

/-- `main` (1), which has a type parameter, makes a tuple (4), unpacks it (5), and outputs the value. -/
def genericHistory : List (Cmd Ops.Op String) :=
  [ .addNodeWithParent 1 0 (.funcDefn "main" ⟨[.runtimeType .copyable], ⟨[someTy], [someTy]⟩⟩),
    .addNodeWithParent 2 1 (.input [someTy]), .addNodeWithParent 3 1 (.output [someTy]),
    .addNodeWithParent 4 1 (makeTupleOp [someTy]), .addNodeWithParent 5 1 (unpackTupleOp [someTy]),
    .connect ⟨2, 0, 4, 0⟩, .connect ⟨4, 0, 5, 0⟩, .connect ⟨5, 0, 3, 0⟩ ]

/-- **C67** Finding: the pass panics on a valid Hugr in a function with type parameters if the tuple has values of such a type:
the replacement is a function without type parameters, and validated alone. -/
theorem C67_untuple_generic_panics : Valid tupleContext (built genericHistory) ∧ TupleOps (built genericHistory) ∧
    ∀ debug, untuplePass tupleContext debug allocLast (built genericHistory) (some 1) = .panic := by
  have hv : IsTree (built genericHistory) ∧ Valid tupleContext (built genericHistory) :=
    valid_built _ (by decide +kernel) (by decide +kernel) (by decide +kernel)
  refine ⟨hv.2, tupleOps_built _ 6 hv.1 rfl (by decide +kernel), fun debug => didPanic_iff.1 ?_⟩
  cases debug <;> decide +kernel

/-- `main` (1) makes a tuple (4) and unpacks it (5); there is an order link from the input. -/
def orderedTupleHistory : List (Cmd Ops.Op String) :=
  [ .addNodeWithParent 1 0 (.funcDefn "main" ⟨[], ⟨[bool], [bool]⟩⟩),
    .addNodeWithParent 2 1 (.input [bool]), .addNodeWithParent 3 1 (.output [bool]),
    .addNodeWithParent 4 1 (makeTupleOp [bool]), .addNodeWithParent 5 1 (unpackTupleOp [bool]),
    .connect ⟨2, 0, 4, 0⟩, .connect ⟨4, 0, 5, 0⟩, .connect ⟨5, 0, 3, 0⟩, .connect ⟨2, 1, 4, 1⟩ ]

/-- **C67** Finding: the pass panics on a valid Hugr if an order link goes to the node that makes the tuple. -/
theorem C67_untuple_ordered_panics : Valid tupleContext (built orderedTupleHistory) ∧ TupleOps (built orderedTupleHistory) ∧
    ∀ debug, untuplePass tupleContext debug allocLast (built orderedTupleHistory) (some 1) = .panic := by
  have hv : IsTree (built orderedTupleHistory) ∧ Valid tupleContext (built orderedTupleHistory) :=
    valid_built _ (by decide +kernel) (by decide +kernel) (by decide +kernel)
  refine ⟨hv.2, tupleOps_built _ 6 hv.1 rfl (by decide +kernel), fun debug => didPanic_iff.1 ?_⟩
  cases debug <;> decide +kernel

end Verif.Patch
