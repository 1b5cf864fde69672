import Verif.Dataflow.AnalysisExample

/-!
# C48: where the results of the analysis are not to be trusted
-/
namespace Verif.Dataflow

open Verif.Graph Verif.Ops Verif.Passes Verif.Validate PV

set_option maxRecDepth 100000

/-- The analysis of a valid Hugr, after those calls, can finish with those results. -/
structure Analysed (C : Validate.Context) (h : Hugr Ops.Op String) (K : DFContext Nat Nat)
    (calls : List (PreCall Nat)) (inValues : List (Nat × Abs Nat)) (s : AState Nat) : Prop where
  tree : IsTree h
  links : LinksOk h
  valid : Valid C h
  finished : ∃ p0 proto facts, prepopulate h calls [] = some p0 ∧ runProto h p0 inValues = .ok proto ∧
    Run h K proto s facts ∧ Finished h K proto s

abbrev NatStarts (h : Hugr Ops.Op String) (calls : List (PreCall Nat)) :=
  Starts h (fun v w : Nat => w = v) calls []

/-- A link carries a value. -/
theorem ready_one {h : Hugr Ops.Op String} {ρ : Wires Nat} {n : Nat} {v : Val Nat} (l : Link)
    (hn : numIns (h.ops n) = 1) (hl : l ∈ h.links) (h1 : l.dst = n) (h2 : l.dstPort = 0)
    (hv : ρ l.src l.srcPort = some v) : Ready h ρ n [v] := by
  refine ⟨hn.symm, fun i w hi => ?_⟩
  cases i with
  | zero =>
    simp only [List.getElem?_cons_zero, Option.some.injEq] at hi
    subst hi
    exact ⟨l, hl, h1, h2, hv⟩
  | succ i => simp at hi

theorem ready_two {h : Hugr Ops.Op String} {ρ : Wires Nat} {n : Nat} {v w : Val Nat} (l k : Link)
    (hn : numIns (h.ops n) = 2) (hl : l ∈ h.links) (h1 : l.dst = n) (h2 : l.dstPort = 0)
    (hv : ρ l.src l.srcPort = some v) (hk : k ∈ h.links) (h3 : k.dst = n) (h4 : k.dstPort = 1)
    (hw : ρ k.src k.srcPort = some w) : Ready h ρ n [v, w] := by
  refine ⟨hn.symm, fun i x hi => ?_⟩
  match i, hi with
  | 0, hi =>
    simp only [List.getElem?_cons_zero, Option.some.injEq] at hi
    subst hi
    exact ⟨l, hl, h1, h2, hv⟩
  | 1, hi =>
    simp only [List.getElem?_cons_succ, List.getElem?_cons_zero, Option.some.injEq] at hi
    subst hi
    exact ⟨k, hk, h3, h4, hw⟩
  | i + 2, hi => simp at hi

/-! ## Functions without a body -/

def bool0 : Types.Signature := ⟨[], [bool]⟩
def bool2 : Types.Signature := ⟨[], [bool, bool]⟩

/-- `main` (1) calls the declared function 5, and the identity (6) on the result and on true. -/
def declHistory : List (Cmd Ops.Op String) :=
  [ .addNodeWithParent 1 0 (.funcDefn "main" ⟨[], bool2⟩),
    .addNodeWithParent 2 1 (.input []), .addNodeWithParent 3 1 (.output [bool, bool]),
    .addNodeWithParent 4 1 (.call ⟨[], bool0⟩ [] bool0),
    .addNodeWithParent 5 0 (.funcDecl "coin" ⟨[], bool0⟩),
    .addNodeWithParent 6 0 (.funcDefn "id" ⟨[], bool1⟩),
    .addNodeWithParent 7 6 (.input [bool]), .addNodeWithParent 8 6 (.output [bool]),
    .addNodeWithParent 9 1 (.call ⟨[], bool1⟩ [] bool1),
    .addNodeWithParent 10 0 (.const bool), .addNodeWithParent 11 1 (.loadConstant bool),
    .addNodeWithParent 12 1 (.call ⟨[], bool1⟩ [] bool1),
    .connect ⟨5, 0, 4, 0⟩, .connect ⟨4, 0, 9, 0⟩, .connect ⟨6, 0, 9, 1⟩, .connect ⟨10, 0, 11, 0⟩,
    .connect ⟨11, 0, 12, 0⟩, .connect ⟨6, 0, 12, 1⟩, .connect ⟨7, 0, 8, 0⟩, .connect ⟨9, 0, 3, 0⟩,
    .connect ⟨12, 0, 3, 1⟩, .setEntrypoint 1 ]

def declHugr : Hugr Ops.Op String := built declHistory

def declState : AState Nat := eval declHugr anaK [] 12

theorem decl_analysed : Analysed anaContext declHugr anaK [] [] declState := by
  obtain ⟨h1, h2⟩ := built_ok declHistory (by decide +kernel) (by decide +kernel)
  obtain ⟨facts, hr⟩ := eval_run declHugr anaK [] 12
  exact ⟨h1, h2, (C47_validate_iff_partial _ _ h1 h2).1 (by decide +kernel), [], [], facts, rfl, rfl, hr,
    by unfold Finished; decide +kernel⟩

theorem decl_occurs : ∃ a, Occurs declHugr anaS (NatStarts declHugr []) 6 [.sum 0 []] a ∧
    a.wires 7 0 = some (.sum 0 []) := by
  have h1 : Occurs declHugr anaS (NatStarts declHugr []) 1 [] (.start 1 1 2 []) := by
    refine .region (o := 3) (.inr ⟨.inr rfl, by decide +kernel, by decide +kernel, [], ?_, ?_⟩)
      (.inl ⟨"main", ⟨[], bool2⟩, rfl⟩) ⟨[4, 9, 11, 12], by decide +kernel⟩
    · exact List.mem_singleton.2 rfl
    · intro i v _ pre post pv he; simp at he
  have h2 := Occurs.step h1 (.leaf (n := 4) (ins := []) (outs := [.sum 0 []])
    ⟨1, by decide +kernel, .inl rfl⟩ ⟨by decide +kernel, by simp⟩
    (.external (f := 5) (args := []) (.direct (sig := ⟨[], bool0⟩) (targs := []) (inst := bool0)
      (l := ⟨5, 0, 4, 0⟩) rfl (by decide +kernel) rfl rfl)
      (fun ⟨n, sg, e⟩ => by
        have : declHugr.ops 5 = .funcDecl "coin" ⟨[], bool0⟩ := rfl
        rw [this] at e; cases e) rfl trivial))
  have h3 := Occurs.call (n := 9) (f := 6) (i := 7) (o := 8) (ins := [.sum 0 []]) (fargs := [.sum 0 []]) h2
    ⟨1, by decide +kernel, .inl rfl⟩
    (ready_one ⟨4, 0, 9, 0⟩ (by decide +kernel) (by decide +kernel) rfl rfl rfl)
    (.direct (sig := ⟨[], bool1⟩) (targs := []) (inst := bool1) (l := ⟨6, 0, 9, 1⟩) rfl
      (by decide +kernel) rfl rfl) ⟨"id", ⟨[], bool1⟩, rfl⟩ ⟨[], by decide +kernel⟩
  exact ⟨_, h3, rfl⟩

/-- **C48** (finding) The outputs of a call of a function without a body (`FuncDecl`) stay `bottom`, as
if it never returned. What depends on them is not analysed: here the input of the identity function
is reported to be always true, although it is also called with the result of the declared function,
which can be false. -/
theorem C48_declared_call_refuted : Analysed anaContext declHugr anaK [] [] declState ∧
    ∃ a, Occurs declHugr anaS (NatStarts declHugr []) 6 [.sum 0 []] a ∧
      a.wires 7 0 = some (.sum 0 []) ∧
      ¬ Describes (fun v w : Nat => w = v) (declState.inOf 8 0) (.sum 0 []) := by
  refine ⟨decl_analysed, ?_⟩
  obtain ⟨a, ha, hw⟩ := decl_occurs
  refine ⟨a, ha, hw, ?_⟩
  have : declState.inOf 8 0 = .psum [(1, [])] := by
    have h1 : (match declState.inOf 8 0 with | .psum [(1, [])] => true | _ => false) = true := by
      decide +kernel
    split at h1 <;> simp_all
  rw [this]
  simp [Describes, DescribesRows, DescribesRow]

/-! ## Functions that the analysis cannot tell -/

/-- The type of functions from booleans to booleans. -/
def boolFun : Types.Ty := functionOf bool1

/-- `main` (1) chooses one of two functions by its argument, and calls it with true; it also calls
the first of them with false. -/
def chooseHistory : List (Cmd Ops.Op String) :=
  [ .addNodeWithParent 1 0 (.funcDefn "main" ⟨[], ⟨[bool], [bool, bool]⟩⟩),
    .addNodeWithParent 2 1 (.input [bool]), .addNodeWithParent 3 1 (.output [bool, bool]),
    .addNodeWithParent 4 1 (.conditional [[], []] [] [boolFun]),
    .addNodeWithParent 5 4 (.case ⟨[], [boolFun]⟩), .addNodeWithParent 6 5 (.input []),
    .addNodeWithParent 7 5 (.output [boolFun]), .addNodeWithParent 8 5 (.loadFunction ⟨[], bool1⟩ [] bool1),
    .addNodeWithParent 9 4 (.case ⟨[], [boolFun]⟩), .addNodeWithParent 10 9 (.input []),
    .addNodeWithParent 11 9 (.output [boolFun]), .addNodeWithParent 12 9 (.loadFunction ⟨[], bool1⟩ [] bool1),
    .addNodeWithParent 13 1 (.callIndirect bool1),
    .addNodeWithParent 14 0 (.funcDefn "f" ⟨[], bool1⟩),
    .addNodeWithParent 15 14 (.input [bool]), .addNodeWithParent 16 14 (.output [bool]),
    .addNodeWithParent 17 0 (.funcDefn "g" ⟨[], bool1⟩),
    .addNodeWithParent 18 17 (.input [bool]), .addNodeWithParent 19 17 (.output [bool]),
    .addNodeWithParent 20 0 (.const bool), .addNodeWithParent 21 0 (.const bool),
    .addNodeWithParent 22 1 (.loadConstant bool), .addNodeWithParent 23 1 (.loadConstant bool),
    .addNodeWithParent 24 1 (.call ⟨[], bool1⟩ [] bool1),
    .connect ⟨2, 0, 4, 0⟩, .connect ⟨14, 0, 8, 0⟩, .connect ⟨8, 0, 7, 0⟩, .connect ⟨17, 0, 12, 0⟩,
    .connect ⟨12, 0, 11, 0⟩, .connect ⟨4, 0, 13, 0⟩, .connect ⟨22, 0, 13, 1⟩, .connect ⟨20, 0, 22, 0⟩,
    .connect ⟨21, 0, 23, 0⟩, .connect ⟨23, 0, 24, 0⟩, .connect ⟨14, 0, 24, 1⟩, .connect ⟨13, 0, 3, 0⟩,
    .connect ⟨24, 0, 3, 1⟩, .connect ⟨15, 0, 16, 0⟩, .connect ⟨18, 0, 19, 0⟩, .setEntrypoint 1 ]

def chooseHugr : Hugr Ops.Op String := built chooseHistory

/-- The constant 20 is true, 21 is false. -/
def chooseK : DFContext Nat Nat where
  load := fun _ _ e => some e
  interp := fun _ _ _ => .top
  constant := fun n => if n = 20 then .sum 1 [] else .sum 0 []

def chooseS : Sem Nat Nat where
  ext := fun _ _ _ => True
  const := fun n => if n = 20 then .sum 1 [] else .sum 0 []
  leaf := id
  external := fun _ _ _ => True
  unknown := fun _ _ _ => True

/-- What the analysis starts from: the argument of `main` is unknown. -/
def chooseProto : List (Nat × Nat × Abs Nat) := [(4, 0, .top)]

def chooseState : AState Nat := eval chooseHugr chooseK chooseProto 14

/-- Is the fact about that node? -/
def Fact.about {V : Type} (m : Nat) : Fact V → Bool
  | .out n _ _ | .inn n _ _ | .row n _ => n == m
  | _ => false

/-- Add all facts that can be derived except those about a node. -/
def evalRoundExcept (m : Nat) (h : Hugr Ops.Op String) (K : DFContext Nat Nat)
    (proto : List (Nat × Nat × Abs Nat)) (s : AState Nat) : AState Nat :=
  ((derive h K proto s).filter fun f => !f.about m).foldl (fun s f => (addFact h s f).1) s

theorem evalRoundExcept_run (m : Nat) {h : Hugr Ops.Op String} {K : DFContext Nat Nat}
    {proto : List (Nat × Nat × Abs Nat)} {s : AState Nat} {facts : List (Fact Nat)}
    (hr : Run h K proto s facts) : ∃ facts', Run h K proto (evalRoundExcept m h K proto s) facts' := by
  have h1 : ∀ fs : List (Fact Nat), fs ⊆ derive h K proto s → Run h K proto s (fs ++ facts) := by
    intro fs
    induction fs with
    | nil => intro _; exact hr
    | cons f fs ih =>
      intro hsub
      exact .derive (ih fun x hx => hsub (by simp [hx])) (hsub (by simp))
  have h2 : ∀ (fs : List (Fact Nat)) (t : AState Nat) (all : List (Fact Nat)), fs ⊆ all →
      Run h K proto t all → Run h K proto (fs.foldl (fun s f => (addFact h s f).1) t) all := by
    intro fs
    induction fs with
    | nil => intro t all _ ht; exact ht
    | cons f fs ih =>
      intro t all hsub ht
      exact ih _ all (fun x hx => hsub (by simp [hx])) (.add ht (hsub (by simp)))
  exact ⟨_, h2 _ s _ (fun f hf => List.mem_append_left _ (List.mem_filter.1 hf).1)
    (h1 _ (List.Subset.refl _))⟩

/-- The second function is loaded late. -/
def chooseLate : Nat → AState Nat
  | 0 => {}
  | k + 1 => if k < 12 then evalRoundExcept 12 chooseHugr chooseK chooseProto (chooseLate k)
      else evalRound chooseHugr chooseK chooseProto (chooseLate k)

theorem chooseLate_run (k : Nat) : ∃ facts, Run chooseHugr chooseK chooseProto (chooseLate k) facts := by
  induction k with
  | zero => exact ⟨[], .init⟩
  | succ k ih =>
    obtain ⟨facts, hr⟩ := ih
    unfold chooseLate
    split
    · exact evalRoundExcept_run 12 hr
    · exact evalRound_run hr

def chooseState' : AState Nat := chooseLate 24

theorem choose_analysed : Analysed anaContext chooseHugr chooseK [] [] chooseState ∧
    Analysed anaContext chooseHugr chooseK [] [] chooseState' := by
  obtain ⟨h1, h2⟩ := built_ok chooseHistory (by decide +kernel) (by decide +kernel)
  obtain ⟨facts, hr⟩ := eval_run chooseHugr chooseK chooseProto 14
  obtain ⟨facts', hr'⟩ := chooseLate_run 24
  have hv := (C47_validate_iff_partial anaContext _ h1 h2).1 (by decide +kernel)
  exact ⟨⟨h1, h2, hv, [], chooseProto, facts, rfl, rfl, hr, by unfold Finished; decide +kernel⟩,
    ⟨h1, h2, hv, [], chooseProto, facts', rfl, rfl, hr', by unfold Finished; decide +kernel⟩⟩

theorem choose_occurs : ∃ a, Occurs chooseHugr chooseS (NatStarts chooseHugr []) 14 [.sum 1 []] a ∧
    a.wires 15 0 = some (.sum 1 []) := by
  have h1 : Occurs chooseHugr chooseS (NatStarts chooseHugr []) 1 [.sum 0 []]
      (.start 1 1 2 [.sum 0 []]) := by
    refine .region (o := 3) (.inr ⟨.inr rfl, by decide +kernel, by decide +kernel, [], ?_, ?_⟩)
      (.inl ⟨"main", ⟨[], ⟨[bool], [bool, bool]⟩⟩, rfl⟩) ⟨[4, 13, 22, 23, 24], by decide +kernel⟩
    · exact List.mem_singleton.2 rfl
    · intro i v _ pre post pv he; simp at he
  have h2 := Occurs.step h1 (.leaf (n := 22) (ins := []) (outs := [.sum 1 []])
    ⟨1, by decide +kernel, .inl rfl⟩ ⟨by decide +kernel, by simp⟩
    (.loadConstant (t := bool) (t' := bool) (l := ⟨20, 0, 22, 0⟩) rfl (by decide +kernel) rfl rfl rfl))
  have h3 := Occurs.step h2 (.enter (n := 4) (p := 5) (i := 6) (o := 7) (ins := [.sum 0 []]) (vals := [])
    ⟨1, by decide +kernel, .inl rfl⟩
    (ready_one ⟨2, 0, 4, 0⟩ (by decide +kernel) (by decide +kernel) rfl rfl rfl)
    (.cond (rows := [[], []]) (other := []) (outs := [boolFun]) (row := []) (tag := 0) (elems := [])
      (rest := []) rfl (by decide +kernel) rfl rfl)
    ⟨[8], by decide +kernel⟩)
  have h4 := Occurs.step h3 (.leaf (n := 8) (ins := []) (outs := [.func 14 ()])
    ⟨5, by decide +kernel, .inl rfl⟩ ⟨by decide +kernel, by simp⟩
    (.loadFunction (sig := ⟨[], bool1⟩) (targs := []) (inst := bool1) (l := ⟨14, 0, 8, 0⟩) rfl
      (by decide +kernel) rfl rfl))
  have h5 := Occurs.step h4 (.leaveCase (p := 5) (c := 4) (i := 6) (o := 7) (sig := ⟨[], [boolFun]⟩)
    (outs := [.func 14 ()]) (.inl rfl) (by decide) rfl (by decide +kernel) ⟨[8], by decide +kernel⟩
    (ready_one ⟨8, 0, 7, 0⟩ (by decide +kernel) (by decide +kernel) rfl rfl rfl))
  have h6 := Occurs.call (n := 13) (f := 14) (i := 15) (o := 16) (ins := [.func 14 (), .sum 1 []])
    (fargs := [.sum 1 []]) h5 ⟨1, by decide +kernel, .inr (.inl rfl)⟩
    (ready_two ⟨4, 0, 13, 0⟩ ⟨22, 0, 13, 1⟩ (by decide +kernel) (by decide +kernel) rfl rfl rfl
      (by decide +kernel) rfl rfl rfl)
    (.indirect (sig := bool1) rfl) ⟨"f", ⟨[], bool1⟩, rfl⟩ ⟨[], by decide +kernel⟩
  exact ⟨_, h6, rfl⟩

theorem psum_of {x : Abs Nat} {k : Nat}
    (h1 : (match x with | .psum [(t, [])] => t == k | _ => false) = true) : x = .psum [(k, [])] := by
  split at h1 <;> simp_all

/-- **C48** (finding) If an indirect call may call one of several functions, the arguments are not
passed to any of them: here the input of `f` is reported to be always false, although `f` is also
chosen by `main` and then called with true. -/
theorem C48_indirect_call_refuted : Analysed anaContext chooseHugr chooseK [] [] chooseState ∧
    ∃ a, Occurs chooseHugr chooseS (NatStarts chooseHugr []) 14 [.sum 1 []] a ∧
      a.wires 15 0 = some (.sum 1 []) ∧
      ¬ Describes (fun v w : Nat => w = v) (chooseState.inOf 16 0) (.sum 1 []) := by
  refine ⟨choose_analysed.1, ?_⟩
  obtain ⟨a, ha, hw⟩ := choose_occurs
  refine ⟨a, ha, hw, ?_⟩
  rw [psum_of (x := chooseState.inOf 16 0) (k := 0) (by decide +kernel)]
  simp [Describes, DescribesRows, DescribesRow]

/-- **C48** (finding) The results depend on the order in which the rules are evaluated: the rule that
passes arguments to the target of an indirect call applies as long as only one target was found, and
what it derived stays when a second one is found. -/
theorem C48_schedule_refuted : Analysed anaContext chooseHugr chooseK [] [] chooseState ∧
    Analysed anaContext chooseHugr chooseK [] [] chooseState' ∧
    chooseState.outOf 15 0 = .psum [(0, [])] ∧ Describes (fun v w : Nat => w = v)
      (chooseState'.outOf 15 0) (.sum 1 []) := by
  refine ⟨choose_analysed.1, choose_analysed.2, psum_of (by decide +kernel), ?_⟩
  have h1 : (match chooseState'.outOf 15 0 with
      | .psum [(0, []), (1, [])] => true | .psum [(1, []), (0, [])] => true | _ => false) = true := by
    decide +kernel
  split at h1
  · rename_i h; rw [h]; simp [Describes, DescribesRows, DescribesRow]
  · rename_i h; rw [h]; simp [Describes, DescribesRows, DescribesRow]
  · simp at h1

/-! ## Starting points -/

/-- **C48** (finding) Nothing is reported for the outputs of the input node of a function that the
analysis starts from: `read_out_wire` says that no value is ever there. (The values are put on the
other ends of the links only.) -/
theorem C48_input_wire_refuted : Analysed anaContext anaHugr anaK [] [] anaState ∧
    ∃ a, Occurs anaHugr anaS (NatStarts anaHugr []) 1 [.sum 0 []] a ∧
      a.wires 2 0 = some (.sum 0 []) ∧
      ¬ Describes (fun v w : Nat => w = v) (anaState.outOf 2 0) (.sum 0 []) := by
  obtain ⟨facts, hr⟩ := eval_run anaHugr anaK [] 33
  refine ⟨⟨ana_valid.1, ana_valid.2.1, ana_valid.2.2, [], [], facts, rfl, rfl, hr, ana_finished⟩,
    _, .region (i := 2) (o := 3) (.inr ⟨.inr rfl, by decide +kernel, by decide +kernel, [],
      List.mem_singleton.2 rfl, by intro i v _ pre post pv he; simp at he⟩)
      (.inl ⟨"main", ⟨[], bool1⟩, rfl⟩) ⟨[5, 6, 19, 23, 24, 25], by decide +kernel⟩, rfl, ?_⟩
  have : anaState.outOf 2 0 = .bottom := by
    have h1 : (match anaState.outOf 2 0 with | .bottom => true | _ => false) = true := by
      decide +kernel
    split at h1 <;> simp_all
  rw [this]; simp [Describes]

/-- The identity function, as entrypoint. -/
def idHistory : List (Cmd Ops.Op String) :=
  [ .addNodeWithParent 1 0 (.funcDefn "main" ⟨[], bool1⟩),
    .addNodeWithParent 2 1 (.input [bool]), .addNodeWithParent 3 1 (.output [bool]),
    .connect ⟨2, 0, 3, 0⟩, .setEntrypoint 1 ]

def idHugr : Hugr Ops.Op String := built idHistory

/-- What the rules start from after `prepopulate_inputs` for a node, and `run` with more values. -/
def protoOf (h : Hugr Ops.Op String) (calls : List (PreCall Nat)) (inValues : List (Nat × Abs Nat)) :
    List (Nat × Nat × Abs Nat) :=
  match prepopulate h calls [] with
  | none => []
  | some p0 =>
    match runProto h p0 inValues with
    | .ok proto => proto
    | _ => []

/-- **C48** (finding) Values given for the inputs of the entrypoint with `prepopulate_inputs` are
ignored if the entrypoint is a function: `run` looks for them at the function node, where they are
not stored, and adds `top`. Given to `run` itself they are used. The documentation says that the two
are equivalent. -/
theorem C48_inputs_ignored :
    Finished idHugr anaK (protoOf idHugr [.inputs 1 [(0, newVariant 1 [])]] [])
      (eval idHugr anaK (protoOf idHugr [.inputs 1 [(0, newVariant 1 [])]] []) 5) ∧
    (eval idHugr anaK (protoOf idHugr [.inputs 1 [(0, newVariant 1 [])]] []) 5).inOf 3 0 = .top ∧
    Finished idHugr anaK (protoOf idHugr [] [(0, newVariant 1 [])])
      (eval idHugr anaK (protoOf idHugr [] [(0, newVariant 1 [])]) 5) ∧
    (eval idHugr anaK (protoOf idHugr [] [(0, newVariant 1 [])]) 5).inOf 3 0 = .psum [(1, [])] := by
  refine ⟨by unfold Finished; decide +kernel, ?_, by unfold Finished; decide +kernel,
    psum_of (by decide +kernel)⟩
  have h1 : (match (eval idHugr anaK
      (protoOf idHugr [.inputs 1 [(0, newVariant 1 [])]] []) 5).inOf 3 0 with
      | .top => true | _ => false) = true := by decide +kernel
  split at h1 <;> simp_all

end Verif.Dataflow
