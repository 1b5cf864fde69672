import Verif.Dataflow.ConstFoldExample
import Verif.Dataflow.AnalysisFindings

/-!
# C49 and C50: where constant folding and dead code elimination go wrong
-/
namespace Verif.Dataflow

open Verif.Graph Verif.Ops Verif.Passes Verif.Validate PV

set_option maxRecDepth 100000

/-- The analysis of a valid Hugr for constant folding, with those inputs, can finish with those
results; the folders of the extensions are right. -/
structure FoldAnalysed (C : Validate.Context) (h : Hugr Ops.Op String) (F : Folder Nat)
    (S : Sem Nat Nat) (inputs : FoldInputs Nat) (s : AState (Handle Nat)) : Prop where
  tree : IsTree h
  valid : Valid C h
  folder : FolderSound F S
  finished : ∃ p0 proto facts, prepopulate h (foldCalls F h inputs) [] = some p0 ∧
    runProto h p0 [] = .ok proto ∧ Run h (foldContext F h) proto s facts ∧
    Finished h (foldContext F h) proto s

/-- A folder that folds nothing. -/
def noFold (hashable : Bool) (constant : Nat → CVal Nat) : Folder Nat where
  tyOf := fun _ => intTy
  hashable := fun _ => hashable
  fold := fun _ _ => []
  constant := constant

theorem noFold_sound (b : Bool) (S : Sem Nat Nat) : FolderSound (noFold b S.const) S :=
  ⟨rfl, fun _ _ _ _ _ _ e he => by simp [noFold] at he, fun _ _ _ _ _ _ _ h1 => by simp [noFold] at h1⟩

/-! ## Public functions -/

/-- A library: the public function `id` (1), and `main` (4), which calls it with true. The entrypoint
is the module. -/
def pubHistory : List (Cmd Ops.Op String) :=
  [ .addNodeWithParent 1 0 (.funcDefn "id" ⟨[], bool1⟩),
    .addNodeWithParent 2 1 (.input [bool]), .addNodeWithParent 3 1 (.output [bool]),
    .addNodeWithParent 4 0 (.funcDefn "main" ⟨[], bool0⟩),
    .addNodeWithParent 5 4 (.input []), .addNodeWithParent 6 4 (.output [bool]),
    .addNodeWithParent 7 0 (.const bool), .addNodeWithParent 8 4 (.loadConstant bool),
    .addNodeWithParent 9 4 (.call ⟨[], bool1⟩ [] bool1),
    .connect ⟨2, 0, 3, 0⟩, .connect ⟨7, 0, 8, 0⟩, .connect ⟨8, 0, 9, 0⟩, .connect ⟨1, 0, 9, 1⟩,
    .connect ⟨9, 0, 6, 0⟩ ]

def pubHugr : Hugr Ops.Op String := built pubHistory
def pubF : Folder Nat := noFold true anaS.const
def pubState : AState (Handle Nat) := eval pubHugr (foldContext pubF pubHugr) [(3, 0, .top)] 12

/-- All functions are announced. -/
theorem pub_inputs : (passInputs pubHugr : FoldInputs Nat) = [(1, []), (4, [])] := by rfl

theorem pub_analysed : FoldAnalysed anaContext pubHugr pubF anaS (passInputs pubHugr) pubState := by
  obtain ⟨h1, h2⟩ := built_ok pubHistory (by decide +kernel) (by decide +kernel)
  obtain ⟨facts, hr⟩ := eval_run pubHugr (foldContext pubF pubHugr) [(3, 0, .top)] 12
  refine ⟨h1, (C47_validate_iff_partial _ _ h1 h2).1 (by decide +kernel), noFold_sound true anaS,
    [(3, 0, .top)], [(3, 0, .top)], facts, by rw [pub_inputs]; rfl, rfl, hr,
    by unfold Finished; decide +kernel⟩

theorem pub_breaks : wiresToBreak pubF pubHugr pubState = some [⟨3, 0, (.sum 1 [], bool)⟩] := by
  have h1 : (match wiresToBreak pubF pubHugr pubState with
    | some [⟨3, 0, (.sum 1 [], t)⟩] => decide (t = bool)
    | _ => false) = true := by decide +kernel
  split at h1
  · rename_i t heq
    rw [heq, of_decide_eq_true h1]
  · cases h1

/-- **C49** (finding) `constant_fold_pass` on a library changes its public functions: the values
announced for the inputs of a function are only put on the wires to the consumers, not on the
outputs of the input node, so a function that is called in the module, always with the same
constant, is taken to be called with that constant only. Here the identity returns true
afterwards, whatever it is given. -/
theorem C49_public_function_refuted :
    FoldAnalysed anaContext pubHugr pubF anaS (passInputs pubHugr) pubState ∧
    (∃ bs, wiresToBreak pubF pubHugr pubState = some bs ∧ ∃ b ∈ bs, ∃ l ∈ pubHugr.links,
      l.dst = b.node ∧ l.dstPort = b.port ∧ ∃ a : Activation Nat,
      Occurs pubHugr anaS (FoldStarts pubHugr anaS (passInputs pubHugr)) 1 [.sum 0 []] a ∧
      a.wires l.src l.srcPort = some (.sum 0 []) ∧ anaS.value b.val.1 = .sum 1 []) ∧
    (foldAfter pubF false pubHugr (passInputs pubHugr) pubState [(10, 11)]).map (fun g =>
      g.linkedOutputs 3 0) = some [(11, 0)] := by
  refine ⟨pub_analysed, ⟨_, pub_breaks, _, List.mem_singleton.2 rfl, ⟨2, 0, 3, 0⟩, by decide +kernel, rfl,
    rfl, .start 1 1 2 [.sum 0 []], ?_, rfl, rfl⟩, ?_⟩
  · refine .region (o := 3) ⟨by decide +kernel, by decide +kernel, .inr ⟨[], ?_, by simp⟩⟩
      (.inl ⟨"id", ⟨[], bool1⟩, rfl⟩) ⟨[], by decide +kernel⟩
    rw [pub_inputs]; simp
  · rw [pub_inputs]; decide +kernel

/-! ## Constants that can not be hashed -/

def int1 : Types.Signature := ⟨[intTy], [intTy]⟩

/-- Two functions (1, 4) that call the identity (7). -/
def provHistory : List (Cmd Ops.Op String) :=
  [ .addNodeWithParent 1 0 (.funcDefn "f" ⟨[], int1⟩),
    .addNodeWithParent 2 1 (.input [intTy]), .addNodeWithParent 3 1 (.output [intTy]),
    .addNodeWithParent 4 0 (.funcDefn "g" ⟨[], int1⟩),
    .addNodeWithParent 5 4 (.input [intTy]), .addNodeWithParent 6 4 (.output [intTy]),
    .addNodeWithParent 7 0 (.funcDefn "id" ⟨[], int1⟩),
    .addNodeWithParent 8 7 (.input [intTy]), .addNodeWithParent 9 7 (.output [intTy]),
    .addNodeWithParent 10 1 (.call ⟨[], int1⟩ [] int1),
    .addNodeWithParent 11 4 (.call ⟨[], int1⟩ [] int1),
    .connect ⟨2, 0, 10, 0⟩, .connect ⟨7, 0, 10, 1⟩, .connect ⟨10, 0, 3, 0⟩,
    .connect ⟨5, 0, 11, 0⟩, .connect ⟨7, 0, 11, 1⟩, .connect ⟨11, 0, 6, 0⟩, .connect ⟨8, 0, 9, 0⟩ ]

def provHugr : Hugr Ops.Op String := built provHistory
def provInputs : FoldInputs Nat := [(1, [(0, .leaf 1)]), (4, [(0, .leaf 2)])]
def provF : Folder Nat := noFold false anaS.const
def provProto : List (Nat × Nat × Abs (Handle Nat)) :=
  [(10, 0, .value (.unhashable 12 [0] 1)), (11, 0, .value (.unhashable 12 [0] 2))]
def provState : AState (Handle Nat) := eval provHugr (foldContext provF provHugr) provProto 12

theorem prov_analysed : FoldAnalysed foldVContext provHugr provF anaS provInputs provState := by
  obtain ⟨h1, h2⟩ := built_ok provHistory (by decide +kernel) (by decide +kernel)
  obtain ⟨facts, hr⟩ := eval_run provHugr (foldContext provF provHugr) provProto 12
  exact ⟨h1, (C47_validate_iff_partial _ _ h1 h2).1 (by decide +kernel), noFold_sound false anaS,
    provProto, provProto, facts, by rfl, by rfl, hr, by unfold Finished; decide +kernel⟩

/-- All wires whose value is known are broken to the constant one. -/
theorem prov_breaks : wiresToBreak provF provHugr provState =
    some [⟨3, 0, (.leaf 1, intTy)⟩, ⟨6, 0, (.leaf 1, intTy)⟩, ⟨9, 0, (.leaf 1, intTy)⟩] := by
  have h1 : (match wiresToBreak provF provHugr provState with
    | some [⟨3, 0, (.leaf 1, t)⟩, ⟨6, 0, (.leaf 1, u)⟩, ⟨9, 0, (.leaf 1, v)⟩] =>
      decide (t = intTy ∧ u = intTy ∧ v = intTy)
    | _ => false) = true := by decide +kernel
  split at h1
  · rename_i t u v heq
    obtain ⟨rfl, rfl, rfl⟩ := of_decide_eq_true h1
    exact heq
  · cases h1

/-- The function 4, called with two, gets two from the identity. -/
theorem prov_occurs : ∃ a, Occurs provHugr anaS (FoldStarts provHugr anaS provInputs) 4 [.val 2] a ∧
    a.wires 11 0 = some (.val 2) := by
  have h1 : Occurs provHugr anaS (FoldStarts provHugr anaS provInputs) 4 [.val 2]
      (.start 4 4 5 [.val 2]) := by
    refine .region (o := 6) ⟨by decide +kernel, by decide +kernel, .inr ⟨[(0, .leaf 2)], ?_, ?_⟩⟩
      (.inl ⟨"g", ⟨[], int1⟩, rfl⟩) ⟨[11], by decide +kernel⟩
    · simp [provInputs]
    · intro i c hm v hv
      simp only [List.mem_singleton, Prod.mk.injEq] at hm
      obtain ⟨rfl, rfl⟩ := hm
      simp only [List.getElem?_cons_zero, Option.some.injEq] at hv
      rw [← hv]; rfl
  have hr : Ready provHugr (Activation.start 4 4 5 [.val 2]).wires 11 [(.val 2 : Val Nat)] :=
    ready_one ⟨5, 0, 11, 0⟩ (by decide +kernel) (by decide +kernel) rfl rfl rfl
  have hc : Calls provHugr 11 [(.val 2 : Val Nat)] 7 [.val 2] :=
    .direct (sig := ⟨[], int1⟩) (targs := []) (inst := int1) (l := ⟨7, 0, 11, 1⟩) rfl
      (by decide +kernel) rfl rfl
  have h2 := Occurs.call (n := 11) (f := 7) (i := 8) (o := 9) h1 ⟨4, by decide +kernel, .inl rfl⟩ hr hc
    ⟨"id", ⟨[], int1⟩, rfl⟩ ⟨[], by decide +kernel⟩
  have h3 := Occurs.ret (n := 11) (f := 7) (i := 8) (o := 9) (outs := [.val 2]) h1
    ⟨4, by decide +kernel, .inl rfl⟩ hr hc ⟨"id", ⟨[], int1⟩, rfl⟩ ⟨[], by decide +kernel⟩ h2
    (ready_one ⟨8, 0, 9, 0⟩ (by decide +kernel) (by decide +kernel) rfl rfl rfl) (by decide +kernel)
  exact ⟨_, h3, rfl⟩

theorem prov_kept : ∀ bs, wiresToBreak provF provHugr provState = some bs →
    InputsKept provHugr provInputs bs := by
  intro bs hbs b hb l hl h1 h2 r hr _ hio
  rw [prov_breaks] at hbs
  cases hbs
  have hb' : b.node = 3 ∨ b.node = 6 ∨ b.node = 9 := by
    simp only [List.mem_cons, List.not_mem_nil, or_false] at hb
    rcases hb with rfl | rfl | rfl <;> simp
  have hsrc : ∀ l ∈ provHugr.links, (l.dst = 3 ∨ l.dst = 6 ∨ l.dst = 9) →
      l.src = 10 ∨ l.src = 11 ∨ l.src = 8 := by decide +kernel
  have hs := hsrc l hl (by rw [h1]; exact hb')
  obtain ⟨o, rest, hio⟩ := hio
  have c0 : provHugr.children provHugr.entrypoint = [1, 4, 7] := by decide +kernel
  have c1 : provHugr.children 1 = [2, 3, 10] := by decide +kernel
  have c4 : provHugr.children 4 = [5, 6, 11] := by decide +kernel
  rcases hr with rfl | hr
  · rw [c0] at hio
    simp only [List.cons.injEq] at hio
    omega
  · simp only [provInputs, List.map_cons, List.map_nil, List.mem_cons, List.not_mem_nil, or_false] at hr
    rcases hr with rfl | rfl
    · rw [c1] at hio; simp only [List.cons.injEq] at hio; omega
    · rw [c4] at hio; simp only [List.cons.injEq] at hio; omega

/-- **C49** (finding) Two different constants that can not be hashed, given with `with_inputs` for the
same input of two functions, are confused: the values of the inputs are all named after the same
fresh node and the number of the input, not after the function. Here the two functions give one and
two to the identity; the second then returns one. -/
theorem C49_inputs_confused_refuted :
    FoldAnalysed foldVContext provHugr provF anaS provInputs provState ∧
    (∃ bs, wiresToBreak provF provHugr provState = some bs ∧ InputsKept provHugr provInputs bs ∧
      ∃ b ∈ bs, ∃ l ∈ provHugr.links, l.dst = b.node ∧ l.dstPort = b.port ∧ ∃ a : Activation Nat,
      Occurs provHugr anaS (FoldStarts provHugr anaS provInputs) 4 [.val 2] a ∧
      a.wires l.src l.srcPort = some (.val 2) ∧ anaS.value b.val.1 = .val 1) ∧
    (foldAfter provF false provHugr provInputs provState [(12, 13), (14, 15), (16, 17)]).map (fun g =>
      g.linkedOutputs 6 0) = some [(15, 0)] := by
  obtain ⟨a, ha, hw⟩ := prov_occurs
  refine ⟨prov_analysed, ⟨_, prov_breaks, prov_kept _ prov_breaks, ⟨6, 0, (.leaf 1, intTy)⟩, by simp,
    ⟨11, 0, 6, 0⟩, by decide +kernel, rfl, rfl, a, ha, hw, rfl⟩, ?_⟩
  decide +kernel

/-! ## Values of linear type -/

/-- No qubit, of a linear type. -/
def optQubit : Types.Ty := Ops.sumOf [[], [qubit]]

/-- The graph 4 makes no qubit (7), and passes its input on. -/
def linHistory : List (Cmd Ops.Op String) :=
  [ .addNodeWithParent 1 0 (.funcDefn "main" ⟨[], ⟨[bool], [optQubit, bool]⟩⟩),
    .addNodeWithParent 2 1 (.input [bool]), .addNodeWithParent 3 1 (.output [optQubit, bool]),
    .addNodeWithParent 4 1 (.dfg ⟨[bool], [optQubit, bool]⟩),
    .addNodeWithParent 5 4 (.input [bool]), .addNodeWithParent 6 4 (.output [optQubit, bool]),
    .addNodeWithParent 7 4 (.tag 0 [[], [qubit]]),
    .connect ⟨2, 0, 4, 0⟩, .connect ⟨7, 0, 6, 0⟩, .connect ⟨5, 0, 6, 1⟩, .connect ⟨4, 0, 3, 0⟩,
    .connect ⟨4, 1, 3, 1⟩, .setEntrypoint 1 ]

def linHugr : Hugr Ops.Op String := built linHistory
def linF : Folder Nat := noFold true anaS.const
def linProto : List (Nat × Nat × Abs (Handle Nat)) := [(4, 0, .top)]
def linState : AState (Handle Nat) := eval linHugr (foldContext linF linHugr) linProto 12
def linResult : Option (Hugr Ops.Op String) :=
  foldAfter linF false linHugr [] linState [(8, 9), (10, 11)]

theorem lin_analysed : FoldAnalysed foldVContext linHugr linF anaS [] linState := by
  obtain ⟨h1, h2⟩ := built_ok linHistory (by decide +kernel) (by decide +kernel)
  obtain ⟨facts, hr⟩ := eval_run linHugr (foldContext linF linHugr) linProto 12
  exact ⟨h1, (C47_validate_iff_partial _ _ h1 h2).1 (by decide +kernel), noFold_sound true anaS,
    [], linProto, facts, by rfl, by rfl, hr, by unfold Finished; decide +kernel⟩

/-- The graph 4 stays, for its second output; nothing uses its first output. -/
theorem lin_result : (match linResult with
    | some g => g.live 4 && decide (((g.ops 4).ports .outgoing)[0]? = some (.value optQubit)) &&
      decide ((linksFrom g 4 0).length = 0)
    | none => false) = true := by decide +kernel

/-- **C49** (finding) Constant folding can make a valid Hugr invalid: a wire of a linear type whose value
is a known constant, here an empty option of a qubit, is broken like any other, which leaves an
output of linear type that nothing uses if its node is needed for another output. -/
theorem C49_linear_refuted : FoldAnalysed foldVContext linHugr linF anaS [] linState ∧
    ∃ g, foldAfter linF false linHugr [] linState [(8, 9), (10, 11)] = some g ∧
      ∀ C, ¬ Valid C g := by
  refine ⟨lin_analysed, ?_⟩
  have h1 := lin_result
  unfold linResult at h1
  split at h1
  case h_2 => cases h1
  rename_i g hg
  simp only [Bool.and_eq_true, decide_eq_true_eq] at h1
  refine ⟨g, hg, fun C hv => ?_⟩
  have h2 := hv.outDegree 4 0 _ h1.1.1 h1.1.2
  rw [h1.2] at h2
  rcases h2 with h2 | h2
  · revert h2; decide +kernel
  · cases h2

/-! ## Basic blocks -/

/-- A control flow graph (4) of the blocks 5 and 7. The second block uses a boolean (11) that was made in
the first. The entrypoint is the first block. -/
def blockHistory : List (Cmd Ops.Op String) :=
  [ .addNodeWithParent 1 0 (.funcDefn "main" ⟨[], bool0⟩),
    .addNodeWithParent 2 1 (.input []), .addNodeWithParent 3 1 (.output [bool]),
    .addNodeWithParent 4 1 (.cfg bool0),
    .addNodeWithParent 5 4 (.dataflowBlock [] [] [[]]), .addNodeWithParent 6 4 (.exitBlock [bool]),
    .addNodeWithParent 7 4 (.dataflowBlock [] [bool] [[]]),
    .addNodeWithParent 8 5 (.input []), .addNodeWithParent 9 5 (.output [Ops.sumOf [[]]]),
    .addNodeWithParent 10 5 (.tag 0 [[]]), .addNodeWithParent 11 5 (.tag 1 [[], []]),
    .addNodeWithParent 12 7 (.input []), .addNodeWithParent 13 7 (.output [Ops.sumOf [[]], bool]),
    .addNodeWithParent 14 7 (.tag 0 [[]]),
    .connect ⟨10, 0, 9, 0⟩, .connect ⟨14, 0, 13, 0⟩, .connect ⟨11, 0, 13, 1⟩,
    .connect ⟨5, 0, 7, 0⟩, .connect ⟨7, 0, 6, 0⟩, .connect ⟨4, 0, 3, 0⟩, .setEntrypoint 5 ]

def blockHugr : Hugr Ops.Op String := built blockHistory

theorem block_result : (match deadCodeElim blockHugr (.defaultFor blockHugr) [] with
    | .ok g => g.live 13 && decide (((g.ops 13).ports .incoming)[1]? = some (.value bool)) &&
      decide ((linksTo g 13 1).length = 0)
    | _ => false) = true := by decide +kernel

/-- **C50** (finding) Dead code elimination with a basic block as the entrypoint breaks the other blocks: a
value that is only used in a block that the entrypoint dominates is taken to be dead. Here the
boolean that the second block outputs is removed: the Hugr is not valid any more. -/
theorem C50_block_entrypoint_refuted : IsTree blockHugr ∧ Valid foldVContext blockHugr ∧
    ∃ g, deadCodeElim blockHugr (.defaultFor blockHugr) [] = .ok g ∧ ∀ C, ¬ Valid C g := by
  obtain ⟨t1, t2⟩ := built_ok blockHistory (by decide +kernel) (by decide +kernel)
  refine ⟨t1, (C47_validate_iff_partial _ _ t1 t2).1 (by decide +kernel), ?_⟩
  have h1 := block_result
  split at h1
  case h_2 => cases h1
  rename_i g hg
  simp only [Bool.and_eq_true, decide_eq_true_eq] at h1
  refine ⟨g, hg, fun C hv => ?_⟩
  have h2 := hv.inDegree 13 1 _ h1.1.1 h1.1.2
  rw [h1.2] at h2
  cases h2

end Verif.Dataflow
