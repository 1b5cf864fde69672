import Verif.Dataflow.AnalysisProps

/-!
# The dataflow analysis of a Hugr: a concrete case for the theorems of C48
-/
namespace Verif.Dataflow

open Verif.Graph Verif.Ops Verif.Passes Verif.Validate PV

variable {Meta V E W : Type}

/-! ## One way to evaluate -/

/-- Add all facts that can be derived. -/
def evalRound [AbsVal V] (h : Hugr Ops.Op Meta) (K : DFContext V E)
    (proto : List (Nat × Nat × Abs V)) (s : AState V) : AState V :=
  (derive h K proto s).foldl (fun s f => (addFact h s f).1) s

def eval [AbsVal V] (h : Hugr Ops.Op Meta) (K : DFContext V E) (proto : List (Nat × Nat × Abs V)) :
    Nat → AState V
  | 0 => {}
  | k + 1 => evalRound h K proto (eval h K proto k)

theorem evalRound_run [AbsVal V] {h : Hugr Ops.Op Meta} {K : DFContext V E}
    {proto : List (Nat × Nat × Abs V)} {s : AState V} {facts : List (Fact V)}
    (hr : Run h K proto s facts) : ∃ facts', Run h K proto (evalRound h K proto s) facts' := by
  have h1 : ∀ fs : List (Fact V), fs ⊆ derive h K proto s → Run h K proto s (fs ++ facts) := by
    intro fs
    induction fs with
    | nil => intro _; exact hr
    | cons f fs ih =>
      intro hsub
      exact .derive (ih fun x hx => hsub (by simp [hx])) (hsub (by simp))
  have h2 : ∀ (fs : List (Fact V)) (t : AState V) (all : List (Fact V)), fs ⊆ all →
      Run h K proto t all → Run h K proto (fs.foldl (fun s f => (addFact h s f).1) t) all := by
    intro fs
    induction fs with
    | nil => intro t all _ ht; exact ht
    | cons f fs ih =>
      intro t all hsub ht
      exact ih _ all (fun x hx => hsub (by simp [hx])) (.add ht (hsub (by simp)))
  exact ⟨_, h2 _ s _ (List.subset_append_left _ _) (h1 _ (List.Subset.refl _))⟩

theorem eval_run [AbsVal V] (h : Hugr Ops.Op Meta) (K : DFContext V E)
    (proto : List (Nat × Nat × Abs V)) (k : Nat) : ∃ facts, Run h K proto (eval h K proto k) facts := by
  induction k with
  | zero => exact ⟨[], .init⟩
  | succ k ih => obtain ⟨facts, hr⟩ := ih; exact evalRound_run hr

/-! ## A Hugr -/

def bool1 : Types.Signature := ⟨[bool], [bool]⟩

/-- `main` (1) loads true, calls `not` (7), passes the result through a loop (19) that ends at once,
to an indirect call (24) of `not`, and through a control-flow graph (25) whose second block (28) is
not reached. -/
def anaHistory : List (Cmd Ops.Op String) :=
  [ .addNodeWithParent 1 0 (.funcDefn "main" ⟨[], bool1⟩),
    .addNodeWithParent 2 1 (.input [bool]), .addNodeWithParent 3 1 (.output [bool]),
    .addNodeWithParent 4 0 (.const bool), .addNodeWithParent 5 1 (.loadConstant bool),
    .addNodeWithParent 6 1 (.call ⟨[], bool1⟩ [] bool1),
    .addNodeWithParent 7 0 (.funcDefn "not" ⟨[], bool1⟩),
    .addNodeWithParent 8 7 (.input [bool]), .addNodeWithParent 9 7 (.output [bool]),
    .addNodeWithParent 10 7 (.conditional [[], []] [] [bool]),
    .addNodeWithParent 11 10 (.case ⟨[], [bool]⟩), .addNodeWithParent 12 11 (.input []),
    .addNodeWithParent 13 11 (.output [bool]), .addNodeWithParent 14 11 (.tag 1 [[], []]),
    .addNodeWithParent 15 10 (.case ⟨[], [bool]⟩), .addNodeWithParent 16 15 (.input []),
    .addNodeWithParent 17 15 (.output [bool]), .addNodeWithParent 18 15 (.tag 0 [[], []]),
    .addNodeWithParent 19 1 (.tailLoop [bool] [bool] []),
    .addNodeWithParent 20 19 (.input [bool]),
    .addNodeWithParent 21 19 (.output [sumOf [[bool], [bool]]]),
    .addNodeWithParent 22 19 (.tag 1 [[bool], [bool]]),
    .addNodeWithParent 23 1 (.loadFunction ⟨[], bool1⟩ [] bool1),
    .addNodeWithParent 24 1 (.callIndirect bool1),
    .addNodeWithParent 25 1 (.cfg bool1),
    .addNodeWithParent 26 25 (.dataflowBlock [bool] [] [[bool], []]),
    .addNodeWithParent 27 25 (.exitBlock [bool]),
    .addNodeWithParent 28 25 (.dataflowBlock [] [] [[bool]]),
    .addNodeWithParent 29 26 (.input [bool]),
    .addNodeWithParent 30 26 (.output [sumOf [[bool], []]]),
    .addNodeWithParent 31 26 (.tag 0 [[bool], []]),
    .addNodeWithParent 32 28 (.input []), .addNodeWithParent 33 28 (.output [sumOf [[bool]]]),
    .addNodeWithParent 34 28 (.tag 0 [[bool]]), .addNodeWithParent 35 28 (.loadConstant bool),
    .connect ⟨4, 0, 5, 0⟩, .connect ⟨5, 0, 6, 0⟩, .connect ⟨7, 0, 6, 1⟩, .connect ⟨6, 0, 19, 0⟩,
    .connect ⟨20, 0, 22, 0⟩, .connect ⟨22, 0, 21, 0⟩, .connect ⟨7, 0, 23, 0⟩,
    .connect ⟨23, 0, 24, 0⟩, .connect ⟨19, 0, 24, 1⟩, .connect ⟨24, 0, 25, 0⟩,
    .connect ⟨26, 0, 27, 0⟩, .connect ⟨26, 1, 28, 0⟩, .connect ⟨28, 0, 27, 0⟩,
    .connect ⟨29, 0, 31, 0⟩, .connect ⟨31, 0, 30, 0⟩, .connect ⟨4, 0, 35, 0⟩,
    .connect ⟨35, 0, 34, 0⟩, .connect ⟨34, 0, 33, 0⟩, .connect ⟨25, 0, 3, 0⟩,
    .connect ⟨8, 0, 10, 0⟩, .connect ⟨14, 0, 13, 0⟩, .connect ⟨18, 0, 17, 0⟩,
    .connect ⟨10, 0, 9, 0⟩, .setEntrypoint 1 ]

def anaHugr : Hugr Ops.Op String := built anaHistory

def anaContext : Validate.Context where
  types := fun _ _ => none
  defs := fun _ _ => .missing
  isPublic := fun n => n == 1
  constOk := fun _ => true

/-- The constant is true. -/
def anaK : DFContext Nat Nat where
  load := fun _ _ e => some e
  interp := fun _ _ _ => .top
  constant := fun _ => .sum 1 []

def anaS : Sem Nat Nat where
  ext := fun _ _ _ => True
  const := fun _ => .sum 1 []
  leaf := id
  external := fun _ _ _ => True
  unknown := fun _ _ _ => True

/-- The state at the end. -/
def anaState : AState Nat := eval anaHugr anaK [] 33

set_option maxRecDepth 10000

theorem ana_valid : IsTree anaHugr ∧ LinksOk anaHugr ∧ Valid anaContext anaHugr := by
  obtain ⟨h1, h2⟩ := built_ok anaHistory (by decide +kernel) (by decide +kernel)
  exact ⟨h1, h2, (C47_validate_iff_partial _ _ h1 h2).1 (by decide +kernel)⟩

theorem ana_finished : Finished anaHugr anaK [] anaState := by
  unfold Finished; decide +kernel

theorem ana_proto : prepopulate anaHugr ([] : List (PreCall Nat)) [] = some [] ∧
    runProto anaHugr ([] : List (Nat × Nat × Abs Nat)) [] = .ok [] := ⟨rfl, rfl⟩

theorem ana_covered : Covered anaHugr [] anaState := by
  have hcall : ∀ n ∈ anaHugr.nodes, match anaHugr.ops n with
      | .call _ _ inst => (anaHugr.links.all fun l =>
          !(l.dst == n && l.dstPort == inst.input.length) || l.src == 7) = true
      | .callIndirect _ => (match anaState.inOf n 0 with
        | .func f _ => f == 7
        | _ => false) = true
      | _ => True := by
    have : (anaHugr.nodes.all fun n => match anaHugr.ops n with
      | .call _ _ inst => (anaHugr.links.all fun l =>
          !(l.dst == n && l.dstPort == inst.input.length) || l.src == 7)
      | .callIndirect _ => (match anaState.inOf n 0 with
        | .func f _ => f == 7
        | _ => false)
      | _ => true) = true := by decide +kernel
    intro n hn
    have h := List.all_eq_true.1 this n hn
    revert h
    cases anaHugr.ops n <;> intro h <;> first | exact h | trivial
  have hdef : IsDefn anaHugr 7 := ⟨"not", ⟨[], bool1⟩, by rfl⟩
  refine ⟨fun n sig targs inst hn hop => ⟨7, hdef, ?_⟩, fun n sig f hn hop hin => ?_,
    fun n sig hn hop hu => ?_⟩
  · have := hcall n ((Graph.mem_nodes ana_valid.1 n).2 hn)
    rw [hop] at this
    intro l hl h1 h2
    have h3 := List.all_eq_true.1 this l hl
    simpa [h1, h2] using h3
  · have := hcall n ((Graph.mem_nodes ana_valid.1 n).2 hn)
    rw [hop, hin] at this
    rw [eq_of_beq this]; exact hdef
  · have := hcall n ((Graph.mem_nodes ana_valid.1 n).2 hn)
    rw [hop] at this
    simp only [] at this
    cases hin : anaState.inOf n 0 <;> rw [hin] at this hu <;> simp [unknownFunction] at this hu

theorem nat_desc : LawfulDesc Nat (· = ·) (fun v w : Nat => w = v) := by
  refine ⟨fun a b w h1 h2 => by rw [← h1, h2], fun a b c f w h1 h2 h3 => ?_, fun a b w h1 h2 h3 => ?_⟩
  · have h1' : (if a = b then some (a, false) else none) = some (c, f) := h1
    split at h1' <;> simp at h1'
    rw [← h1'.1]; exact h2
  · have h1' : (if a = b then some (a, false) else none) = none := h1
    split at h1' <;> simp_all

theorem ana_context : ContextWF anaK := fun _ _ _ _ => trivial

theorem ana_faithful : Faithful (fun v w : Nat => w = v) (fun _ => True) anaHugr anaK anaS :=
  ⟨rfl, fun _ _ _ e v _ _ h => by simp only [anaK, Option.some.injEq] at h; rw [← h]; exact ⟨trivial, rfl⟩,
    fun _ _ _ _ _ _ _ _ _ _ _ => by simp [anaK, Describes], fun _ _ _ _ _ _ _ => trivial,
    fun _ _ _ _ _ => by simp [anaK, AllLeaves]⟩

abbrev anaStarts : Nat → List (Val Nat) → Prop :=
  Starts anaHugr (fun v w : Nat => w = v) ([] : List (PreCall Nat)) []

/-- The hypotheses of the theorems are met by this Hugr, and there is an execution of it in which
`not` is called with true and enters its second case. -/
theorem ana_occurs : ∃ a, Occurs anaHugr anaS anaStarts 7 [.sum 1 []] a ∧ a.entered 15 := by
  have h1 : Occurs anaHugr anaS anaStarts 1 [.sum 0 []] (.start 1 1 2 [.sum 0 []]) := by
    refine .region (o := 3) (.inr ⟨.inr rfl, by decide +kernel, by decide +kernel, [], ?_, ?_⟩)
      (.inl ⟨"main", ⟨[], bool1⟩, rfl⟩) ⟨[5, 6, 19, 23, 24, 25], by decide +kernel⟩
    · exact List.mem_singleton.2 rfl
    · intro i v _ pre post pv he; simp at he
  have h2 := Occurs.step h1 (.leaf (n := 5) (ins := []) (outs := [.sum 1 []])
    ⟨1, by decide +kernel, .inl rfl⟩ ⟨by decide +kernel, by simp⟩
    (.loadConstant (t := bool) (t' := bool) (l := ⟨4, 0, 5, 0⟩) rfl (by decide +kernel) rfl rfl rfl))
  have h3 := Occurs.call (n := 6) (f := 7) (i := 8) (o := 9) (ins := [.sum 1 []]) (fargs := [.sum 1 []]) h2
    ⟨1, by decide +kernel, .inl rfl⟩ ⟨by decide +kernel, fun i v hi => ?_⟩
    (.direct (sig := ⟨[], bool1⟩) (targs := []) (inst := bool1) (l := ⟨7, 0, 6, 1⟩) rfl
      (by decide +kernel) rfl rfl) ⟨"not", ⟨[], bool1⟩, rfl⟩ ⟨[10], by decide +kernel⟩
  have h4 := Occurs.step h3 (.enter (n := 10) (p := 15) (i := 16) (o := 17) (ins := [.sum 1 []]) (vals := [])
    ⟨7, by decide +kernel, .inl rfl⟩ ⟨by decide +kernel, fun i v hi => ?_⟩
    (.cond (rows := [[], []]) (other := []) (outs := [bool]) (row := []) (tag := 1) (elems := [])
      (rest := []) rfl (by decide +kernel) rfl rfl)
    ⟨[18], by decide +kernel⟩)
  · exact ⟨_, h4, .inl rfl⟩
  · cases i with
    | zero =>
      simp only [List.getElem?_cons_zero, Option.some.injEq] at hi
      subst hi
      exact ⟨⟨8, 0, 10, 0⟩, by decide +kernel, rfl, rfl, rfl⟩
    | succ i => simp at hi
  · cases i with
    | zero =>
      simp only [List.getElem?_cons_zero, Option.some.injEq] at hi
      subst hi
      exact ⟨⟨5, 0, 6, 0⟩, by decide +kernel, rfl, rfl, rfl⟩
    | succ i => simp at hi

/-- What the theorems say of that execution. -/
example : caseReachable anaHugr anaState 15 = some true := by
  obtain ⟨a, ho, hent⟩ := ana_occurs
  obtain ⟨facts, hr⟩ := eval_run anaHugr anaK [] 33
  exact C48_case_reachable_partial natLawful.toAbsLaws nat_desc.mono ana_valid.1 ana_valid.2.2 ana_context
    (by simp [CallsAll]) (by simp) ana_proto.1 ana_proto.2 ana_faithful hr ana_finished ana_covered ho
    15 hent (by decide) ⟨[], [bool]⟩ rfl

/-- The results are not all `top`: the value returned by `main` is known. -/
example : (match anaState.inOf 3 0 with | .psum [(0, []), (1, [])] => true | _ => false) = true ∧
    tailLoopTerminates anaHugr anaState 19 = some .neverContinues ∧
    bbReachable anaHugr anaState 28 = some false := by decide +kernel

end Verif.Dataflow
