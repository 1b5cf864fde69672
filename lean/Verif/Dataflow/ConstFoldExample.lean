import Verif.Dataflow.AnalysisExample
import Verif.Dataflow.DeadCodeSimProps

/-!
# Constant folding: a concrete case for the theorems of C49 and C50
-/
namespace Verif.Dataflow

open Verif.Graph Verif.Ops Verif.Passes Verif.Validate PV

set_option maxRecDepth 100000

def intTy : Types.Ty := .ext "arith" "int" [] .copyable

/-- `main` (1) doubles the constant two, and adds its input to that. There is a graph (8) whose result
is not used. -/
def foldHistory : List (Cmd Ops.Op String) :=
  [ .addNodeWithParent 1 0 (.funcDefn "main" ⟨[], ⟨[intTy], [intTy]⟩⟩),
    .addNodeWithParent 2 1 (.input [intTy]), .addNodeWithParent 3 1 (.output [intTy]),
    .addNodeWithParent 4 0 (.const intTy), .addNodeWithParent 5 1 (.loadConstant intTy),
    .addNodeWithParent 6 1 (.extensionOp "arith" "double" [] ⟨[intTy], [intTy]⟩),
    .addNodeWithParent 7 1 (.extensionOp "arith" "add" [] ⟨[intTy, intTy], [intTy]⟩),
    .addNodeWithParent 8 1 (.dfg ⟨[intTy], [intTy]⟩), .addNodeWithParent 9 8 (.input [intTy]),
    .addNodeWithParent 10 8 (.output [intTy]),
    .connect ⟨4, 0, 5, 0⟩, .connect ⟨5, 0, 6, 0⟩, .connect ⟨6, 0, 7, 0⟩, .connect ⟨2, 0, 7, 1⟩,
    .connect ⟨7, 0, 3, 0⟩, .connect ⟨2, 0, 8, 0⟩, .connect ⟨9, 0, 10, 0⟩, .setEntrypoint 1 ]

def foldHugr : Hugr Ops.Op String := built foldHistory

def foldVContext : Validate.Context where
  types := fun _ i => some ⟨[], if i = "qubit" then .explicit .linear else .explicit .copyable⟩
  defs := fun _ _ => .poly []
  isPublic := fun n => n == 1
  constOk := fun _ => true

/-- The folder knows how to double. -/
def foldF : Folder Nat where
  tyOf := fun _ => intTy
  hashable := fun _ => true
  fold := fun n known => if n = 6 then match known with
    | [(0, (.leaf k, _))] => [(0, (.leaf (2 * k), intTy))]
    | _ => [] else []
  constant := fun _ => .leaf 2

/-- What the operations do. -/
def foldS : Sem Nat Nat where
  ext := fun n ins outs => (n = 6 ∧ ∃ k, ins = [.val k] ∧ outs = [.val (2 * k)]) ∨
    n = 7 ∧ ∃ k l, ins = [.val k, .val l] ∧ outs = [.val (k + l)]
  const := fun _ => .leaf 2
  leaf := id
  external := fun _ _ _ => False
  unknown := fun _ _ _ => False

def foldState : AState (Handle Nat) :=
  eval foldHugr (foldContext foldF foldHugr) [(7, 1, .top), (8, 0, .top)] 12

theorem fold_valid : IsTree foldHugr ∧ Valid foldVContext foldHugr := by
  obtain ⟨h1, h2⟩ := built_ok foldHistory (by decide +kernel) (by decide +kernel)
  exact ⟨h1, (C47_validate_iff_partial _ _ h1 h2).1 (by decide +kernel)⟩

theorem fold_folder : FolderSound foldF foldS := by
  refine ⟨rfl, ?_, ?_⟩
  · intro n known ins outs hext hk e he v hv
    simp only [foldF] at he
    split at he
    case isFalse => simp at he
    rename_i hn
    subst hn
    split at he
    case h_2 => simp at he
    rename_i k t
    simp only [List.mem_singleton] at he
    subst he
    rcases hext with ⟨_, j, rfl, rfl⟩ | ⟨h7, _⟩
    · have := hk (0, (.leaf k, t)) (by simp)
      simp only [List.getElem?_cons_zero, Sem.value, foldS, id, Option.some.injEq, Conc.val.injEq] at this
      simp only [List.getElem?_cons_zero, Option.some.injEq] at hv
      subst this
      rw [← hv]; rfl
    · simp at h7
  · intro n known known' hs p c c' h1 h2
    simp only [foldF] at h1 h2
    split at h1
    case isFalse => simp at h1
    rename_i hn
    rw [if_pos hn] at h2
    split at h1
    case h_2 => simp at h1
    split at h2
    case h_2 => simp at h2
    simp only [List.singleton_sublist, List.mem_singleton, Prod.mk.injEq, CVal.leaf.injEq, true_and] at hs
    simp only [List.mem_singleton, Prod.mk.injEq] at h1 h2
    rw [h1.2, h2.2, hs.1]

theorem fold_proto : runProto foldHugr ([] : List (Nat × Nat × Abs (Handle Nat))) [] =
    .ok [(7, 1, .top), (8, 0, .top)] := rfl

theorem fold_finished : Finished foldHugr (foldContext foldF foldHugr) [(7, 1, .top), (8, 0, .top)]
    foldState := by
  unfold Finished; decide +kernel

theorem fold_covered : Covered foldHugr (foldCalls foldF foldHugr []) foldState := by
  have : (foldHugr.nodes.all fun n => match foldHugr.ops n with
      | .call .. => false
      | .callIndirect .. => false
      | _ => true) = true := by decide +kernel
  have key : ∀ n, foldHugr.live n = true → (∀ a b c, foldHugr.ops n ≠ .call a b c) ∧
      ∀ a, foldHugr.ops n ≠ .callIndirect a := by
    intro n hn
    have h := List.all_eq_true.1 this n ((Graph.mem_nodes fold_valid.1 n).2 hn)
    constructor
    · intro a b c hc; rw [hc] at h; cases h
    · intro a hc; rw [hc] at h; cases h
  exact ⟨fun n _ _ _ hn hop => absurd hop ((key n hn).1 _ _ _),
    fun n _ _ hn hop => absurd hop ((key n hn).2 _), fun n _ hn hop => absurd hop ((key n hn).2 _)⟩

/-- The wire from the doubling (6) is broken: its value is four. -/
theorem fold_breaks : wiresToBreak foldF foldHugr foldState = some [⟨7, 0, (.leaf 4, intTy)⟩] := by
  have h1 : (match wiresToBreak foldF foldHugr foldState with
    | some [⟨7, 0, (.leaf 4, t)⟩] => decide (t = intTy)
    | _ => false) = true := by decide +kernel
  split at h1
  · rename_i t heq
    rw [heq, of_decide_eq_true h1]
  · cases h1

theorem fold_kept : ∀ bs, wiresToBreak foldF foldHugr foldState = some bs →
    InputsKept foldHugr [] bs := by
  intro bs hbs b hb l hl h1 h2 r hr _ hio
  rw [fold_breaks] at hbs
  cases hbs
  simp only [List.mem_singleton] at hb
  subst hb
  obtain ⟨o, rest, hio⟩ := hio
  have hlink : ∀ l ∈ foldHugr.links, l.dst = 7 → l.dstPort = 0 → l.src = 6 := by decide +kernel
  rw [hlink l hl h1 h2] at hio
  have : foldHugr.children 1 = [2, 3, 5, 6, 7, 8] := by decide +kernel
  simp only [List.map_nil, List.not_mem_nil, or_false] at hr
  have he : foldHugr.entrypoint = 1 := by decide +kernel
  rw [hr, he, this] at hio
  simp at hio

theorem fold_closed (P : Nat → Prop) : foldS.Closed P := by
  refine ⟨?_, fun _ _ _ h => h.elim, fun _ _ _ h => h.elim⟩
  rintro n ins outs (⟨_, k, rfl, rfl⟩ | ⟨_, k, l, rfl, rfl⟩) _ <;> simp [FuncsInAll, FuncsIn]

/-- The folded Hugr. -/
def foldResult : Option (Hugr Ops.Op String) := foldAfter foldF false foldHugr [] foldState [(11, 12)]

/-- The doubling, its constant and the unused graph are gone; the addition gets the new constant. -/
theorem fold_result : foldResult.map (fun g => (g.nodes, g.links)) =
    some ([0, 1, 2, 3, 4, 7, 11, 12],
      [⟨2, 0, 7, 1⟩, ⟨7, 0, 3, 0⟩, ⟨11, 0, 12, 0⟩, ⟨12, 0, 7, 0⟩]) := by decide +kernel

/-- The theorems apply, and say that executions are preserved. -/
example (g : Hugr Ops.Op String) (hg : foldResult = some g) :
    ∃ bs, wiresToBreak foldF foldHugr foldState = some bs ∧
      Preserves foldHugr foldS g { foldS with const := newConstants foldS.const (bs.zip [(11, 12)]) }
        fun r args => FoldStarts foldHugr foldS [] r args ∧ FuncsInAll (Survives foldHugr g) args := by
  obtain ⟨facts, hr⟩ := eval_run foldHugr (foldContext foldF foldHugr) [(7, 1, .top), (8, 0, .top)] 12
  refine C50_constant_fold_partial fold_valid.1 fold_valid.2 ?_ fold_folder (by intro x hx; simp at hx)
    (by simp) (by intro e he; simp at he) rfl fold_proto hr fold_finished fold_covered fold_kept hg
    (fold_closed _)
  intro x y z hc
  have : foldHugr.ops foldHugr.entrypoint = .funcDefn "main" ⟨[], ⟨[intTy], [intTy]⟩⟩ := rfl
  rw [this] at hc; cases hc

/-- Breaking the wire succeeds, so that `C49_rewired` applies. -/
example : ∃ h', breakAll foldHugr ([⟨7, 0, (.leaf 4, intTy)⟩].zip [(11, 12)]) = some h' ∧
    Rewired foldHugr foldF.constant ([⟨7, 0, (.leaf 4, intTy)⟩].zip [(11, 12)]) h'
      (newConstants foldF.constant ([⟨7, 0, (.leaf 4, intTy)⟩].zip [(11, 12)])) := by
  have h1 : (breakAll foldHugr ([(⟨7, 0, (.leaf 4, intTy)⟩ : Break Nat)].zip [(11, 12)])).isSome = true := by
    decide +kernel
  obtain ⟨h', hb⟩ := Option.isSome_iff_exists.1 h1
  exact ⟨h', hb, C49_rewired fold_valid.1 fold_valid.2 fold_breaks rfl hb⟩

/-- Dead code elimination alone removes the unused graph, and nothing else. -/
theorem fold_dead : (match deadCodeElim foldHugr (.defaultFor foldHugr) [] with
    | .ok g => g.nodes
    | _ => []) = [0, 1, 2, 3, 4, 5, 6, 7] := by decide +kernel

/-- `C50_dead_code_partial` applies, and its executions include those of `main`. -/
example : ∃ g, deadCodeElim foldHugr (.defaultFor foldHugr) [] = .ok g ∧
    (Preserves foldHugr foldS g foldS (DceStarts foldHugr g []) ∧
      Preserves g foldS foldHugr foldS (DceStarts foldHugr g [])) ∧
    DceStarts foldHugr g [] 1 [(.val 5 : Val Nat)] := by
  have h1 := fold_dead
  split at h1
  case h_2 => cases h1
  rename_i g hg
  refine ⟨g, hg, C50_dead_code_partial fold_valid.1 fold_valid.2 ?_ (by intro e he; simp at he) hg foldS
    (fold_closed _), by decide +kernel, .inl (by decide +kernel), by simp [FuncsInAll, FuncsIn]⟩
  intro x y z hc
  have : foldHugr.ops foldHugr.entrypoint = .funcDefn "main" ⟨[], ⟨[intTy], [intTy]⟩⟩ := rfl
  rw [this] at hc; cases hc

end Verif.Dataflow
