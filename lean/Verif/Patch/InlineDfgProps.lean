import Verif.Patch.InlineDfgRuns
import Verif.Dataflow.AnalysisExample

/-!
# C51 and C52: inlining a DFG node
-/
namespace Verif.Patch

open Verif.Graph Verif.Ops Verif.Passes Verif.Validate Verif.Dataflow

variable {Meta W E : Type} {C : Validate.Context} {h : Hugr Ops.Op Meta}

/-- **C51** In a valid Hugr every DFG node that is not the entrypoint can be inlined, without panic, and
gives the Hugr in which it is dissolved. -/
theorem C51_inline (ht : IsTree h) (hv : Valid C h) {p d : Nat} (hp : h.hier.parent d = some p)
    {sig : Types.Signature} (hop : h.ops d = .dfg sig) (hde : d ≠ h.entrypoint) :
    ∃ i o rest g, h.children d = i :: o :: rest ∧ inlineDfg h d = .ok g ∧ IsTree g ∧
      Inlined h p d i o g := by
  obtain ⟨i, o, rest, hd⟩ := dfgAt ht hv hp hop
  obtain ⟨g, h1, h2, h3⟩ := inlined_of ht hv hd hde
  exact ⟨i, o, rest, g, hd.children, h1, h2, h3⟩

/-- **C51** Inlining fails exactly for nodes that are no DFG nodes and for the entrypoint, and never
panics. -/
theorem C51_refused (ht : IsTree h) (hv : Valid C h) {p d : Nat} (hp : h.hier.parent d = some p) :
    (inlineDfg h d = .notDfg ↔ ∀ sig, h.ops d ≠ .dfg sig) ∧
    (inlineDfg h d = .cantInlineEntrypoint ↔ d = h.entrypoint ∧ ∃ sig, h.ops d = .dfg sig) ∧
    inlineDfg h d ≠ .panic := by
  by_cases hop : ∃ sig, h.ops d = .dfg sig
  · obtain ⟨sig, hop⟩ := hop
    by_cases hde : d = h.entrypoint
    · have : inlineDfg h d = .cantInlineEntrypoint := by
        unfold inlineDfg inlineVerify
        simp only [hop]
        rw [if_pos hde]
      rw [this, hop]
      simp [hde]
    · obtain ⟨i, o, rest, g, _, h1, _⟩ := C51_inline ht hv hp hop hde
      rw [h1, hop]
      simp [hde]
  · have : inlineDfg h d = .notDfg := by
      unfold inlineDfg inlineVerify
      cases ho : h.ops d <;> simp_all
    rw [this]
    simp only [not_exists] at hop
    simp [hop]

/-- **C52** Inlining a DFG node does not change what the functions of a Hugr return: for all inputs the
same results are possible, whatever the operations of extensions do. -/
theorem C52_inline_returns (ht : IsTree h) (hv : Valid C h) {d : Nat} (hr : d ≠ h.moduleRoot)
    (hl : h.live d = true) {g : Hugr Ops.Op Meta} (hg : inlineDfg h d = .ok g) (S : Sem W E) (f : Nat)
    (args outs : List (Val W)) : Returns h S f args outs ↔ Returns g S f args outs := by
  obtain ⟨p, hp⟩ := ht.has_parent d hl hr
  have h1 := C51_refused ht hv hp
  have hop : ∃ sig, h.ops d = .dfg sig := by
    by_contra hc
    rw [h1.1.2 (by simpa using hc)] at hg; cases hg
  have hde : d ≠ h.entrypoint := by
    intro hc
    rw [h1.2.1.2 ⟨hc, hop⟩] at hg; cases hg
  obtain ⟨sig, hop⟩ := hop
  obtain ⟨i, o, rest, hd⟩ := dfgAt ht hv hp hop
  obtain ⟨g', h2, h3, h4⟩ := inlined_of ht hv hd hde
  rw [hg] at h2; cases h2
  exact Dissolved.returns_iff (C := C) ⟨ht, hv, h3, hd, h4⟩

/-! ## A concrete case -/

def bool2 : Types.Signature := ⟨[bool, bool], [bool, bool]⟩

/-- A function (1) whose DFG node (4) passes on its second input and makes true (7), which is ordered
after its input; a node (8) is ordered before the DFG node. -/
def swapHistory : List (Cmd Ops.Op String) :=
  [ .addNodeWithParent 1 0 (.funcDefn "f" ⟨[], bool2⟩),
    .addNodeWithParent 2 1 (.input [bool, bool]), .addNodeWithParent 3 1 (.output [bool, bool]),
    .addNodeWithParent 4 1 (.dfg bool2),
    .addNodeWithParent 5 4 (.input [bool, bool]), .addNodeWithParent 6 4 (.output [bool, bool]),
    .addNodeWithParent 7 4 (.tag 1 [[], []]), .addNodeWithParent 8 1 (.tag 0 [[], []]),
    .connect ⟨2, 0, 4, 0⟩, .connect ⟨2, 1, 4, 1⟩, .connect ⟨5, 1, 6, 0⟩, .connect ⟨7, 0, 6, 1⟩,
    .connect ⟨4, 0, 3, 0⟩, .connect ⟨4, 1, 3, 1⟩, .connect ⟨8, 1, 4, 2⟩, .connect ⟨5, 2, 7, 0⟩ ]

def swapHugr : Hugr Ops.Op String := built swapHistory

theorem swap_valid : IsTree swapHugr ∧ Valid anaContext swapHugr := by
  obtain ⟨h1, h2⟩ := built_ok swapHistory (by decide +kernel) (by decide +kernel)
  exact ⟨h1, (C47_validate_iff_partial _ _ h1 h2).1 (by decide +kernel)⟩

/-- The links of the result. -/
def Inlining.links? : Inlining Meta → Option (List Link)
  | .ok g => some g.links
  | _ => none

def Inlining.children? (n : Nat) : Inlining Meta → List Nat
  | .ok g => g.children n
  | _ => []

/-- The hypotheses are met, and this is the result: the second input goes straight to the first output,
and the nodes are ordered. -/
example : (inlineDfg swapHugr 4).children? 1 = [2, 3, 8, 7] ∧
    (inlineDfg swapHugr 4).links? = some [⟨8, 1, 7, 0⟩, ⟨2, 2, 7, 0⟩, ⟨2, 2, 7, 0⟩, ⟨2, 1, 3, 0⟩,
      ⟨8, 1, 3, 2⟩, ⟨7, 0, 3, 1⟩, ⟨8, 1, 3, 2⟩] := by
  decide +kernel

/-- The wires when the function is given `a` and `b`. -/
def swapOuts (a b : Val Nat) : Nat → List (Val Nat)
  | 2 => [a, b]
  | 4 => [b, .sum 1 []]
  | 5 => [a, b]
  | 7 => [.sum 1 []]
  | 8 => [.sum 0 []]
  | _ => []

def swapIns (a b : Val Nat) : Nat → List (Val Nat)
  | 4 => [a, b]
  | _ => []

/-- The function returns its second input and true. -/
theorem swap_returns (S : Sem Nat Nat) (a b : Val Nat) :
    Returns swapHugr S 1 [a, b] [b, .sum 1 []] := by
  have c1 : swapHugr.children 1 = [2, 3, 4, 8] := by decide +kernel
  have c4 : swapHugr.children 4 = [5, 6, 7] := by decide +kernel
  let σ : Wires Nat := fun n => if n ∈ [2, 3, 4, 8] then outWires (swapOuts a b n) else noWires n
  let σd : Wires Nat := fun n => if n ∈ [5, 6, 7] then outWires (swapOuts a b n) else σ n
  refine ⟨⟨_, _, rfl⟩, σ, ?_⟩
  refine .graph (i := 2) (o := 3) (ins := swapIns a b) (outs := swapOuts a b) ⟨_, c1⟩ ?_ rfl rfl rfl ?_ ?_ ?_ ?_ ?_
  · intro n hn
    rw [c1] at hn
    exact if_neg hn
  · rintro n ⟨hn, h2, h3⟩
    rw [c1] at hn
    simp only [List.mem_cons, List.not_mem_nil, or_false] at hn
    rcases hn with rfl | rfl | rfl | rfl
    · exact absurd rfl h2
    · exact absurd rfl h3
    · refine ⟨rfl, fun k v hk => ?_⟩
      match k with
      | 0 => exact ⟨⟨2, 0, 4, 0⟩, by decide +kernel, rfl, rfl, hk⟩
      | 1 => exact ⟨⟨2, 1, 4, 1⟩, by decide +kernel, rfl, rfl, hk⟩
      | k + 2 => simp [swapIns] at hk
    · exact ⟨rfl, fun k v hk => by simp [swapIns] at hk⟩
  · rintro n ⟨hn, h2, h3⟩
    rw [c1] at hn
    exact if_pos hn
  · rintro n ⟨hn, h2, h3⟩
    rw [c1] at hn
    simp only [List.mem_cons, List.not_mem_nil, or_false] at hn
    rcases hn with rfl | rfl | rfl | rfl <;> first | rfl | exact absurd rfl h3
  · rintro n ⟨hn, h2, h3⟩
    rw [c1] at hn
    simp only [List.mem_cons, List.not_mem_nil, or_false] at hn
    rcases hn with rfl | rfl | rfl | rfl
    · exact absurd rfl h2
    · exact absurd rfl h3
    · refine .dfg (sig := bool2) (σ := σd) rfl ?_
      refine .graph (i := 5) (o := 6) (ins := swapIns a b) (outs := swapOuts a b) ⟨_, c4⟩ ?_ rfl rfl rfl ?_ ?_ ?_ ?_ ?_
      · intro n hn
        rw [c4] at hn
        exact if_neg hn
      · rintro n ⟨hn, h2, h3⟩
        rw [c4] at hn
        simp only [List.mem_cons, List.not_mem_nil, or_false] at hn
        rcases hn with rfl | rfl | rfl
        · exact absurd rfl h2
        · exact absurd rfl h3
        · exact ⟨rfl, fun k v hk => by simp [swapIns] at hk⟩
      · rintro n ⟨hn, h2, h3⟩
        rw [c4] at hn
        exact if_pos hn
      · rintro n ⟨hn, h2, h3⟩
        rw [c4] at hn
        simp only [List.mem_cons, List.not_mem_nil, or_false] at hn
        rcases hn with rfl | rfl | rfl <;> first | rfl | exact absurd rfl h3
      · rintro n ⟨hn, h2, h3⟩
        rw [c4] at hn
        simp only [List.mem_cons, List.not_mem_nil, or_false] at hn
        rcases hn with rfl | rfl | rfl
        · exact absurd rfl h2
        · exact absurd rfl h3
        · exact .leaf (.tag (variants := [[], []]) rfl)
      · refine ⟨rfl, fun k v hk => ?_⟩
        match k with
        | 0 => exact ⟨⟨5, 1, 6, 0⟩, by decide +kernel, rfl, rfl, hk⟩
        | 1 => exact ⟨⟨7, 0, 6, 1⟩, by decide +kernel, rfl, rfl, hk⟩
        | k + 2 => simp [swapOuts] at hk
    · exact .leaf (.tag (variants := [[], []]) rfl)
  · refine ⟨rfl, fun k v hk => ?_⟩
    match k with
    | 0 => exact ⟨⟨4, 0, 3, 0⟩, by decide +kernel, rfl, rfl, hk⟩
    | 1 => exact ⟨⟨4, 1, 3, 1⟩, by decide +kernel, rfl, rfl, hk⟩
    | k + 2 => simp at hk

/-- So does the function after inlining. -/
example (S : Sem Nat Nat) (a b : Val Nat) : ∃ g, inlineDfg swapHugr 4 = .ok g ∧
    Returns g S 1 [a, b] [b, .sum 1 []] := by
  obtain ⟨h1, h2⟩ := swap_valid
  obtain ⟨i, o, rest, g, _, hg, _⟩ := C51_inline h1 h2 (p := 1) (d := 4) (sig := bool2)
    (by decide +kernel) rfl (by decide +kernel)
  exact ⟨g, hg, (C52_inline_returns h1 h2 (by decide +kernel) (by decide +kernel) hg S 1 _ _).1
    (swap_returns S a b)⟩

end Verif.Patch
