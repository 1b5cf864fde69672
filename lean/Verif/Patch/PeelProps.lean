import Verif.Patch.PeelAt
import Verif.Patch.InlineCallProps

/-!
# C72: peeling a tail loop
-/
namespace Verif.Patch

open Verif.Graph Verif.Ops Verif.Passes Verif.Validate Verif.Dataflow

variable {Meta W E : Type} {C : Validate.Context} {h : Hugr Ops.Op Meta}

/-- **C72** Each tail loop of a valid Hugr can be peeled, without panic, and the result is the Hugr with
the loop replaced by its body, followed by a conditional on what the body outputs: to go on, with a copy
of the loop, or to stop. -/
theorem C72_peel (ht : IsTree h) (hv : Valid C h) {n : Nat} (hn : h.live n = true) (hr : n ≠ h.moduleRoot)
    {ji jo rest : List Types.Ty} (hop : h.ops n = .tailLoop ji jo rest) {N : PeelNew} {copies : List Nat}
    (hnew : PeelVacant h n N copies) :
    ∃ g i o nodes μ, peelLoop h n N copies = .ok g ∧ IsTree g ∧ LoopPeeled h ⟨N, n, i, o⟩ ji jo rest nodes μ g ∧
      ∀ a ∈ nodes, μ a ∈ copies := by
  obtain ⟨r, hp⟩ := ht.has_parent n hn hr
  obtain ⟨g, i, o, nodes, μ, h1, h2, h3, h4⟩ := peelSteps_eq ht hv hp hop hnew
  refine ⟨g, i, o, nodes, μ, ?_, h2, h4, h3⟩
  unfold peelLoop
  rw [hop]
  simp only [h1]

/-- **C72** Other nodes are refused. -/
theorem C72_refused (n : Nat) (N : PeelNew) (copies : List Nat) :
    peelLoop h n N copies = .notTailLoop ↔ ¬ ∃ ji jo rest, h.ops n = .tailLoop ji jo rest := by
  unfold peelLoop
  cases hop : h.ops n
  case tailLoop ji jo rest =>
    simp only []
    refine ⟨fun he => ?_, fun he => absurd ⟨ji, jo, rest, rfl⟩ he⟩
    cases hs : peelSteps h n ji jo rest N copies with
    | none => rw [hs] at he; cases he
    | some g => rw [hs] at he; cases he
  all_goals
    simp only [true_iff]
    rintro ⟨_, _, _, e⟩
    cases e

/-- **C72** Peeling a loop does not change what functions return: for all inputs the same results are
possible, after any number of iterations, whatever the operations of extensions do, as long as copies of
operations and constants do what the originals do. -/
theorem C72_returns (ht : IsTree h) (hv : Valid C h) {n : Nat} (hn : h.live n = true) (hr : n ≠ h.moduleRoot)
    {ji jo rest : List Types.Ty} (hop : h.ops n = .tailLoop ji jo rest) {N : PeelNew} {copies : List Nat}
    (hnew : PeelVacant h n N copies) :
    ∃ g, ∃ orig : Nat → Nat, peelLoop h n N copies = .ok g ∧ (∀ x, h.live x = true → orig x = x) ∧
      ∀ (S S' : Sem W E), S' = { S with ext := fun x => S.ext (orig x), const := fun x => S.const (orig x) } →
      ∀ f args outs, Returns h S f args outs ↔ Returns g S' f args outs := by
  obtain ⟨r, hp⟩ := ht.has_parent n hn hr
  obtain ⟨g, i, o, nodes, μ, h1, h2, h3, h4⟩ := C72_peel ht hv hn hr hop hnew
  have z : PeelAt C h g ⟨N, n, i, o⟩ r ji jo rest nodes μ := by
    refine ⟨ht, hv, h2, hop, hp, h3, ?_⟩
    rintro x (hx | ⟨a, ha, rfl⟩)
    · exact hnew.blank x (List.mem_append_left _ hx)
    · exact hnew.blank _ (List.mem_append_right _ (h4 a ha))
  refine ⟨g, original nodes μ, h1, fun x hx => z.orig_live hx, ?_⟩
  rintro S S' rfl f args outs
  exact z.peels.returns_iff

/-! ## Examples -/

/-- `main` (1) has a loop (4) that stops if it is given true. It goes on with, or returns, true, which is
made by 7 and passed through 8. -/
def roundHistory : List (Cmd Ops.Op String) :=
  [ .addNodeWithParent 1 0 (.funcDefn "main" ⟨[], bool1⟩),
    .addNodeWithParent 2 1 (.input [bool]), .addNodeWithParent 3 1 (.output [bool]),
    .addNodeWithParent 4 1 (.tailLoop [] [] [bool]),
    .addNodeWithParent 5 4 (.input [bool]), .addNodeWithParent 6 4 (.output [sumOf [[], []], bool]),
    .addNodeWithParent 7 4 (.tag 1 [[], []]), .addNodeWithParent 8 4 (.dfg bool1),
    .addNodeWithParent 9 8 (.input [bool]), .addNodeWithParent 10 8 (.output [bool]),
    .connect ⟨2, 0, 4, 0⟩, .connect ⟨4, 0, 3, 0⟩, .connect ⟨5, 0, 6, 0⟩, .connect ⟨7, 0, 8, 0⟩,
    .connect ⟨9, 0, 10, 0⟩, .connect ⟨8, 0, 6, 1⟩, .connect ⟨5, 1, 7, 0⟩ ]

def roundHugr : Hugr Ops.Op String := built roundHistory

def roundNew : PeelNew := ⟨11, 12, 13, 14, 15, 16, 17, 18⟩

theorem round_valid : IsTree roundHugr ∧ Valid anaContext roundHugr := by
  obtain ⟨h1, h2⟩ := built_ok roundHistory (by decide +kernel) (by decide +kernel)
  exact ⟨h1, (C47_validate_iff_partial _ _ h1 h2).1 (by decide +kernel)⟩

theorem round_vacant : PeelVacant roundHugr 4 roundNew [19, 20, 21, 22, 23, 24] := by
  refine ⟨by decide, by decide +kernel, by decide +kernel, ?_⟩
  intro x hx
  simp only [roundNew, PeelNew.news, List.cons_append, List.nil_append, List.mem_cons, List.not_mem_nil, or_false] at hx
  rcases hx with rfl | rfl | rfl | rfl | rfl | rfl | rfl | rfl | rfl | rfl | rfl | rfl | rfl | rfl <;>
    (rintro ⟨a, b, hab⟩; cases hab)

/-- The links of the result. -/
def LoopPeeling.links? : LoopPeeling Meta → Option (List Link)
  | .ok g => some g.links
  | _ => none

def LoopPeeling.children? (n : Nat) : LoopPeeling Meta → List Nat
  | .ok g => g.children n
  | _ => []

/-- The hypotheses of `C72_peel` are met, and this is the result: the body has an output (12) and a
conditional (6), which uses the copy (11) of the loop. -/
example : (∃ g i o nodes μ, peelLoop roundHugr 4 roundNew [19, 20, 21, 22, 23, 24] = .ok g ∧ IsTree g ∧
      LoopPeeled roundHugr ⟨roundNew, 4, i, o⟩ [] [] [bool] nodes μ g ∧ ∀ a ∈ nodes, μ a ∈ [19, 20, 21, 22, 23, 24]) ∧
    (peelLoop roundHugr 4 roundNew [19, 20, 21, 22, 23, 24]).children? 1 = [2, 3, 4] ∧
    (peelLoop roundHugr 4 roundNew [19, 20, 21, 22, 23, 24]).children? 4 = [5, 12, 6, 7, 8] ∧
    (peelLoop roundHugr 4 roundNew [19, 20, 21, 22, 23, 24]).children? 6 = [13, 16] ∧
    (peelLoop roundHugr 4 roundNew [19, 20, 21, 22, 23, 24]).children? 13 = [14, 15, 11] ∧
    (peelLoop roundHugr 4 roundNew [19, 20, 21, 22, 23, 24]).children? 11 = [19, 20, 21, 22] ∧
    (peelLoop roundHugr 4 roundNew [19, 20, 21, 22, 23, 24]).links? =
      some [⟨2, 0, 4, 0⟩, ⟨4, 0, 3, 0⟩, ⟨5, 0, 6, 0⟩, ⟨7, 0, 8, 0⟩, ⟨9, 0, 10, 0⟩, ⟨8, 0, 6, 1⟩, ⟨5, 1, 7, 0⟩,
        ⟨19, 0, 20, 0⟩, ⟨21, 0, 22, 0⟩, ⟨23, 0, 24, 0⟩, ⟨22, 0, 20, 1⟩, ⟨19, 1, 21, 0⟩,
        ⟨6, 0, 12, 0⟩, ⟨17, 0, 18, 0⟩, ⟨11, 0, 15, 0⟩, ⟨14, 0, 11, 0⟩] :=
  ⟨C72_peel round_valid.1 round_valid.2 (by decide +kernel) (by decide +kernel) rfl round_vacant, by decide +kernel⟩

/-- The graph inside 8 is refused. -/
example : peelLoop roundHugr 8 roundNew [19, 20, 21, 22, 23, 24] = .notTailLoop :=
  (C72_refused _ _ _).2 (by rintro ⟨_, _, _, e⟩; cases e)

/-- The wires when the loop is given `v`. -/
def roundOuts (v : Val Nat) : Nat → List (Val Nat)
  | 2 => [v]
  | 4 => [.sum 1 []]
  | 5 => [v]
  | 7 => [.sum 1 []]
  | 8 => [.sum 1 []]
  | 9 => [.sum 1 []]
  | _ => []

def roundIns (v : Val Nat) : Nat → List (Val Nat)
  | 4 => [v]
  | 8 => [.sum 1 []]
  | _ => []

/-- An iteration. -/
theorem round_body (S : Sem Nat Nat) (v : Val Nat) (ρ : Wires Nat) :
    ∃ σ, Runs roundHugr S (.graph ρ 4 [v] [v, .sum 1 []] σ) := by
  have c4 : roundHugr.children 4 = [5, 6, 7, 8] := by decide +kernel
  have c8 : roundHugr.children 8 = [9, 10] := by decide +kernel
  let σ : Wires Nat := fun n => if n ∈ [5, 6, 7, 8] then outWires (roundOuts v n) else ρ n
  let σd : Wires Nat := fun n => if n ∈ [9, 10] then outWires (roundOuts v n) else σ n
  refine ⟨σ, ?_⟩
  refine .graph (i := 5) (o := 6) (ins := roundIns v) (outs := roundOuts v) ⟨_, c4⟩ ?_ rfl rfl rfl ?_ ?_ ?_ ?_ ?_
  · intro n hn
    rw [c4] at hn
    exact if_neg hn
  · rintro n ⟨hn, h2, h3⟩
    rw [c4] at hn
    simp only [List.mem_cons, List.not_mem_nil, or_false] at hn
    rcases hn with rfl | rfl | rfl | rfl
    · exact absurd rfl h2
    · exact absurd rfl h3
    · exact ⟨rfl, fun k v hk => by simp [roundIns] at hk⟩
    · refine ⟨rfl, fun k v hk => ?_⟩
      match k with
      | 0 => exact ⟨⟨7, 0, 8, 0⟩, by decide +kernel, rfl, rfl, hk⟩
      | k + 1 => simp [roundIns] at hk
  · rintro n ⟨hn, h2, h3⟩
    rw [c4] at hn
    exact if_pos hn
  · rintro n ⟨hn, h2, h3⟩
    rw [c4] at hn
    simp only [List.mem_cons, List.not_mem_nil, or_false] at hn
    rcases hn with rfl | rfl | rfl | rfl <;> first | rfl | exact absurd rfl h3
  · rintro n ⟨hn, h2, h3⟩
    rw [c4] at hn
    simp only [List.mem_cons, List.not_mem_nil, or_false] at hn
    rcases hn with rfl | rfl | rfl | rfl
    · exact absurd rfl h2
    · exact absurd rfl h3
    · exact .leaf (.tag (variants := [[], []]) rfl)
    · refine .dfg (sig := bool1) (σ := σd) rfl ?_
      refine .graph (i := 9) (o := 10) (ins := roundIns v) (outs := roundOuts v) ⟨_, c8⟩ ?_ rfl rfl rfl ?_ ?_ ?_ ?_ ?_
      · intro n hn
        rw [c8] at hn
        exact if_neg hn
      all_goals try
        rintro n ⟨hn, h2, h3⟩
        rw [c8] at hn
        simp only [List.mem_cons, List.not_mem_nil, or_false] at hn
        rcases hn with rfl | rfl
        · exact absurd rfl h2
        · exact absurd rfl h3
      refine ⟨rfl, fun k v hk => ?_⟩
      match k with
      | 0 => exact ⟨⟨9, 0, 10, 0⟩, by decide +kernel, rfl, rfl, hk⟩
      | k + 1 => simp [roundOuts] at hk
  · refine ⟨rfl, fun k w hk => ?_⟩
    match k with
    | 0 => exact ⟨⟨5, 0, 6, 0⟩, by decide +kernel, rfl, rfl, hk⟩
    | 1 => exact ⟨⟨8, 0, 6, 1⟩, by decide +kernel, rfl, rfl, hk⟩
    | k + 2 => simp at hk

/-- Given false, the loop needs two iterations to return true. -/
theorem round_returns (S : Sem Nat Nat) : Returns roundHugr S 1 [.sum 0 []] [.sum 1 []] := by
  have c1 : roundHugr.children 1 = [2, 3, 4] := by decide +kernel
  let σ : Wires Nat := fun n => if n ∈ [2, 3, 4] then outWires (roundOuts (.sum 0 []) n) else noWires n
  refine ⟨⟨_, _, rfl⟩, σ, ?_⟩
  refine .graph (i := 2) (o := 3) (ins := roundIns (.sum 0 [])) (outs := roundOuts (.sum 0 [])) ⟨_, c1⟩ ?_ rfl rfl rfl ?_ ?_ ?_ ?_ ?_
  · intro n hn
    rw [c1] at hn
    exact if_neg hn
  · rintro n ⟨hn, h2, h3⟩
    rw [c1] at hn
    simp only [List.mem_cons, List.not_mem_nil, or_false] at hn
    rcases hn with rfl | rfl | rfl
    · exact absurd rfl h2
    · exact absurd rfl h3
    · refine ⟨rfl, fun k v hk => ?_⟩
      match k with
      | 0 => exact ⟨⟨2, 0, 4, 0⟩, by decide +kernel, rfl, rfl, hk⟩
      | k + 1 => simp [roundIns] at hk
  · rintro n ⟨hn, h2, h3⟩
    rw [c1] at hn
    exact if_pos hn
  · rintro n ⟨hn, h2, h3⟩
    rw [c1] at hn
    simp only [List.mem_cons, List.not_mem_nil, or_false] at hn
    rcases hn with rfl | rfl | rfl <;> first | rfl | exact absurd rfl h3
  · rintro n ⟨hn, h2, h3⟩
    rw [c1] at hn
    simp only [List.mem_cons, List.not_mem_nil, or_false] at hn
    rcases hn with rfl | rfl | rfl
    · exact absurd rfl h2
    · exact absurd rfl h3
    · refine .tailLoop (ji := []) (jo := []) (rest := [bool]) rfl ?_
      obtain ⟨σ1, r1⟩ := round_body S (.sum 0 []) σ
      obtain ⟨σ2, r2⟩ := round_body S (.sum 1 []) σ
      exact .again (elems := []) (others := [.sum 1 []]) (ji := []) (jo := []) (rest := [bool]) rfl rfl r1
        (.done (elems := []) (others := [.sum 1 []]) (ji := []) (jo := []) (rest := [bool]) rfl rfl r2)
  · refine ⟨rfl, fun k w hk => ?_⟩
    match k with
    | 0 => exact ⟨⟨4, 0, 3, 0⟩, by decide +kernel, rfl, rfl, hk⟩
    | k + 1 => simp at hk

/-- Peeled, it still does. -/
example (S : Sem Nat Nat) : ∃ g, ∃ S' : Sem Nat Nat, peelLoop roundHugr 4 roundNew [19, 20, 21, 22, 23, 24] = .ok g ∧
    Returns g S' 1 [.sum 0 []] [.sum 1 []] := by
  obtain ⟨g, orig, h1, _, h2⟩ := C72_returns (W := Nat) (E := Nat) round_valid.1 round_valid.2 (by decide +kernel) (by decide +kernel) rfl
    round_vacant
  exact ⟨g, _, h1, (h2 S _ rfl _ _ _).1 (round_returns S)⟩

end Verif.Patch
