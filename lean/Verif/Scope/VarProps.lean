import Verif.Common.Machine
import Verif.Scope.VarSpec
/-!
# C29: variables resolve to their declaration index in the innermost node
-/
namespace Verif.Scope

/-- How the flat index set and the scope records represent the stack. -/
def VarRep : List VarScope → List (Nat × String) → VarStack → Prop
  | [], vs, [] => vs = []
  | sc :: scs, vs, (n, names) :: st =>
    sc.node = n ∧ sc.varCount = names.length ∧ names.length < 65536 ∧
      n ∉ st.map Prod.fst ∧
      ∃ pre, vs = pre ++ names.map (n, ·) ∧ sc.varStack = pre.length ∧ VarRep scs pre st
  | _, _, _ => False

theorem VarRep.nodes : ∀ {scs vs st}, VarRep scs vs st → ∀ x ∈ vs, x.1 ∈ st.map Prod.fst
  | [], _, [], h => by intro x hx; simp [VarRep] at h; simp [h] at hx
  | sc :: scs, vs, (n, names) :: st, h => by
    obtain ⟨_, _, _, _, pre, rfl, _, hp⟩ := h
    intro x hx
    rcases List.mem_append.1 hx with hx | hx
    · simp only [List.map_cons, List.mem_cons]; exact Or.inr (VarRep.nodes hp x hx)
    · obtain ⟨s, _, rfl⟩ := List.mem_map.1 hx
      simp
  | [], _, _ :: _, h => by simp [VarRep] at h
  | _ :: _, _, [], h => by simp [VarRep] at h

theorem idxOf?_none {α : Type} [DecidableEq α] {l : List α} {x : α} (h : x ∉ l) :
    idxOf? l x = none := by
  induction l with
  | nil => rfl
  | cons a l ih =>
    simp only [List.mem_cons, not_or] at h
    simp [idxOf?, Ne.symm h.1, ih h.2]

theorem idxOf?_append {α : Type} [DecidableEq α] {l l' : List α} {x : α} (h : x ∉ l) :
    idxOf? (l ++ l') x = (idxOf? l' x).map (· + l.length) := by
  induction l with
  | nil => simp
  | cons a l ih =>
    simp only [List.mem_cons, not_or] at h
    simp [idxOf?, Ne.symm h.1, ih h.2, Option.map_map, Function.comp_def, Nat.add_assoc]

theorem idxOf?_map_pair {n : Nat} {names : List String} {s : String} (h : s ∈ names) :
    idxOf? (names.map (n, ·)) (n, s) = some (names.findIdx (· = s)) := by
  induction names with
  | nil => simp at h
  | cons a l ih =>
    by_cases ha : a = s
    · subst ha; simp [idxOf?, List.findIdx_cons]
    · have : s ∈ l := by simpa [Ne.symm ha] using h
      simp [idxOf?, List.findIdx_cons, ha, ih this]

theorem var_step_agrees (t : VarTable) (st : VarStack) (op : VarOp)
    (hR : VarRep t.scopes t.vars st) (hok : VarSpec.ok st op) :
    StepAgrees (fun t st => VarRep t.scopes t.vars st) (t.step op) (VarSpec.step st op) := by
  obtain ⟨vs, scs⟩ := t
  simp only at hR
  match scs, st, hR with
  | [], [], hR =>
    cases op with
    | enter n =>
      simp only [VarRep] at hR
      subst hR
      simp [StepAgrees, VarTable.step, VarSpec.step, VarTable.enter, VarRep]
    | exit => simp [StepAgrees, VarTable.step, VarSpec.step, VarTable.exit]
    | insert s => simp [StepAgrees, VarTable.step, VarSpec.step, VarTable.insert]
    | resolve s => simpa [StepAgrees, VarTable.step, VarSpec.step, VarTable.resolve] using hR
    | isVisible n i => simpa [StepAgrees, VarTable.step, VarSpec.step, VarTable.isVisible] using hR
  | sc :: scs, (n, names) :: st, hR =>
    have hR0 := hR
    obtain ⟨hn, hc, hlt, hnot, pre, rfl, hst, hp⟩ := hR
    have hfresh : ∀ s, (n, s) ∉ pre := fun s hs => hnot (VarRep.nodes hp _ hs)
    have hmem : ∀ s, (n, s) ∈ pre ++ names.map (n, ·) ↔ s ∈ names := by
      intro s; simp [hfresh]
    cases op with
    | enter m =>
      simp only [VarSpec.ok] at hok
      simp only [StepAgrees, VarTable.step, VarSpec.step, VarTable.enter, true_and]
      exact ⟨rfl, rfl, by simp, hok, _, by simp, rfl, hR0⟩
    | exit =>
      simp only [VarTable.step, VarSpec.step, VarTable.exit, hst]
      simp [StepAgrees, hp]
    | insert s =>
      simp only [VarTable.step, VarSpec.step, VarTable.insert, hn, hmem, hc]
      by_cases hs : s ∈ names
      · simp only [hs, if_true]; exact ⟨rfl, hR0⟩
      · simp only [hs, if_false]
        by_cases hl : names.length < 65535
        · rw [if_pos (by omega), if_pos hl]
          refine ⟨rfl, rfl, ?_, ?_, hnot, pre, ?_, hst, hp⟩
          · simp
          · simp; omega
          · simp
        · rw [if_neg (by omega), if_neg hl]; trivial
    | resolve s =>
      simp only [VarTable.step, VarSpec.step, VarTable.resolve, hn, hst]
      by_cases hs : s ∈ names
      · have hi : names.findIdx (· = s) < names.length :=
          List.findIdx_lt_length_of_exists ⟨s, hs, by simp⟩
        rw [idxOf?_append (hfresh s), idxOf?_map_pair hs]
        simp only [Option.map_some, hs, if_true, Nat.le_add_left, Nat.add_sub_cancel]
        refine ⟨?_, hR0⟩
        rw [Nat.mod_eq_of_lt (by omega)]
      · rw [idxOf?_none (by rw [hmem]; exact hs)]
        simp only [hs, if_false, Option.map_some]
        exact ⟨rfl, hR0⟩
    | isVisible m i =>
      simp only [VarTable.step, VarSpec.step, VarTable.isVisible, hn, hc]
      exact ⟨rfl, hR0⟩
  | [], _ :: _, h => exact absurd h (by simp [VarRep])
  | _ :: _, [], h => exact absurd h (by simp [VarRep])

/-- **C29.** Over every history of calls that never re-enters an open node, the
variable table answers exactly as the stack of open nodes prescribes (including
which calls panic). -/
theorem C29_var_table_refines_stack (ops : List VarOp)
    (h : Admissible VarSpec.step VarSpec.ok [] ops) :
    runOutputs VarTable.step VarTable.new ops = runOutputs VarSpec.step [] ops :=
  refine_outputs (R := fun t st => VarRep t.scopes t.vars st) var_step_agrees ops _ _
    (by simp [VarTable.new, VarRep]) h

/-- A history meeting the hypothesis: two nested nodes, shadowing, exit. -/
def varHistory : List VarOp :=
  [.enter 0, .insert "foo", .insert "bar", .insert "foo", .enter 1, .resolve "foo", .insert "foo",
   .resolve "foo", .isVisible 0 0, .exit, .resolve "bar", .isVisible 0 1, .exit, .resolve "foo"]

example : Admissible VarSpec.step VarSpec.ok [] varHistory := by
  simp [varHistory, Admissible, VarSpec.step, VarSpec.ok]

example : runOutputs VarTable.step VarTable.new varHistory =
    [some .unit, some (.var 0 0), some (.var 0 1), some (.duplicate 0 "foo"), some .unit,
     some (.unknownInNode 1 "foo"), some (.var 1 0), some (.var 1 0), some (.bool false),
     some .unit, some (.var 0 1), some (.bool true), some .unit, some (.unknownRoot "foo")] := by
  decide +kernel

/-- The contract is needed: entering an open node again makes `resolve` compute a
negative index, which panics. -/
example : runOutputs VarTable.step VarTable.new
    [.enter 0, .insert "foo", .enter 0, .resolve "foo"] =
    [some .unit, some (.var 0 0), some .unit, none] := by decide +kernel

end Verif.Scope
