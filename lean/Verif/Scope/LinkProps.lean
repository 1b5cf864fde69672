import Verif.Common.Machine
import Verif.Scope.LinkSpec
import Verif.Scope.VarProps
/-!
# C28: link names are numbered densely per closed region
-/
namespace Verif.Scope

/-- How the flat index set and the scope records represent the stack. -/
def LinkRep : List LinkScope → List (Nat × String) → List OpenRegion → Prop
  | [], vs, [] => vs = []
  | sc :: scs, vs, f :: st =>
    sc.region = f.region ∧ sc.linkCount = f.names.length ∧ sc.portCount = f.uses ∧
      f.names.length ≤ f.uses ∧ f.region ∉ st.map OpenRegion.region ∧
      ∃ pre, vs = pre ++ f.names.map (f.region, ·) ∧ sc.linkStack = pre.length ∧ LinkRep scs pre st
  | _, _, _ => False

theorem LinkRep.regions : ∀ {scs vs st}, LinkRep scs vs st → ∀ x ∈ vs, x.1 ∈ st.map OpenRegion.region
  | [], _, [], h => by intro x hx; simp [LinkRep] at h; simp [h] at hx
  | sc :: scs, vs, f :: st, h => by
    obtain ⟨_, _, _, _, _, pre, rfl, _, hp⟩ := h
    intro x hx
    rcases List.mem_append.1 hx with hx | hx
    · simp only [List.map_cons, List.mem_cons]; exact Or.inr (LinkRep.regions hp x hx)
    · obtain ⟨s, _, rfl⟩ := List.mem_map.1 hx
      simp
  | [], _, _ :: _, h => by simp [LinkRep] at h
  | _ :: _, _, [], h => by simp [LinkRep] at h

theorem findIdx_append_self {l : List String} {k : String} (h : k ∉ l) :
    (l ++ [k]).findIdx (· = k) = l.length := by
  induction l with
  | nil => simp [List.findIdx_cons]
  | cons a l ih =>
    simp only [List.mem_cons, not_or] at h
    simp [List.findIdx_cons, Ne.symm h.1, ih h.2]

theorem link_step_agrees (t : LinkTable) (st : List OpenRegion) (op : LinkOp)
    (hR : LinkRep t.scopes t.links st) (hok : LinkSpec.ok st op) :
    StepAgrees (fun t st => LinkRep t.scopes t.links st) (t.step op) (LinkSpec.step st op) := by
  obtain ⟨vs, scs⟩ := t
  simp only at hR
  match scs, st, hR with
  | [], [], hR =>
    cases op with
    | enter n =>
      simp only [LinkRep] at hR
      subst hR
      simp [StepAgrees, LinkTable.step, LinkSpec.step, LinkTable.enter, LinkRep]
    | exit => simp [StepAgrees, LinkTable.step, LinkSpec.step, LinkTable.exit]
    | useLink s => simp [StepAgrees, LinkTable.step, LinkSpec.step, LinkTable.useLink]
  | sc :: scs, f :: st, hR =>
    have hR0 := hR
    obtain ⟨hn, hlc, hpc, hle, hnot, pre, rfl, hst, hp⟩ := hR
    have hfresh : ∀ s, (f.region, s) ∉ pre := fun s hs => hnot (LinkRep.regions hp _ hs)
    cases op with
    | enter m =>
      simp only [LinkSpec.ok] at hok
      simp only [StepAgrees, LinkTable.step, LinkSpec.step, LinkTable.enter, true_and]
      exact ⟨rfl, rfl, rfl, by simp, hok, _, by simp, rfl, hR0⟩
    | exit =>
      simp only [LinkTable.step, LinkSpec.step, LinkTable.exit, hst]
      simp [StepAgrees, hp, hlc, hpc]
    | useLink k =>
      simp only [LinkTable.step, LinkSpec.step, LinkTable.useLink, hn, hlc, hpc, hst]
      by_cases hs : k ∈ f.names
      · have hi : LinkTable.insertFull (pre ++ f.names.map (f.region, ·)) (f.region, k) =
            (pre ++ f.names.map (f.region, ·), f.names.findIdx (· = k) + pre.length, false) := by
          simp [LinkTable.insertFull, idxOf?_append (hfresh k), idxOf?_map_pair hs]
        simp only [hi, hs, if_true]
        by_cases hu : f.uses + 1 < 2 ^ 32
        · rw [if_pos hu, if_pos (by refine ⟨?_, hu, by omega⟩; simp; omega)]
          refine ⟨by simp, rfl, by simp, rfl, by simp; omega, hnot, pre, rfl, rfl, hp⟩
        · rw [if_neg hu, if_neg (by intro hc; exact hu hc.2.1)]; trivial
      · have hi : LinkTable.insertFull (pre ++ f.names.map (f.region, ·)) (f.region, k) =
            (pre ++ f.names.map (f.region, ·) ++ [(f.region, k)],
              f.names.length + pre.length, true) := by
          have : idxOf? (f.names.map (f.region, ·)) (f.region, k) = none :=
            idxOf?_none (by simp [hs])
          simp [LinkTable.insertFull, idxOf?_append (hfresh k), this, Nat.add_comm]
        simp only [hi, hs, if_true, if_false]
        by_cases hu : f.uses + 1 < 2 ^ 32
        · rw [if_pos hu, if_pos (by refine ⟨?_, hu, by omega⟩; omega)]
          refine ⟨by simp [findIdx_append_self hs], rfl, by simp, rfl, by simp; omega, hnot, pre,
            by simp, rfl, hp⟩
        · rw [if_neg hu, if_neg (by intro hc; exact hu hc.2.1)]; trivial
  | [], _ :: _, h => exact absurd h (by simp [LinkRep])
  | _ :: _, [], h => exact absurd h (by simp [LinkRep])

/-- **C28.** Over every history of calls that never re-enters an open region, the
link table answers exactly as the stack of open regions prescribes: a name gets
the position of its first use in its region, and leaving a region reports the
number of distinct names and of uses. -/
theorem C28_link_table_refines_stack (ops : List LinkOp)
    (h : Admissible LinkSpec.step LinkSpec.ok [] ops) :
    runOutputs LinkTable.step LinkTable.new ops = runOutputs LinkSpec.step [] ops :=
  refine_outputs (R := fun t st => LinkRep t.scopes t.links st) link_step_agrees ops _ _
    (by simp [LinkTable.new, LinkRep]) h

/-- A history meeting the hypothesis. -/
def linkHistory : List LinkOp :=
  [.enter 0, .useLink "foo", .useLink "bar", .enter 1, .useLink "bar", .useLink "foo",
   .useLink "bar", .exit, .useLink "foo", .useLink "bar", .exit]

example : Admissible LinkSpec.step LinkSpec.ok [] linkHistory := by
  simp [linkHistory, Admissible, LinkSpec.step, LinkSpec.ok]

example : runOutputs LinkTable.step LinkTable.new linkHistory =
    [some .unit, some (.link 0), some (.link 1), some .unit, some (.link 0), some (.link 1),
     some (.link 0), some (.counts 2 3), some (.link 0), some (.link 1), some (.counts 2 4)] := by
  decide +kernel

end Verif.Scope
