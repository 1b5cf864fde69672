import Verif.Patch.SimpleReplaceSpec
import Verif.Patch.InlineDfgLemmas
import Verif.Patch.ForceOrderSound
import Verif.Graph.InsertProps
import Verif.Dataflow.DeadCodeSim

/-!
# Replacing a subgraph of a valid Hugr
-/
namespace Verif.Patch

open Verif.Graph Verif.Ops Verif.Passes Verif.Validate Verif.Dataflow

variable {Meta : Type} {C : Validate.Context} {h r : Hugr Ops.Op Meta}

theorem collect_eq {α β : Type} {f : α → Option (List β)} {F : α → List β} :
    ∀ {xs : List α}, (∀ x ∈ xs, f x = some (F x)) → collect f xs = some (xs.flatMap F)
  | [], _ => rfl
  | x :: xs, hx => by
    unfold collect
    rw [hx x (by simp), collect_eq fun y hy => hx y (by simp [hy])]
    simp

theorem collect_some {α β : Type} {f : α → Option (List β)} :
    ∀ {xs : List α} {ys : List β}, collect f xs = some ys → ∀ x ∈ xs, ∃ zs, f x = some zs
  | [], _, _, x, hx => by cases hx
  | y :: xs, ys, he, x, hx => by
    unfold collect at he
    cases h1 : f y with
    | none => rw [h1] at he; cases he
    | some a =>
      cases h2 : collect f xs with
      | none => rw [h1, h2] at he; cases he
      | some b =>
        rcases List.mem_cons.1 hx with rfl | hx
        · exact ⟨a, h1⟩
        · exact collect_some h2 x hx

/-- Lists of one element each: as many, and the same ones. -/
theorem collect_singles {α β : Type} {f : α → Option β} :
    ∀ {xs : List α} {ys : List β}, collect (fun x => (f x).map fun y => [y]) xs = some ys →
      xs.length = ys.length ∧ ∀ k : Nat, ∀ x, xs[k]? = some x → f x = ys[k]?
  | [], ys, he => by
    cases he
    refine ⟨rfl, ?_⟩
    intro k x hx; simp at hx
  | x :: xs, ys, he => by
    unfold collect at he
    cases h1 : f x with
    | none => rw [h1] at he; cases he
    | some a =>
      cases h2 : collect (fun x => (f x).map fun y => [y]) xs with
      | none => rw [h1, h2] at he; cases he
      | some b =>
        rw [h1, h2] at he
        obtain ⟨i1, i2⟩ := collect_singles h2
        cases he
        refine ⟨by simp [i1], ?_⟩
        intro k y hy
        cases k with
        | zero => cases hy; simpa using h1
        | succ k => simpa using i2 k y (by simpa using hy)

/-! ## Removing nodes -/

/-- What is left when nodes without children are removed. -/
structure RemovedAll (h : Hugr Ops.Op Meta) (ns : List Nat) (g : Hugr Ops.Op Meta) : Prop where
  tree : IsTree g
  live : ∀ m, g.live m = true ↔ h.live m = true ∧ m ∉ ns
  ops : ∀ m, m ∉ ns → g.ops m = h.ops m
  ins : g.ins = h.ins
  outs : g.outs = h.outs
  metadata : g.metadata = h.metadata
  moduleRoot : g.moduleRoot = h.moduleRoot
  entrypoint : g.entrypoint = h.entrypoint
  parent : ∀ m, m ∉ ns → g.hier.parent m = h.hier.parent m
  children : ∀ m, g.hier.children m = (h.hier.children m).filter (· ∉ ns)
  links : g.links = h.links.filter fun l => l.src ∉ ns && l.dst ∉ ns

theorem removeEach : ∀ {ns : List Nat} {h : Hugr Ops.Op Meta}, IsTree h → ns.Nodup →
    (∀ n ∈ ns, h.live n = true ∧ n ≠ h.entrypoint ∧ n ≠ h.moduleRoot ∧ h.children n = []) →
    ∃ g, each (fun g n => g.removeNode opsInfo.toOpInfo n) h ns = some g ∧ RemovedAll h ns g
  | [], h, ht, _, _ => by
    refine ⟨h, rfl, ht, by simp, by simp, rfl, rfl, rfl, rfl, rfl, by simp, ?_, ?_⟩
    · intro m; exact (List.filter_eq_self.2 (by simp)).symm
    · exact (List.filter_eq_self.2 (by simp)).symm
  | n :: ns, h, ht, hd, hn => by
    obtain ⟨a1, a2, a3, a4⟩ := hn n (by simp)
    obtain ⟨h1, e1, r1⟩ := removeLeaf ht a1 a2 a3 a4
    obtain ⟨hnn, hnd⟩ := List.nodup_cons.1 hd
    obtain ⟨g, e2, r2⟩ := removeEach (ns := ns) r1.tree hnd (by
      intro m hm
      obtain ⟨b1, b2, b3, b4⟩ := hn m (by simp [hm])
      refine ⟨(r1.live m).2 ⟨b1, ?_⟩, by rw [r1.entrypoint]; exact b2, by rw [r1.moduleRoot]; exact b3, ?_⟩
      · rintro rfl; exact hnn hm
      · refine (r1.children m).trans ?_
        have : h.hier.children m = [] := b4
        rw [this]; rfl)
    refine ⟨g, by simp only [each, e1]; exact e2, r2.tree, ?_, ?_, ?_, ?_, ?_, ?_, ?_, ?_, ?_, ?_⟩
    · intro m
      rw [r2.live, r1.live]
      simp only [List.mem_cons, not_or]
      tauto
    · intro m hm
      simp only [List.mem_cons, not_or] at hm
      rw [r2.ops m hm.2, r1.ops m hm.1]
    · rw [r2.ins, r1.ins]
    · rw [r2.outs, r1.outs]
    · rw [r2.metadata, r1.metadata]
    · rw [r2.moduleRoot, r1.moduleRoot]
    · rw [r2.entrypoint, r1.entrypoint]
    · intro m hm
      simp only [List.mem_cons, not_or] at hm
      rw [r2.parent m hm.2, r1.parent m hm.1]
    · intro m
      rw [r2.children, r1.children, List.filter_filter]
      apply List.filter_congr
      intro x _
      by_cases h1 : x ∈ ns <;> by_cases h2 : x = n <;> simp [h1, h2]
    · rw [r2.links, r1.links, List.filter_filter]
      apply List.filter_congr
      intro l _
      by_cases h1 : l.src ∈ ns <;> by_cases h2 : l.src = n <;> by_cases h3 : l.dst ∈ ns <;>
        by_cases h4 : l.dst = n <;> simp [h1, h2, h3, h4]

/-! ## Connecting -/

theorem connectBoundary_each {map : List (Nat × Nat)} : ∀ {es : List (BPort × BPort)} {h : Hugr Ops.Op Meta}
    {F : BPort × BPort → Link}, (∀ e ∈ es, e.1.resolve map = some ((F e).src, (F e).srcPort) ∧
      e.2.resolve map = some ((F e).dst, (F e).dstPort) ∧ CanStart h (F e).src (F e).srcPort ∧
      CanEnd h (F e).dst (F e).dstPort) →
    each (connectBoundary map) h es = some (SetLinks h (h.links ++ es.map F))
  | [], h, F, _ => by simp [each]
  | e :: es, h, F, hx => by
    obtain ⟨h1, h2, h3, h4⟩ := hx e (by simp)
    have hc : connectBoundary map h e = some (SetLinks h (h.links ++ [F e])) := by
      unfold connectBoundary
      rw [h1, h2]
      exact connect_eq h3 h4
    simp only [each, hc]
    rw [connectBoundary_each (F := F) (h := SetLinks h (h.links ++ [F e])) fun e he => hx e (by simp [he])]
    simp

end Verif.Patch
