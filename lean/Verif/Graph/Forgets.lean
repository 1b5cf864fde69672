import Verif.Graph.Insert

/-!
# Removed nodes are forgotten

The slots of a Hugr that hold no node hold no operation either: nothing that is done with a Hugr leaves the
operation of a node behind.
-/
namespace Verif.Graph

variable {Op Meta : Type} {I : OpInfo Op} {h g : Hugr Op Meta}

/-- The slots without a node hold the default operation. -/
def Forgets (I : OpInfo Op) (h : Hugr Op Meta) : Prop := ∀ n, h.live n = false → h.ops n = I.default

namespace Forgets

theorem congr (hf : Forgets I h) (h1 : g.live = h.live) (h2 : g.ops = h.ops) : Forgets I g := by
  intro n hn
  rw [h1] at hn
  rw [h2]
  exact hf n hn

theorem new (op : Op) : Forgets I (Hugr.new I op : Hugr Op Meta) := by
  intro n hn
  have : n ≠ 0 := by rintro rfl; simp [Hugr.new] at hn
  simp [Hugr.new, upd, this]

theorem addNode (hf : Forgets I h) {n : Nat} {op : Op} (hg : h.addNode I n op = some g) : Forgets I g := by
  unfold Hugr.addNode at hg
  split at hg
  · cases hg
  · cases hg
    intro m hm
    simp only [upd] at hm ⊢
    by_cases e : m = n
    · simp [e] at hm
    · rw [if_neg e] at hm ⊢
      exact hf m hm

theorem withHier (hf : Forgets I h) {r : Option Hier} (hg : h.withHier r = some g) : Forgets I g := by
  unfold Hugr.withHier at hg
  split at hg <;> cases hg
  exact hf

theorem setParent (hf : Forgets I h) {n p : Nat} (hg : h.setParent n p = some g) : Forgets I g := by
  unfold Hugr.setParent at hg
  split at hg
  · exact hf.withHier hg
  · cases hg

theorem removeNode (hf : Forgets I h) {n : Nat} (hg : h.removeNode I n = some g) : Forgets I g := by
  unfold Hugr.removeNode at hg
  split at hg <;> cases hg
  intro m hm
  simp only [upd] at hm ⊢
  by_cases e : m = n
  · rw [if_pos e]
  · rw [if_neg e] at hm ⊢
    exact hf m hm

theorem connect (hf : Forgets I h) {l : Link} (hg : h.connect l = some g) : Forgets I g := by
  unfold Hugr.connect at hg
  split at hg <;> cases hg
  exact hf

theorem setNumPorts (hf : Forgets I h) {n a b : Nat} (hg : h.setNumPorts n a b = some g) : Forgets I g := by
  unfold Hugr.setNumPorts at hg
  split at hg <;> cases hg
  exact hf

theorem connectAll : ∀ {ls : List Link} {h g : Hugr Op Meta}, Forgets I h → Graph.connectAll h ls = some g → Forgets I g
  | [], _, _, hf, hg => by cases hg; exact hf
  | l :: ls, h, g, hf, hg => by
    simp only [Graph.connectAll] at hg
    cases hc : h.connect l with
    | none => rw [hc] at hg; cases hg
    | some h' => rw [hc] at hg; exact connectAll (hf.connect hc) hg

/-- The map names nodes. -/
def Named (h : Hugr Op Meta) (map : List (Nat × Nat)) : Prop := ∀ e ∈ map, h.live e.2 = true

theorem connect_live {l : Link} (hg : h.connect l = some g) : g.live = h.live := by
  unfold Hugr.connect at hg
  split at hg <;> cases hg
  rfl

theorem connectAll_live : ∀ {ls : List Link} {h g : Hugr Op Meta}, Graph.connectAll h ls = some g → g.live = h.live
  | [], _, _, hg => by cases hg; rfl
  | l :: ls, h, g, hg => by
    simp only [Graph.connectAll] at hg
    cases hc : h.connect l with
    | none => rw [hc] at hg; cases hg
    | some h' => rw [hc] at hg; exact (connectAll_live hg).trans (connect_live hc)

theorem insertNodes {other : Hugr Op Meta} : ∀ {pairs : List (Nat × Nat)} {h g : Hugr Op Meta} {map map' : List (Nat × Nat)},
    Forgets I h → Named h map → Graph.insertNodes I other pairs h map = .done g map' → Forgets I g ∧ Named g map'
  | [], _, _, _, _, hf, hm, hg => by cases hg; exact ⟨hf, hm⟩
  | (old, new) :: rest, h, g, map, map', hf, hm, hg => by
    simp only [Graph.insertNodes] at hg
    cases h1 : h.addNode I new I.default with
    | none => rw [h1] at hg; cases hg
    | some g1 =>
      rw [h1] at hg
      simp only [] at hg
      split at hg
      · cases hg
      · cases h2 : g1.setNumPorts new (other.ins old) (other.outs old) with
        | none => rw [h2] at hg; cases hg
        | some g2 =>
          rw [h2] at hg
          simp only [] at hg
          cases h3 : Graph.connectAll g2 (newLinks other ((old, new) :: map) old new) with
          | none => rw [h3] at hg; cases hg
          | some g3 =>
            rw [h3] at hg
            simp only [] at hg
            refine insertNodes ((hf.addNode h1).setNumPorts h2 |>.connectAll h3) ?_ hg
            have e1 : g2.live = g1.live := by
              unfold Hugr.setNumPorts at h2
              split at h2 <;> cases h2
              rfl
            have e2 : g1.live = upd h.live new true := by
              unfold Hugr.addNode at h1
              split at h1
              · cases h1
              · cases h1; rfl
            intro e he
            rw [connectAll_live h3, e1, e2]
            simp only [upd]
            by_cases hn : e.2 = new
            · rw [if_pos hn]
            · rw [if_neg hn]
              rcases List.mem_cons.1 he with rfl | he
              · exact absurd rfl hn
              · exact hm e he

theorem withHier_live {r : Option Hier} (hg : h.withHier r = some g) : g.live = h.live := by
  unfold Hugr.withHier at hg
  split at hg <;> cases hg
  rfl

theorem setParent_live {n p : Nat} (hg : h.setParent n p = some g) : g.live = h.live := by
  unfold Hugr.setParent at hg
  split at hg
  · exact withHier_live hg
  · cases hg

theorem attachRoots {map : List (Nat × Nat)} : ∀ {roots : List (Nat × Nat)} {h g : Hugr Op Meta}, Forgets I h →
    Graph.attachRoots map roots h = some g → Forgets I g ∧ g.live = h.live
  | [], _, _, hf, hg => by cases hg; exact ⟨hf, rfl⟩
  | (r, p) :: roots, h, g, hf, hg => by
    simp only [Graph.attachRoots] at hg
    split at hg
    · cases hg
    · rename_i n _
      cases h1 : h.setParent n p with
      | none => rw [h1] at hg; cases hg
      | some g1 =>
        rw [h1] at hg
        obtain ⟨a, b⟩ := attachRoots (hf.setParent h1) hg
        exact ⟨a, b.trans (setParent_live h1)⟩

theorem attachRest {other : Hugr Op Meta} {map : List (Nat × Nat)} : ∀ {olds : List Nat} {h g : Hugr Op Meta}, Forgets I h →
    Graph.attachRest other map olds h = some g → Forgets I g ∧ g.live = h.live
  | [], _, _, hf, hg => by cases hg; exact ⟨hf, rfl⟩
  | old :: rest, h, g, hf, hg => by
    simp only [Graph.attachRest] at hg
    split at hg
    · cases hg
    · split at hg
      · exact attachRest hf hg
      · split at hg
        · cases hg
        · split at hg
          · cases hg
          · split at hg
            · cases hg
            · rename_i h1
              obtain ⟨a, b⟩ := attachRest (hf.setParent h1) hg
              exact ⟨a, b.trans (setParent_live h1)⟩

theorem insertForestInternal (hf : Forgets I h) {other : Hugr Op Meta} {pairs roots map : List (Nat × Nat)}
    (hg : Graph.insertForestInternal I h other pairs roots = .done g map) : Forgets I g ∧ Named g map := by
  unfold Graph.insertForestInternal at hg
  split at hg
  · rename_i h1 m1 e1
    obtain ⟨a1, b1⟩ := insertNodes hf (by intro e he; cases he) e1
    split at hg
    · cases hg
    · rename_i h2 e2
      obtain ⟨a2, b2⟩ := attachRoots a1 e2
      split at hg
      · cases hg
      · rename_i h3 e3
        obtain ⟨a3, b3⟩ := attachRest a2 e3
        cases hg
        refine ⟨a3, fun e he => ?_⟩
        rw [b3, b2]
        exact b1 e he
  · rename_i hno
    exact absurd hg (hno _ _)

theorem setOps {other : Hugr Op Meta} {map : List (Nat × Nat)} (hm : Named h map) (hf : Forgets I h) :
    ∀ n, h.live n = false → map.foldl (fun ops e => upd ops e.2 (other.ops e.1)) h.ops n = I.default := by
  intro n hn
  have key : ∀ (map : List (Nat × Nat)) (ops : Nat → Op), (∀ e ∈ map, e.2 ≠ n) → ops n = I.default →
      map.foldl (fun ops e => upd ops e.2 (other.ops e.1)) ops n = I.default := by
    intro map
    induction map with
    | nil => exact fun _ _ h => h
    | cons e map ih =>
      intro ops h1 h2
      rw [List.foldl_cons]
      refine ih _ (fun e he => h1 e (by simp [he])) ?_
      simp only [upd]
      rw [if_neg (h1 e (by simp)).symm]
      exact h2
  refine key map _ (fun e he => ?_) (hf n hn)
  rintro rfl
  rw [hm e he] at hn
  cases hn

theorem insertRegion (hf : Forgets I h) {other : Hugr Op Meta} {root region : Nat} {news : List Nat}
    {map : List (Nat × Nat)} (hg : h.insertRegion I root other region news = .done g map) : Forgets I g := by
  unfold Hugr.insertRegion Hugr.insertForest at hg
  split at hg
  · cases hg
  · split at hg
    · rename_i e1
      cases hg
      obtain ⟨a, b⟩ := hf.insertForestInternal e1
      exact setOps b a
    · cases hg

theorem removeQueue : ∀ {fuel : Nat} {h g : Hugr Op Meta} {queue : List Nat}, Forgets I h →
    h.removeQueue I fuel queue = some g → Forgets I g
  | 0, _, _, [], hf, hg => by simp only [Hugr.removeQueue] at hg; cases hg; exact hf
  | 0, _, _, _ :: _, _, hg => by simp only [Hugr.removeQueue] at hg; cases hg
  | _ + 1, _, _, [], hf, hg => by simp only [Hugr.removeQueue] at hg; cases hg; exact hf
  | fuel + 1, h, g, n :: queue, hf, hg => by
    simp only [Hugr.removeQueue] at hg
    cases h1 : h.removeNode I n with
    | none => rw [h1] at hg; cases hg
    | some g1 => rw [h1] at hg; exact removeQueue (hf.removeNode h1) hg

theorem addPorts (hf : Forgets I h) {n : Nat} {dir : Dir} {a : Int} {r : Nat × Nat}
    (hg : h.addPorts n dir a = some (g, r)) : Forgets I g := by
  unfold Hugr.addPorts at hg
  split at hg
  · cases dir <;> cases hg <;> exact hf
  · cases hg

theorem shiftPorts (hf : Forgets I h) (n : Nat) (dir : Dir) (a : Nat) (ports : List Nat) :
    Forgets I (ports.foldl (fun g p => g.shiftPort n dir a p) h) := by
  induction ports generalizing h with
  | nil => exact hf
  | cons p ports ih => exact ih (h := h.shiftPort n dir a p) hf

/-- One call. -/
theorem step (hf : Forgets I h) {c : Cmd Op Meta} (hg : Graph.step I h c = some g) : Forgets I g := by
  cases c with
  | setEntrypoint n =>
    simp only [Graph.step, Hugr.setEntrypoint] at hg
    split at hg <;> cases hg
    exact hf
  | addNodeWithParent idx p op =>
    simp only [Graph.step, Hugr.addNodeWithParent] at hg
    split at hg
    · cases hg
    · rename_i e; exact (hf.addNode e).withHier hg
  | addNodeBefore idx p op =>
    simp only [Graph.step, Hugr.addNodeBefore] at hg
    split at hg
    · cases hg
    · rename_i e; exact (hf.addNode e).withHier hg
  | addNodeAfter idx p op =>
    simp only [Graph.step, Hugr.addNodeAfter] at hg
    split at hg
    · cases hg
    · rename_i e; exact (hf.addNode e).withHier hg
  | setParent n p => exact hf.setParent hg
  | moveBeforeSibling n b =>
    simp only [Graph.step, Hugr.moveBeforeSibling] at hg
    split at hg
    · exact hf.withHier hg
    · cases hg
  | moveAfterSibling n b =>
    simp only [Graph.step, Hugr.moveAfterSibling] at hg
    split at hg
    · exact hf.withHier hg
    · cases hg
  | removeNode n => exact hf.removeNode hg
  | removeSubtree n =>
    simp only [Graph.step, Hugr.removeSubtree] at hg
    split at hg
    · exact removeQueue hf hg
    · cases hg
  | connect l => exact hf.connect hg
  | disconnect n dir port =>
    simp only [Graph.step, Hugr.disconnect] at hg
    split at hg <;> cases hg
    exact hf
  | setNumPorts n a b => exact hf.setNumPorts hg
  | addPorts n dir a =>
    simp only [Graph.step] at hg
    obtain ⟨⟨g', r⟩, h1, rfl⟩ := Option.map_eq_some_iff.1 hg
    exact hf.addPorts h1
  | insertPorts n dir i a =>
    simp only [Graph.step] at hg
    obtain ⟨⟨g', r⟩, h1, rfl⟩ := Option.map_eq_some_iff.1 hg
    simp only [Hugr.insertPorts] at h1
    split at h1
    · cases h1
    · rename_i e
      cases h1
      exact (hf.addPorts e).shiftPorts n dir a _
  | replaceOp n op =>
    simp only [Graph.step] at hg
    obtain ⟨⟨g', r⟩, h1, rfl⟩ := Option.map_eq_some_iff.1 hg
    unfold Hugr.replaceOp at h1
    split at h1
    · rename_i hl
      cases h1
      intro m hm
      simp only [upd]
      rw [if_neg]
      · exact hf m hm
      · rintro rfl
        simp only [] at hm
        rw [hm] at hl; cases hl
    · cases h1
  | setMetadata n k v =>
    simp only [Graph.step, Hugr.setMetadata] at hg
    split at hg <;> cases hg
    exact hf
  | removeMetadata n k =>
    simp only [Graph.step, Hugr.removeMetadata] at hg
    split at hg <;> cases hg
    exact hf

theorem run : ∀ {cs : List (Cmd Op Meta)} {h g : Hugr Op Meta}, Forgets I h → Graph.run I h cs = some g → Forgets I g
  | [], _, _, hf, hg => by cases hg; exact hf
  | c :: cs, h, g, hf, hg => by
    simp only [Graph.run] at hg
    cases h1 : Graph.step I h c with
    | none => rw [h1] at hg; cases hg
    | some g1 => rw [h1] at hg; exact run (hf.step h1) hg

end Forgets
end Verif.Graph
