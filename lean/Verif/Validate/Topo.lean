import Verif.Passes.Dfs

/-!
# Topological traversal

`petgraph::visit::Topo`, whose source is not available here, modelled by its documented behaviour:
a node is visited once all nodes with an edge to it have been visited.
-/
namespace Verif.Validate

open Verif.Passes

/-- `Topo::next`, repeated: pop a node; if it is new, visit it and push its successors all of whose
predecessors are visited. `fuel` bounds the number of rounds. The result is the list of visited nodes,
last first. -/
def topoLoop (succ pred : Nat → List Nat) : Nat → List Nat → List Nat → List Nat
  | 0, ordered, _ => ordered
  | _, ordered, [] => ordered
  | fuel + 1, ordered, n :: stack =>
    if n ∈ ordered then topoLoop succ pred fuel ordered stack
    else topoLoop succ pred fuel (n :: ordered)
      (((succ n).filter fun m => (pred m).all fun b => b ∈ n :: ordered).reverse ++ stack)

/-- `Topo::new` starts with the nodes without predecessors. -/
def topo (nodes : List Nat) (succ pred : Nat → List Nat) : List Nat :=
  let initial := nodes.filter fun n => (pred n).isEmpty
  topoLoop succ pred (dfsFuel succ nodes initial) [] initial.reverse

/-- In the list of visited nodes, last first, every node comes after its predecessors. -/
def Ordered (pred : Nat → List Nat) : List Nat → Prop
  | [] => True
  | n :: l => n ∉ l ∧ (∀ b ∈ pred n, b ∈ l) ∧ Ordered pred l

theorem ordered_no_cycle {succ pred : Nat → List Nat} (hsp : ∀ a b, b ∈ succ a → a ∈ pred b) :
    ∀ l, Ordered pred l → ∀ a b, b ∈ l → Relation.TransGen (fun a b => b ∈ succ a) a b →
      a ∈ l ∧ a ≠ b := by
  intro l
  induction l with
  | nil => intro _ a b hb; cases hb
  | cons n l ih =>
    rintro ⟨h1, h2, h3⟩ a b hb hab
    rcases List.mem_cons.1 hb with rfl | hb
    · have hal : a ∈ l := by
        cases hab with
        | single hab => exact h2 a (hsp _ _ hab)
        | tail hac hcb =>
          exact (ih h3 a _ (h2 _ (hsp _ _ hcb)) hac).1
      exact ⟨List.mem_cons_of_mem _ hal, fun he => h1 (he ▸ hal)⟩
    · obtain ⟨h4, h5⟩ := ih h3 a b hb hab
      exact ⟨List.mem_cons_of_mem _ h4, h5⟩

/-- What the traversal ends with: an ordered list that contains every node all of whose predecessors
it contains. -/
theorem topoLoop_spec (nodes : List Nat) (hnodes : nodes.Nodup) (succ pred : Nat → List Nat)
    (hsp : ∀ a b, b ∈ succ a ↔ a ∈ pred b) (hin : ∀ a b, b ∈ succ a → a ∈ nodes ∧ b ∈ nodes) :
    ∀ fuel D S, Ordered pred D → (∀ x ∈ D ++ S, x ∈ nodes) →
      (∀ x ∈ S, ∀ b ∈ pred x, b ∈ D) →
      (∀ x ∈ nodes, (∀ b ∈ pred x, b ∈ D) → x ∈ D ++ S) →
      S.length + ((nodes.filter fun x => x ∉ D).map fun n => (succ n).length).sum < fuel →
      Ordered pred (topoLoop succ pred fuel D S) ∧
      (∀ x ∈ topoLoop succ pred fuel D S, x ∈ nodes) ∧
      ∀ x ∈ nodes, (∀ b ∈ pred x, b ∈ topoLoop succ pred fuel D S) →
        x ∈ topoLoop succ pred fuel D S := by
  intro fuel
  induction fuel with
  | zero => intro D S _ _ _ _ hf; omega
  | succ fuel ih =>
    intro D S hD h1 h2 h3 hf
    cases S with
    | nil =>
      simp only [topoLoop]
      simp only [List.append_nil] at h1 h3
      exact ⟨hD, h1, h3⟩
    | cons a S =>
      unfold topoLoop
      simp only [List.length_cons] at hf
      by_cases ha : a ∈ D
      · rw [if_pos ha]
        apply ih D S hD
        · intro x hx; apply h1; simp at hx ⊢; tauto
        · intro x hx; exact h2 x (List.mem_cons_of_mem _ hx)
        · intro x hx hb
          have := h3 x hx hb
          simp only [List.mem_append, List.mem_cons] at this ⊢
          rcases this with h | rfl | h
          · exact .inl h
          · exact .inl ha
          · exact .inr h
        · omega
      · rw [if_neg ha]
        have hA : a ∈ nodes := h1 a (by simp)
        apply ih
        · exact ⟨ha, h2 a (List.mem_cons_self ..), hD⟩
        · intro x hx
          simp only [List.mem_append, List.mem_cons, List.mem_reverse, List.mem_filter] at hx
          rcases hx with (rfl | hx) | ⟨hx, _⟩ | hx
          · exact hA
          · exact h1 x (by simp [hx])
          · exact (hin _ _ hx).2
          · exact h1 x (by simp [hx])
        · intro x hx b hb
          rw [List.mem_append, List.mem_reverse, List.mem_filter] at hx
          rcases hx with ⟨_, hx⟩ | hx
          · rw [List.all_eq_true] at hx
            simpa using hx b hb
          · exact List.mem_cons_of_mem _ (h2 x (List.mem_cons_of_mem _ hx) b hb)
        · intro x hx hb
          by_cases hax : a ∈ pred x
          · apply List.mem_append_right
            apply List.mem_append_left
            rw [List.mem_reverse, List.mem_filter, List.all_eq_true]
            exact ⟨(hsp a x).2 hax, fun b hb' => by simpa using hb b hb'⟩
          · have := h3 x hx (fun b hb' => by
              rcases List.mem_cons.1 (hb b hb') with rfl | h
              · exact absurd hb' hax
              · exact h)
            simp only [List.mem_append, List.mem_cons] at this ⊢
            tauto
        · have := sum_filter_cons' nodes hnodes (fun n => (succ n).length) D a hA ha
          have hle : ((succ a).filter fun m => (pred m).all fun b => b ∈ a :: D).length ≤
              (succ a).length := List.length_filter_le _ _
          simp only [List.length_append, List.length_reverse]
          omega

theorem ordered_nodup {pred : Nat → List Nat} : ∀ {l}, Ordered pred l → l.Nodup := by
  intro l
  induction l with
  | nil => intro _; exact List.nodup_nil
  | cons a l ih => rintro ⟨h1, _, h3⟩; exact List.nodup_cons.2 ⟨h1, ih h3⟩

/-- The traversal visits as many nodes as there are exactly when there is no cycle. -/
theorem topo_length (nodes : List Nat) (hnodes : nodes.Nodup) (succ pred : Nat → List Nat)
    (hsp : ∀ a b, b ∈ succ a ↔ a ∈ pred b) (hin : ∀ a b, b ∈ succ a → a ∈ nodes ∧ b ∈ nodes) :
    (topo nodes succ pred).length = nodes.length ↔
      ∀ n, ¬ Relation.TransGen (fun a b => b ∈ succ a) n n := by
  have hinit : ∀ x, x ∈ (nodes.filter fun n => (pred n).isEmpty).reverse ↔
      x ∈ nodes ∧ pred x = [] := by
    intro x
    rw [List.mem_reverse, List.mem_filter, List.isEmpty_iff]
  obtain ⟨h1, h2, h3⟩ := topoLoop_spec nodes hnodes succ pred hsp hin
    (dfsFuel succ nodes (nodes.filter fun n => (pred n).isEmpty)) []
    (nodes.filter fun n => (pred n).isEmpty).reverse trivial
    (by intro x hx; exact ((hinit x).1 hx).1)
    (by intro x hx b hb; rw [((hinit x).1 hx).2] at hb; cases hb)
    (by
      intro x hx hb
      rw [List.nil_append, hinit]
      refine ⟨hx, ?_⟩
      cases hp : pred x with
      | nil => rfl
      | cons b bs => cases hb b (by rw [hp]; exact List.mem_cons_self ..))
    (by
      have : (nodes.filter fun x => x ∉ ([] : List Nat)) = nodes := by
        apply List.filter_eq_self.2; simp
      rw [this, List.length_reverse]
      unfold dfsFuel
      omega)
  change (topoLoop succ pred _ [] _).length = _ ↔ _
  generalize topoLoop succ pred (dfsFuel succ nodes (nodes.filter fun n => (pred n).isEmpty)) []
    (nodes.filter fun n => (pred n).isEmpty).reverse = L at *
  have hnd := ordered_nodup h1
  have hsub : L ⊆ nodes := h2
  constructor
  · intro hlen n hn
    have hall : ∀ x ∈ nodes, x ∈ L := by
      have hp : L.Perm nodes := by
        exact (List.subperm_of_subset hnd hsub).perm_of_length_le (by omega)
      exact fun x hx => hp.mem_iff.2 hx
    have hnn : n ∈ nodes := by
      cases hn with
      | single h => exact (hin _ _ h).2
      | tail _ h => exact (hin _ _ h).2
    exact (ordered_no_cycle (fun a b h => (hsp a b).1 h) L h1 n n (hall n hnn) hn).2 rfl
  · intro hac
    have hall : ∀ x ∈ nodes, x ∈ L := by
      intro x hx
      -- otherwise there is an infinite walk backwards among the finitely many nodes
      apply Classical.byContradiction
      intro hxL
      have hstep : ∀ y, (y ∈ nodes ∧ y ∉ L) → ∃ z, (z ∈ nodes ∧ z ∉ L) ∧ y ∈ succ z := by
        rintro y ⟨hy, hyL⟩
        by_contra hc
        apply hyL
        apply h3 y hy
        intro b hb
        by_contra hbL
        exact hc ⟨b, ⟨(hin _ _ ((hsp b y).2 hb)).1, hbL⟩, (hsp b y).2 hb⟩
      have hlong : ∀ k, ∃ w : List Nat, w.length = k + 1 ∧ (∀ y ∈ w, y ∈ nodes ∧ y ∉ L) ∧
          w.Pairwise (fun a b => Relation.TransGen (fun a b => b ∈ succ a) a b) := by
        intro k
        induction k with
        | zero => exact ⟨[x], rfl, by simp [hx, hxL], by simp⟩
        | succ k ih =>
          obtain ⟨w, hw1, hw2, hw3⟩ := ih
          cases w with
          | nil => simp at hw1
          | cons y w =>
            obtain ⟨z, hz, hzy⟩ := hstep y (hw2 y (List.mem_cons_self ..))
            refine ⟨z :: y :: w, by simp at hw1 ⊢; omega, ?_, ?_⟩
            · intro a ha
              rcases List.mem_cons.1 ha with rfl | ha
              · exact hz
              · exact hw2 a ha
            · rw [List.pairwise_cons]
              refine ⟨?_, hw3⟩
              intro a ha
              rcases List.mem_cons.1 ha with rfl | ha
              · exact .single hzy
              · exact .head hzy ((List.pairwise_cons.1 hw3).1 a ha)
      obtain ⟨w, hw1, hw2, hw3⟩ := hlong nodes.length
      have hwn : w.Nodup := by
        refine List.Pairwise.imp ?_ hw3
        rintro a b h rfl
        exact hac a h
      have := (List.subperm_of_subset hwn (fun y hy => (hw2 y hy).1)).length_le
      omega
    have l1 := (List.subperm_of_subset hnd hsub).length_le
    have l2 := (List.subperm_of_subset hnodes hall).length_le
    omega

end Verif.Validate
