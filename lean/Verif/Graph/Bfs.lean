import Mathlib.Data.List.Basic
import Mathlib.Data.List.Nodup
import Mathlib.Data.List.Perm.Subperm
import Verif.Graph.Props

/-!
# Breadth-first enumeration of a subtree
-/
namespace Verif.Graph

variable {Op Meta : Type}

/-- The loop of `canonical_order`, hugr.rs:336-347, and `portgraph::Hierarchy::descendants`: pop a
node from the front of the queue, push its children to the back, yield the node. `fuel` bounds the
number of rounds. -/
def bfs (children : Nat → List Nat) : Nat → List Nat → List Nat
  | 0, _ => []
  | _, [] => []
  | fuel + 1, n :: queue => n :: bfs children fuel (queue ++ children n)

/-- `HugrView::descendants`, views.rs:666-668, and `canonical_order`, hugr.rs:329-347. -/
def Hugr.descendants (h : Hugr Op Meta) (n : Nat) : List Nat := bfs h.children (h.cap + 1) [n]

/-- What an enumeration `L` of the subtree of `n` should be: every node at or below `n`, once;
parents before children; siblings in their order. -/
structure Enumerates (h : Hugr Op Meta) (n : Nat) (L : List Nat) : Prop where
  mem : ∀ m, m ∈ L ↔ Above h.hier.parent m n
  nodup : L.Nodup
  head : L.head? = some n
  parents_first : ∀ a m b, L = a ++ m :: b → m ≠ n → ∃ p, h.hier.parent m = some p ∧ p ∈ a
  siblings : ∀ x ∈ L, (L.filter fun m => m ≠ n ∧ h.hier.parent m = some x) = h.hier.children x

/-- The state of the search: `D` has been yielded, `Q` is in the queue. -/
structure BfsInv (h : Hugr Op Meta) (n : Nat) (D Q : List Nat) : Prop where
  nodup : (D ++ Q).Nodup
  above : ∀ m ∈ D ++ Q, Above h.hier.parent m n
  live : ∀ m ∈ D ++ Q, h.live m = true
  start : n ∈ D ++ Q
  closed : ∀ d ∈ D, ∀ c, h.hier.parent c = some d → c ∈ D ++ Q
  parents_first : ∀ a m b, D ++ Q = a ++ m :: b → m ≠ n → ∃ p, h.hier.parent m = some p ∧ p ∈ a ∧ p ∈ D
  siblings : ∀ x, ((D ++ Q).filter fun m => m ≠ n ∧ h.hier.parent m = some x) =
    if x ∈ D then h.hier.children x else []

theorem nodup_live_length {h : Hugr Op Meta} (ht : IsTree h) {l : List Nat} (hl : l.Nodup)
    (hlive : ∀ m ∈ l, h.live m = true) : l.length ≤ h.cap := by
  have : l.Subperm (List.range h.cap) :=
    hl.subperm fun x hx => List.mem_range.2 (ht.in_range x (hlive x hx))
  simpa using this.length_le

theorem bfsInv_step {h : Hugr Op Meta} (ht : IsTree h) {n q : Nat} {D Q : List Nat}
    (hi : BfsInv h n D (q :: Q)) : BfsInv h n (D ++ [q]) (Q ++ h.children q) := by
  have hac := ht.acyclic
  have hq : q ∈ D ++ q :: Q := by simp
  have hqn := hi.above q hq
  have hchild : ∀ c ∈ h.children q, c ∉ D ++ q :: Q := by
    intro c hc hmem
    have hp : h.hier.parent c = some q := (ht.child_iff q c).1 hc
    have hcn : c ≠ n := by
      rintro rfl
      exact hac _ _ hp hqn
    obtain ⟨a, b, hab⟩ := List.append_of_mem hmem
    obtain ⟨p, hp2, hpa, hpD⟩ := hi.parents_first a c b hab hcn
    rw [hp] at hp2; cases hp2
    have := hi.nodup
    rw [List.nodup_append] at this
    exact this.2.2 _ hpD _ (by simp) rfl
  have hqD : q ∉ D := by
    intro hqd
    have := hi.nodup
    rw [List.nodup_append] at this
    exact this.2.2 _ hqd _ (by simp) rfl
  have happ : D ++ [q] ++ (Q ++ h.children q) = (D ++ q :: Q) ++ h.children q := by simp
  have hchildn : ∀ c ∈ h.children q, c ≠ n := by
    rintro c hc rfl
    exact hac _ _ ((ht.child_iff q c).1 hc) hqn
  refine ⟨?_, ?_, ?_, ?_, ?_, ?_, ?_⟩
  · rw [happ, List.nodup_append]
    refine ⟨hi.nodup, ht.child_once q, ?_⟩
    rintro a ha b hb rfl
    exact hchild a hb ha
  · rw [happ]
    intro m hm
    rcases List.mem_append.1 hm with hm | hm
    · exact hi.above m hm
    · exact .step ((ht.child_iff q m).1 hm) hqn
  · rw [happ]
    intro m hm
    rcases List.mem_append.1 hm with hm | hm
    · exact hi.live m hm
    · exact (ht.parent_live m q ((ht.child_iff q m).1 hm)).1
  · rw [happ]; exact List.mem_append_left _ hi.start
  · rw [happ]
    intro d hd c hc
    rcases List.mem_append.1 hd with hd | hd
    · exact List.mem_append_left _ (hi.closed d hd c hc)
    · simp only [List.mem_singleton] at hd; subst hd
      exact List.mem_append_right _ ((ht.child_iff _ c).2 hc)
  · rw [happ]
    intro a m b hab hmn
    rw [List.append_eq_append_iff] at hab
    rcases hab with ⟨a', ha, hb⟩ | ⟨b', ha, hb⟩
    · -- `m` is a child of `q`
      have hmc : m ∈ h.children q := by rw [hb]; simp
      exact ⟨q, (ht.child_iff q m).1 hmc, by rw [ha]; simp, by simp⟩
    · cases b' with
      | nil =>
        have hmc : m ∈ h.children q := by rw [← List.nil_append (h.children q), ← hb]; simp
        refine ⟨q, (ht.child_iff q m).1 hmc, ?_, by simp⟩
        rw [List.append_nil] at ha; rw [← ha]; simp
      | cons x b' =>
        simp only [List.cons_append, List.cons.injEq] at hb
        obtain ⟨rfl, hb⟩ := hb
        obtain ⟨p, h1, h2, h3⟩ := hi.parents_first a m b' ha hmn
        exact ⟨p, h1, h2, by simp [h3]⟩
  · intro x
    rw [happ, List.filter_append, hi.siblings x]
    by_cases hxq : x = q
    · subst hxq
      rw [if_neg hqD, if_pos (by simp), List.nil_append]
      apply List.filter_eq_self.2
      intro c hc
      simp only [decide_eq_true_eq]
      exact ⟨hchildn c hc, (ht.child_iff x c).1 hc⟩
    · have : (h.children q).filter (fun m => m ≠ n ∧ h.hier.parent m = some x) = [] := by
        rw [List.filter_eq_nil_iff]
        intro c hc
        simp only [decide_eq_true_eq, not_and]
        intro _ hp
        rw [(ht.child_iff q c).1 hc] at hp
        cases hp; exact hxq rfl
      rw [this, List.append_nil]
      have : x ∈ D ++ [q] ↔ x ∈ D := by simp [hxq]
      simp only [this]

theorem bfs_inv {h : Hugr Op Meta} (ht : IsTree h) {n : Nat} (fuel : Nat) (D Q : List Nat)
    (hi : BfsInv h n D Q) (hf : h.cap + 1 ≤ fuel + D.length) :
    BfsInv h n (D ++ bfs h.children fuel Q) [] := by
  induction fuel generalizing D Q with
  | zero =>
    exfalso
    have h1 : D.Nodup := (List.nodup_append.1 hi.nodup).1
    have := nodup_live_length ht h1 (fun m hm => hi.live m (List.mem_append_left _ hm))
    omega
  | succ fuel ih =>
    cases Q with
    | nil => simpa [bfs] using hi
    | cons q Q =>
      have := ih (D ++ [q]) (Q ++ h.children q) (bfsInv_step ht hi)
        (by simp only [List.length_append, List.length_singleton]; omega)
      simpa [bfs] using this

/-- The descendants of a live node are enumerated. -/
theorem descendants_enumerates {h : Hugr Op Meta} (ht : IsTree h) {n : Nat} (hn : h.live n = true) :
    Enumerates h n (h.descendants n) := by
  have h0 : BfsInv h n [] [n] := by
    refine ⟨by simp, ?_, ?_, by simp, by simp, ?_, ?_⟩
    · intro m hm; simp only [List.nil_append, List.mem_singleton] at hm; subst hm; exact .refl _
    · intro m hm; simp only [List.nil_append, List.mem_singleton] at hm; subst hm; exact hn
    · intro a m b hab hmn
      exfalso
      have : m ∈ [] ++ [n] := by rw [hab]; simp
      simp at this; exact hmn this
    · intro x; simp
  have hi := bfs_inv ht (h.cap + 1) [] [n] h0 (by simp)
  rw [List.nil_append] at hi
  change BfsInv h n (h.descendants n) [] at hi
  obtain ⟨h1, h2, _, h4, h5, h6, h7⟩ := hi
  simp only [List.append_nil] at h1 h2 h4 h5 h6 h7
  refine ⟨fun m => ⟨h2 m, ?_⟩, h1, ?_, ?_, ?_⟩
  · have key : ∀ a b, Above h.hier.parent a b → b = n → a ∈ h.descendants n := by
      intro a b hab
      induction hab with
      | refl a => rintro rfl; exact h4
      | step hp _ ih => intro hb; exact h5 _ (ih hb) _ hp
    exact fun hm => key m n hm rfl
  · simp [Hugr.descendants, bfs]
  · intro a m b hab hmn
    obtain ⟨p, hp, hpa, _⟩ := h6 a m b hab hmn
    exact ⟨p, hp, hpa⟩
  · intro x hx
    rw [h7 x, if_pos hx]

end Verif.Graph
