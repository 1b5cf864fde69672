import Mathlib.Algebra.BigOperators.Group.List.Basic
import Mathlib.Data.List.Nodup
import Mathlib.Logic.Relation
import Mathlib.Tactic.Common

/-!
# Depth-first search

`petgraph::visit::Dfs`, whose source is not available here, modelled by its documented behaviour.
-/
namespace Verif.Passes

/-- `Dfs::next`, repeated: pop a node from the stack; if it is new, yield it and push its successors
that are new. `fuel` bounds the number of rounds. The result is the list of discovered nodes, last
first. -/
def dfs (succ : Nat → List Nat) : Nat → List Nat → List Nat → List Nat
  | 0, discovered, _ => discovered
  | _, discovered, [] => discovered
  | fuel + 1, discovered, n :: stack =>
    if n ∈ discovered then dfs succ fuel discovered stack
    else dfs succ fuel (n :: discovered)
      (((succ n).filter fun m => m ∉ n :: discovered).reverse ++ stack)

/-- A bound on the number of rounds: every node among `nodes` pushes its successors once. -/
def dfsFuel (succ : Nat → List Nat) (nodes start : List Nat) : Nat :=
  start.length + 1 + (nodes.map fun n => (succ n).length).sum

theorem sum_filter_cons' (l : List Nat) (hl : l.Nodup) (w : Nat → Nat) (S : List Nat) (n : Nat)
    (hn : n ∈ l) (hS : n ∉ S) :
    ((l.filter fun x => x ∉ n :: S).map w).sum + w n = ((l.filter fun x => x ∉ S).map w).sum := by
  induction l with
  | nil => cases hn
  | cons a l ih =>
    rw [List.nodup_cons] at hl
    rcases List.mem_cons.1 hn with rfl | hn'
    · have hc : (l.filter fun x => x ∉ n :: S) = l.filter fun x => x ∉ S := by
        apply List.filter_congr
        intro x hx
        have : x ≠ n := fun he => hl.1 (he ▸ hx)
        simp [this]
      rw [List.filter_cons_of_neg (by simp), List.filter_cons_of_pos (by simpa using hS), hc,
        List.map_cons, List.sum_cons]
      omega
    · have hne : a ≠ n := fun he => hl.1 (he ▸ hn')
      have := ih hl.2 hn'
      by_cases haS : a ∈ S
      · rw [List.filter_cons_of_neg (by simp [haS]), List.filter_cons_of_neg (by simp [haS])]
        exact this
      · rw [List.filter_cons_of_pos (by simp [haS, hne]), List.filter_cons_of_pos (by simp [haS])]
        simp only [List.map_cons, List.sum_cons]
        omega

/-- Everything found can be reached from the start, and everything that can be reached is found. -/
theorem dfs_mem (succ : Nat → List Nat) (nodes start : List Nat) (hnodes : nodes.Nodup)
    (hstart : ∀ n ∈ start, n ∈ nodes) (hsucc : ∀ n ∈ nodes, ∀ m ∈ succ n, m ∈ nodes) (n : Nat) :
    n ∈ dfs succ (dfsFuel succ nodes start) [] start ↔
      ∃ s ∈ start, Relation.ReflTransGen (fun a b => b ∈ succ a) s n := by
  have key : ∀ fuel D S, (∀ x ∈ D ++ S, x ∈ nodes ∧
        ∃ s ∈ start, Relation.ReflTransGen (fun a b => b ∈ succ a) s x) →
      (∀ s ∈ start, s ∈ D ++ S) → (∀ d ∈ D, ∀ x ∈ succ d, x ∈ D ++ S) →
      S.length + ((nodes.filter fun x => x ∉ D).map fun n => (succ n).length).sum < fuel →
      (n ∈ dfs succ fuel D S ↔
        ∃ s ∈ start, Relation.ReflTransGen (fun a b => b ∈ succ a) s n) := by
    intro fuel
    induction fuel with
    | zero => intro D S _ _ _ hf; omega
    | succ fuel ih =>
      intro D S h1 h2 h3 hf
      cases S with
      | nil =>
        simp only [dfs]
        simp only [List.append_nil] at h1 h2 h3
        constructor
        · exact fun hn => (h1 n hn).2
        · rintro ⟨s, hs, hr⟩
          clear ih
          induction hr with
          | refl => exact h2 s hs
          | tail _ hb ih' => exact h3 _ ih' _ hb
      | cons a S =>
        unfold dfs
        simp only [List.length_cons] at hf
        by_cases ha : a ∈ D
        · rw [if_pos ha]
          have hsub : ∀ m, m ∈ D ++ a :: S ↔ m ∈ D ++ S := by
            intro m
            simp only [List.mem_append, List.mem_cons]
            constructor
            · rintro (h | rfl | h)
              · exact Or.inl h
              · exact Or.inl ha
              · exact Or.inr h
            · rintro (h | h)
              · exact Or.inl h
              · exact Or.inr (Or.inr h)
          simp only [hsub] at h1 h2 h3
          exact ih D S h1 h2 h3 (by omega)
        · rw [if_neg ha]
          have hA := h1 a (by simp)
          have hmono : ∀ m, m ∈ D ++ a :: S →
              m ∈ (a :: D) ++ (((succ a).filter fun m => m ∉ a :: D).reverse ++ S) := by
            intro m hm
            simp only [List.mem_append, List.mem_cons] at hm ⊢
            tauto
          refine ih _ _ ?_ (fun s hs => hmono s (h2 s hs)) ?_ ?_
          · intro x hx
            simp only [List.mem_append, List.mem_cons, List.mem_reverse, List.mem_filter] at hx
            rcases hx with (rfl | hx) | ⟨hx, _⟩ | hx
            · exact hA
            · exact h1 x (by simp [hx])
            · obtain ⟨s, hs, hr⟩ := hA.2
              exact ⟨hsucc a hA.1 x hx, s, hs, hr.tail hx⟩
            · exact h1 x (by simp [hx])
          · intro d hd x hx
            rcases List.mem_cons.1 hd with rfl | hd
            · by_cases hxD : x ∈ d :: D
              · exact List.mem_append_left _ hxD
              · apply List.mem_append_right
                apply List.mem_append_left
                rw [List.mem_reverse, List.mem_filter]
                exact ⟨hx, by simpa using hxD⟩
            · exact hmono x (h3 d hd x hx)
          · have := sum_filter_cons' nodes hnodes (fun n => (succ n).length) D a hA.1 ha
            have hle : ((succ a).filter fun m => m ∉ a :: D).length ≤ (succ a).length :=
              List.length_filter_le _ _
            simp only [List.length_append, List.length_reverse]
            omega
  refine key _ [] start ?_ (by simp) (by simp) ?_
  · intro x hx
    simp only [List.nil_append] at hx
    exact ⟨hstart x hx, x, hx, .refl⟩
  · have : (nodes.filter fun x => x ∉ ([] : List Nat)) = nodes := by
      apply List.filter_eq_self.2; simp
    rw [this]
    unfold dfsFuel
    omega

end Verif.Passes
