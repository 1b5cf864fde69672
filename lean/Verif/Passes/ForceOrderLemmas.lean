import Verif.Passes.ForceOrderSpec
import Mathlib.Order.RelClasses
import Mathlib.Order.WellFounded
import Mathlib.Data.Fintype.Order
import Mathlib.Order.Preorder.Finite

/-!
# Lemmas on the order of a region
-/
namespace Verif.Passes

variable {K : Type} [LinearOrder K]

theorem best_none {rank : Nat → K} {q : List Nat} : best rank q = none ↔ q = [] := by
  cases q with
  | nil => simp [best]
  | cons a q =>
    simp only [best, reduceCtorEq, iff_false]
    cases best rank q with
    | none => simp
    | some b => simp only; split <;> simp

theorem best_spec {rank : Nat → K} {q : List Nat} {n : Nat} (hb : best rank q = some n) :
    n ∈ q ∧ ∀ m ∈ q, m ≠ n → rank n < rank m ∨ (rank n = rank m ∧ m < n) := by
  induction q generalizing n with
  | nil => cases hb
  | cons a q ih =>
    simp only [best] at hb
    cases hq : best rank q with
    | none =>
      rw [hq] at hb
      rw [best_none] at hq
      subst hq
      simp only [Option.some.injEq] at hb
      subst hb
      simp
    | some b =>
      rw [hq] at hb
      obtain ⟨h1, h2⟩ := ih hq
      simp only at hb
      have hcmp : ∀ m ∈ q, m = b ∨ rank b < rank m ∨ (rank b = rank m ∧ m < b) := fun m hm => by
        by_cases hmb : m = b
        · exact Or.inl hmb
        · exact Or.inr (h2 m hm hmb)
      split at hb
      · rename_i hp
        cases hb
        simp only [preferred, Bool.or_eq_true, Bool.and_eq_true, decide_eq_true_eq] at hp
        refine ⟨by simp, ?_⟩
        intro m hm hne
        rcases List.mem_cons.1 hm with rfl | hm
        · exact absurd rfl hne
        · rcases hcmp m hm with rfl | h3 | ⟨h3, h4⟩
          · rcases hp with hp | ⟨hp, hle⟩
            · exact Or.inl hp
            · exact Or.inr ⟨hp, by omega⟩
          · rcases hp with hp | ⟨hp, _⟩
            · exact Or.inl (lt_trans hp h3)
            · exact Or.inl (hp ▸ h3)
          · rcases hp with hp | ⟨hp, hle⟩
            · exact Or.inl (h3 ▸ hp)
            · exact Or.inr ⟨hp.trans h3, by omega⟩
      · rename_i hp
        cases hb
        simp only [preferred, Bool.or_eq_true, Bool.and_eq_true, decide_eq_true_eq, not_or, not_and,
          not_le, not_lt] at hp
        refine ⟨List.mem_cons_of_mem _ h1, ?_⟩
        intro m hm hne
        rcases List.mem_cons.1 hm with rfl | hm
        · rcases lt_or_eq_of_le hp.1 with h3 | h3
          · exact Or.inl h3
          · exact Or.inr ⟨h3, hp.2 h3.symm⟩
        · exact h2 m hm hne

/-- What the loop maintains, with `v` the visited nodes, last first. -/
structure LoopInv (nodes : List Nat) (pred : Nat → List Nat) (rank : Nat → K) (v q : List Nat) :
    Prop where
  nodup : v.Nodup
  sub : ∀ n ∈ v, n ∈ nodes
  queue : ∀ n ∈ q, n ∈ nodes ∧ ∀ p ∈ pred n, p ∈ v
  avail : ∀ n ∈ nodes, (∀ p ∈ pred n, p ∈ v) → n ∈ v ∨ n ∈ q
  allowed : ∀ ys n xs, v = ys ++ n :: xs → ∀ p ∈ pred n, p ∈ xs
  greedy : ∀ ys n xs, v = ys ++ n :: xs → ∀ m ∈ nodes, m ∉ n :: xs → (∀ p ∈ pred m, p ∈ xs) →
    rank n < rank m ∨ (rank n = rank m ∧ m < n)

theorem orderLoop_spec {nodes : List Nat} {succ pred : Nat → List Nat} {rank : Nat → K}
    (hnodes : nodes.Nodup) (hsp : ∀ a b, a ∈ nodes → b ∈ nodes → (b ∈ succ a ↔ a ∈ pred b))
    (hsucc : ∀ a b, b ∈ succ a → b ∈ nodes) (fuel : Nat) (v q : List Nat)
    (hi : LoopInv nodes pred rank v q)
    (hf : q.length + ((nodes.filter fun x => x ∉ v).map fun n => (succ n).length).sum < fuel) :
    LoopInv nodes pred rank (orderLoop succ pred rank fuel v q) [] := by
  induction fuel generalizing v q with
  | zero => omega
  | succ fuel ih =>
    unfold orderLoop
    cases hb : best rank q with
    | none =>
      rw [best_none] at hb
      subst hb
      exact hi
    | some n =>
      obtain ⟨hn, hbest⟩ := best_spec hb
      have hlen : (q.erase n).length + 1 = q.length := by
        rw [List.length_erase_of_mem hn]
        have : 0 < q.length := List.length_pos_of_mem hn
        omega
      have hmemE : ∀ m, m ∈ q → m = n ∨ m ∈ q.erase n := by
        intro m hm
        by_cases hmn : m = n
        · exact Or.inl hmn
        · exact Or.inr ((List.mem_erase_of_ne hmn).2 hm)
      simp only
      split
      · rename_i hnv
        apply ih
        · refine ⟨hi.nodup, hi.sub, fun m hm => hi.queue m (List.mem_of_mem_erase hm), ?_,
            hi.allowed, hi.greedy⟩
          intro m hm hp
          rcases hi.avail m hm hp with h1 | h1
          · exact Or.inl h1
          · rcases hmemE m h1 with rfl | h1
            · exact Or.inl hnv
            · exact Or.inr h1
        · omega
      · rename_i hnv
        have hnn := (hi.queue n hn).1
        have hnp := (hi.queue n hn).2
        apply ih
        · refine ⟨?_, ?_, ?_, ?_, ?_, ?_⟩
          · rw [List.nodup_cons]; exact ⟨hnv, hi.nodup⟩
          · intro m hm
            rcases List.mem_cons.1 hm with rfl | hm
            · exact hnn
            · exact hi.sub m hm
          · intro m hm
            rcases List.mem_append.1 hm with hm | hm
            · have := hi.queue m (List.mem_of_mem_erase hm)
              exact ⟨this.1, fun p hp => List.mem_cons_of_mem _ (this.2 p hp)⟩
            · rw [List.mem_filter, List.all_eq_true] at hm
              exact ⟨hsucc n m hm.1, fun p hp => by simpa using hm.2 p hp⟩
          · intro m hm hp
            by_cases hall : ∀ p ∈ pred m, p ∈ v
            · rcases hi.avail m hm hall with h1 | h1
              · exact Or.inl (List.mem_cons_of_mem _ h1)
              · rcases hmemE m h1 with rfl | h1
                · exact Or.inl (by simp)
                · exact Or.inr (List.mem_append_left _ h1)
            · right
              apply List.mem_append_right
              rw [List.mem_filter, List.all_eq_true]
              refine ⟨?_, fun p hp' => by simpa using hp p hp'⟩
              rw [hsp n m hnn hm]
              by_contra hnm
              apply hall
              intro p hp'
              rcases List.mem_cons.1 (hp p hp') with rfl | h1
              · exact absurd hp' hnm
              · exact h1
          · intro ys m xs heq p hp
            cases ys with
            | nil =>
              simp only [List.nil_append, List.cons.injEq] at heq
              obtain ⟨rfl, rfl⟩ := heq
              exact hnp p hp
            | cons y ys =>
              simp only [List.cons_append, List.cons.injEq] at heq
              exact hi.allowed ys m xs heq.2 p hp
          · intro ys m xs heq m' hm' hnm' hp
            cases ys with
            | nil =>
              simp only [List.nil_append, List.cons.injEq] at heq
              obtain ⟨rfl, rfl⟩ := heq
              simp only [List.mem_cons, not_or] at hnm'
              rcases hi.avail m' hm' hp with h1 | h1
              · exact absurd h1 hnm'.2
              · exact hbest m' h1 hnm'.1
            | cons y ys =>
              simp only [List.cons_append, List.cons.injEq] at heq
              exact hi.greedy ys m xs heq.2 m' hm' hnm' hp
        · have := sum_filter_cons' nodes hnodes (fun n => (succ n).length) v n hnn hnv
          have hle : ((succ n).filter fun m => (pred m).all fun b => b ∈ n :: v).length ≤
            (succ n).length := List.length_filter_le _ _
          simp only [List.length_append]
          omega

/-- In a finite acyclic graph, a set of nodes that contains each node whose predecessors it contains
contains all. -/
theorem closed_all {nodes : List Nat} {edge : Nat → Nat → Prop} (hac : NoCycle edge)
    {P : Nat → Prop} (hP : ∀ n ∈ nodes, (∀ p ∈ nodes, edge p n → P p) → P n) :
    ∀ n ∈ nodes, P n := by
  have hwf : WellFounded fun a b : {x // x ∈ nodes} => Relation.TransGen edge a.1 b.1 := by
    have : Finite {x // x ∈ nodes} := List.finite_toSet nodes
    have : IsTrans {x // x ∈ nodes} (fun a b => Relation.TransGen edge a.1 b.1) :=
      ⟨fun _ _ _ h1 h2 => h1.trans h2⟩
    have : Std.Irrefl (fun a b : {x // x ∈ nodes} => Relation.TransGen edge a.1 b.1) :=
      ⟨fun a h1 => hac a.1 h1⟩
    exact Finite.wellFounded_of_trans_of_irrefl _
  intro n hn
  have := hwf.induction (C := fun a => P a.1) ⟨n, hn⟩ fun a ih =>
    hP a.1 a.2 fun p hp hpe => ih ⟨p, hp⟩ (.single hpe)
  exact this

theorem orderNodes_spec {nodes : List Nat} {succ pred : Nat → List Nat} {edge : Nat → Nat → Prop}
    (rank : Nat → K) (hnodes : nodes.Nodup)
    (hsucc : ∀ a ∈ nodes, ∀ b, b ∈ succ a ↔ b ∈ nodes ∧ edge a b)
    (hsucc' : ∀ a b, b ∈ succ a → b ∈ nodes)
    (hpred : ∀ b ∈ nodes, ∀ a, a ∈ pred b ↔ a ∈ nodes ∧ edge a b) (hac : NoCycle edge) :
    GreedyOrder nodes edge rank (orderNodes nodes succ pred rank) := by
  have hinv := orderLoop_spec (rank := rank) hnodes
    (fun a b ha hb => by rw [hsucc a ha, hpred b hb]; tauto) hsucc'
    (dfsFuel succ nodes (nodes.filter fun n => (pred n).isEmpty)) []
    (nodes.filter fun n => (pred n).isEmpty)
    ⟨by simp, by simp, by
      intro n hn
      rw [List.mem_filter, List.isEmpty_iff] at hn
      exact ⟨hn.1, by rw [hn.2]; simp⟩, by
      intro n hn hp
      right
      rw [List.mem_filter, List.isEmpty_iff]
      refine ⟨hn, List.eq_nil_iff_forall_not_mem.2 fun p hp' => ?_⟩
      exact List.not_mem_nil (hp p hp'), by
      intro ys n xs h1; simp at h1, by
      intro ys n xs h1; simp at h1⟩
    (by
      have : (nodes.filter fun x => x ∉ ([] : List Nat)) = nodes := List.filter_eq_self.2 (by simp)
      rw [this]; unfold dfsFuel; omega)
  unfold orderNodes
  simp only []
  generalize orderLoop succ pred rank (dfsFuel succ nodes (nodes.filter fun n => (pred n).isEmpty))
    [] (nodes.filter fun n => (pred n).isEmpty) = v at hinv
  have hall : ∀ n ∈ nodes, n ∈ v := closed_all hac fun n hn hp => by
    rcases hinv.avail n hn (fun p hp' => hp p ((hpred n hn p).1 hp').1 ((hpred n hn p).1 hp').2)
      with h1 | h1
    · exact h1
    · cases h1
  have hrev : ∀ xs n ys, v.reverse = xs ++ n :: ys → v = ys.reverse ++ n :: xs.reverse := by
    intro xs n ys heq
    have := congrArg List.reverse heq
    rw [List.reverse_reverse] at this
    rw [this]
    simp
  have hin : ∀ xs n ys, v.reverse = xs ++ n :: ys → n ∈ nodes := by
    intro xs n ys heq
    apply hinv.sub
    rw [hrev xs n ys heq]; simp
  refine ⟨?_, ?_, ?_⟩
  · refine (List.reverse_perm v).trans ?_
    rw [List.perm_ext_iff_of_nodup hinv.nodup hnodes]
    exact fun a => ⟨hinv.sub a, hall a⟩
  · intro xs n ys heq p hp hpe
    have := hinv.allowed _ _ _ (hrev xs n ys heq) p ((hpred n (hin _ _ _ heq) p).2 ⟨hp, hpe⟩)
    exact List.mem_reverse.1 this
  · intro xs n ys heq m hm hp
    have heq' := hrev xs n ys heq
    have hmn : m ∈ nodes := by
      apply hinv.sub; rw [heq']; simp [hm]
    refine hinv.greedy _ _ _ heq' m hmn ?_ ?_
    · have hnd := hinv.nodup
      rw [heq'] at hnd
      rw [List.nodup_append] at hnd
      intro hc
      exact hnd.2.2 m (List.mem_reverse.2 hm) m hc rfl
    · intro p hp'
      have := (hpred m hmn p).1 hp'
      exact List.mem_reverse.2 (hp p this.1 this.2)

end Verif.Passes
