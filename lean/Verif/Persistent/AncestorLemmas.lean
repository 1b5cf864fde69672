import Mathlib.Data.List.Nodup
import Verif.Persistent.Spec

/-!
# What `get_ancestors_while` lists
-/
namespace Verif.Persistent

theorem mem_unique (l : List Nat) (x : Nat) : x ∈ unique l ↔ x ∈ l := by
  simp [unique]

theorem nodup_unique (l : List Nat) : (unique l).Nodup := by
  unfold unique
  exact List.nodup_reverse.2 (List.nodup_dedup _)

/-- The number of commits not seen. -/
def unseen (n : Nat) (seen : List Nat) : Nat := ((List.range n).filter fun x => x ∉ seen).length

theorem unseen_cons (n : Nat) (seen : List Nat) (p : Nat) (hp : p < n) (hs : p ∉ seen) :
    unseen n (p :: seen) + 1 = unseen n seen := by
  unfold unseen
  have hmem : p ∈ (List.range n).filter fun x => x ∉ seen := by simp [hp, hs]
  have hnd : ((List.range n).filter fun x => x ∉ seen).Nodup := List.nodup_range.filter _
  have heq : ((List.range n).filter fun x => x ∉ p :: seen) =
      ((List.range n).filter fun x => x ∉ seen).erase p := by
    rw [hnd.erase_eq_filter, List.filter_filter]
    apply List.filter_congr
    intro x _
    by_cases h1 : x = p <;> by_cases h2 : x ∈ seen <;> simp [h1, h2]
  rw [heq, List.length_erase_of_mem hmem]
  have := List.length_pos_of_mem hmem
  omega

theorem pushNew_spec (n : Nat) : ∀ (ps seen : List Nat), (∀ p ∈ ps, p < n) →
    (∀ x, x ∈ (pushNew seen ps).2 ↔ x ∈ seen ∨ x ∈ ps) ∧
    (∀ x, x ∈ (pushNew seen ps).1 ↔ x ∈ ps ∧ x ∉ seen) ∧
    (pushNew seen ps).1.Nodup ∧
    unseen n (pushNew seen ps).2 + (pushNew seen ps).1.length = unseen n seen := by
  intro ps
  induction ps with
  | nil => intro seen _; simp [pushNew]
  | cons p ps ih =>
    intro seen hp
    unfold pushNew
    by_cases h : p ∈ seen
    · rw [if_pos h]
      obtain ⟨a, b, c, d⟩ := ih seen fun q hq => hp q (List.mem_cons_of_mem _ hq)
      refine ⟨?_, ?_, c, d⟩
      · intro x
        rw [a x, List.mem_cons]
        constructor
        · tauto
        · rintro (h' | rfl | h')
          · exact Or.inl h'
          · exact Or.inl h
          · exact Or.inr h'
      · intro x
        rw [b x, List.mem_cons]
        constructor
        · tauto
        · rintro ⟨rfl | h', hx⟩
          · exact absurd h hx
          · exact ⟨h', hx⟩
    · rw [if_neg h]
      obtain ⟨a, b, c, d⟩ := ih (p :: seen) fun q hq => hp q (List.mem_cons_of_mem _ hq)
      refine ⟨?_, ?_, ?_, ?_⟩
      · intro x
        rw [a x]
        simp only [List.mem_cons]
        tauto
      · intro x
        simp only [List.mem_cons]
        rw [b x]
        simp only [List.mem_cons]
        constructor
        · rintro (rfl | ⟨h1, h2⟩)
          · exact ⟨Or.inl rfl, h⟩
          · tauto
        · rintro ⟨rfl | h1, h2⟩
          · exact Or.inl rfl
          · by_cases hxp : x = p
            · exact Or.inl hxp
            · exact Or.inr ⟨h1, by tauto⟩
      · simp only [List.nodup_cons]
        refine ⟨?_, c⟩
        intro hc
        exact ((b p).1 hc).2 (List.mem_cons_self ..)
      · have := unseen_cons n seen p (hp p (List.mem_cons_self ..)) h
        simp only [List.length_cons]
        omega

/-- `a` is reached from `c` through parents of commits at which `cont` holds. -/
def Via (w : World) (cont : Nat → Bool) (c a : Nat) : Prop :=
  Relation.ReflTransGen (fun d p => cont d = true ∧ p ∈ w.parents d) c a

theorem loop_spec (w : World) (cont : Nat → Bool)
    (hw : ∀ c, ∀ p ∈ w.parents c, p < w.length) :
    ∀ (fuel : Nat) (seen queue : List Nat), (∀ q ∈ queue, q ∈ seen) → queue.Nodup →
      queue.length + unseen w.length seen ≤ fuel →
      (∀ x, x ∈ (ancestorsLoop w cont fuel seen queue).2 ↔
        x ∈ seen ∨ x ∈ (ancestorsLoop w cont fuel seen queue).1) ∧
      (∀ x ∈ (ancestorsLoop w cont fuel seen queue).1, x ∈ queue ∨ x ∉ seen) ∧
      (∀ q ∈ queue, q ∈ (ancestorsLoop w cont fuel seen queue).1) ∧
      (ancestorsLoop w cont fuel seen queue).1.Nodup ∧
      (∀ c ∈ (ancestorsLoop w cont fuel seen queue).1, cont c = true → ∀ p ∈ w.parents c,
        p ∈ (ancestorsLoop w cont fuel seen queue).2) ∧
      (∀ x ∈ (ancestorsLoop w cont fuel seen queue).1, ∃ q ∈ queue, Via w cont q x) := by
  intro fuel
  induction fuel with
  | zero =>
    intro seen queue hq hn hf
    have : queue = [] := List.eq_nil_of_length_eq_zero (by omega)
    subst this
    simp [ancestorsLoop]
  | succ fuel ih =>
    intro seen queue hq hn hf
    cases queue with
    | nil => simp [ancestorsLoop]
    | cons c queue =>
      unfold ancestorsLoop
      simp only []
      have hps : ∀ p ∈ (if cont c then w.parents c else []), p < w.length := by
        intro p hp
        split at hp
        · exact hw c p hp
        · cases hp
      obtain ⟨a, b, nd, d⟩ := pushNew_spec w.length _ seen hps
      generalize hpush : pushNew seen (if cont c then w.parents c else []) = pushed at *
      rw [List.nodup_cons] at hn
      have hcs : c ∈ seen := hq c (List.mem_cons_self ..)
      simp only [List.length_cons] at hf
      have hq' : ∀ q ∈ queue ++ pushed.1, q ∈ pushed.2 := by
        intro q hq2
        rw [a q]
        rcases List.mem_append.1 hq2 with h | h
        · exact Or.inl (hq q (List.mem_cons_of_mem _ h))
        · exact Or.inr ((b q).1 h).1
      have hn' : (queue ++ pushed.1).Nodup := by
        rw [List.nodup_append]
        refine ⟨hn.2, nd, ?_⟩
        intro x hx y hy hxy
        subst hxy
        exact ((b x).1 hy).2 (hq x (List.mem_cons_of_mem _ hx))
      obtain ⟨r1, r2, r3, r4, r5, r6⟩ := ih pushed.2 (queue ++ pushed.1) hq' hn'
        (by simp only [List.length_append]; omega)
      generalize ancestorsLoop w cont fuel pushed.2 (queue ++ pushed.1) = rest at *
      have hfresh : ∀ x ∈ rest.1, x ∈ queue ∨ x ∉ seen := by
        intro x hx
        rcases r2 x hx with h | h
        · rcases List.mem_append.1 h with h | h
          · exact Or.inl h
          · exact Or.inr ((b x).1 h).2
        · exact Or.inr fun hs => h ((a x).2 (Or.inl hs))
      refine ⟨?_, ?_, ?_, ?_, ?_, ?_⟩
      · intro x
        rw [r1 x, a x, List.mem_cons]
        constructor
        · rintro ((h | h) | h)
          · exact Or.inl h
          · by_cases hx : x ∈ seen
            · exact Or.inl hx
            · exact Or.inr (Or.inr (r3 x (List.mem_append_right _ ((b x).2 ⟨h, hx⟩))))
          · exact Or.inr (Or.inr h)
        · rintro (h | rfl | h)
          · exact Or.inl (Or.inl h)
          · exact Or.inl (Or.inl hcs)
          · exact Or.inr h
      · intro x hx
        rcases List.mem_cons.1 hx with rfl | hx
        · exact Or.inl (List.mem_cons_self ..)
        · rcases hfresh x hx with h | h
          · exact Or.inl (List.mem_cons_of_mem _ h)
          · exact Or.inr h
      · intro q hq2
        rcases List.mem_cons.1 hq2 with rfl | hq2
        · exact List.mem_cons_self ..
        · exact List.mem_cons_of_mem _ (r3 q (List.mem_append_left _ hq2))
      · rw [List.nodup_cons]
        refine ⟨?_, r4⟩
        intro hc
        rcases hfresh c hc with h | h
        · exact hn.1 h
        · exact h hcs
      · intro x hx hcont p hp
        rcases List.mem_cons.1 hx with rfl | hx
        · rw [r1 p, a p]
          refine Or.inl (Or.inr ?_)
          rw [if_pos hcont]
          exact hp
        · exact r5 x hx hcont p hp
      · intro x hx
        rcases List.mem_cons.1 hx with rfl | hx
        · exact ⟨x, List.mem_cons_self .., .refl⟩
        · obtain ⟨q, hq2, hv⟩ := r6 x hx
          rcases List.mem_append.1 hq2 with h | h
          · exact ⟨q, List.mem_cons_of_mem _ h, hv⟩
          · have := ((b q).1 h).1
            by_cases hcont : cont c = true
            · rw [if_pos hcont] at this
              exact ⟨c, List.mem_cons_self .., .head ⟨hcont, this⟩ hv⟩
            · rw [if_neg hcont] at this
              cases this

theorem from_spec (w : World) (cont : Nat → Bool)
    (hw : ∀ c, ∀ p ∈ w.parents c, p < w.length) :
    ∀ (cs seen all : List Nat), (∀ c ∈ cs, c < w.length) → (∀ x, x ∈ seen ↔ x ∈ all) → all.Nodup →
      (∀ c ∈ all, cont c = true → ∀ p ∈ w.parents c, p ∈ all) →
      (∀ x ∈ all, x ∈ ancestorsFrom w cont seen all cs) ∧
      (∀ c ∈ cs, c ∈ ancestorsFrom w cont seen all cs) ∧
      (ancestorsFrom w cont seen all cs).Nodup ∧
      (∀ c ∈ ancestorsFrom w cont seen all cs, cont c = true → ∀ p ∈ w.parents c,
        p ∈ ancestorsFrom w cont seen all cs) ∧
      (∀ x ∈ ancestorsFrom w cont seen all cs, x ∈ all ∨ ∃ c ∈ cs, Via w cont c x) := by
  intro cs
  induction cs with
  | nil =>
    intro seen all _ _ hn hc
    simp only [ancestorsFrom]
    exact ⟨fun x hx => hx, fun c hc => absurd hc List.not_mem_nil, hn, hc, fun x hx => Or.inl hx⟩
  | cons c cs ih =>
    intro seen all hcs hs hn hcl
    have hcs' : ∀ d ∈ cs, d < w.length := fun d hd => hcs d (List.mem_cons_of_mem _ hd)
    unfold ancestorsFrom
    by_cases h : c ∈ seen
    · rw [if_pos h]
      obtain ⟨a, b, nd, d, e⟩ := ih seen all hcs' hs hn hcl
      refine ⟨a, ?_, nd, d, ?_⟩
      · intro x hx
        rcases List.mem_cons.1 hx with rfl | hx
        · exact a x ((hs x).1 h)
        · exact b x hx
      · intro x hx
        rcases e x hx with h' | ⟨y, hy, hv⟩
        · exact Or.inl h'
        · exact Or.inr ⟨y, List.mem_cons_of_mem _ hy, hv⟩
    · rw [if_neg h]
      simp only []
      have hfuel : [c].length + unseen w.length (c :: seen) ≤ w.length + 1 := by
        have := unseen_cons w.length seen c (hcs c (List.mem_cons_self ..)) h
        have h2 : unseen w.length seen ≤ w.length := by
          unfold unseen
          exact Nat.le_trans (List.length_filter_le _ _) (by simp)
        simp only [List.length_cons, List.length_nil]
        omega
      obtain ⟨r1, r2, r3, r4, r5, r6⟩ := loop_spec w cont hw (w.length + 1) (c :: seen) [c]
        (by simp) (by simp) hfuel
      generalize ancestorsLoop w cont (w.length + 1) (c :: seen) [c] = r at *
      have hc1 : c ∈ r.1 := r3 c (List.mem_cons_self ..)
      have hs' : ∀ x, x ∈ r.2 ↔ x ∈ r.1 ++ all := by
        intro x
        rw [r1 x, List.mem_append, List.mem_cons]
        constructor
        · rintro ((rfl | h') | h')
          · exact Or.inl hc1
          · exact Or.inr ((hs x).1 h')
          · exact Or.inl h'
        · rintro (h' | h')
          · exact Or.inr h'
          · exact Or.inl (Or.inr ((hs x).2 h'))
      have hn' : (r.1 ++ all).Nodup := by
        rw [List.nodup_append]
        refine ⟨r4, hn, ?_⟩
        intro x hx y hy hxy
        subst hxy
        have hx2 := (hs x).2 hy
        rcases r2 x hx with h' | h'
        · rw [List.mem_singleton] at h'
          exact h (h' ▸ hx2)
        · exact h' (List.mem_cons_of_mem _ hx2)
      have hcl' : ∀ d ∈ r.1 ++ all, cont d = true → ∀ p ∈ w.parents d, p ∈ r.1 ++ all := by
        intro d hd hcont p hp
        rcases List.mem_append.1 hd with h' | h'
        · exact (hs' p).1 (r5 d h' hcont p hp)
        · exact List.mem_append_right _ (hcl d h' hcont p hp)
      obtain ⟨a, b, nd, d, e⟩ := ih r.2 (r.1 ++ all) hcs' hs' hn' hcl'
      refine ⟨fun x hx => a x (List.mem_append_right _ hx), ?_, nd, d, ?_⟩
      · intro x hx
        rcases List.mem_cons.1 hx with rfl | hx
        · exact a x (List.mem_append_left _ hc1)
        · exact b x hx
      · intro x hx
        rcases e x hx with h' | ⟨y, hy, hv⟩
        · rcases List.mem_append.1 h' with h' | h'
          · obtain ⟨q, hq, hv⟩ := r6 x h'
            rw [List.mem_singleton] at hq
            subst hq
            exact Or.inr ⟨q, List.mem_cons_self .., hv⟩
          · exact Or.inl h'
        · exact Or.inr ⟨y, List.mem_cons_of_mem _ hy, hv⟩

/-- `get_ancestors_while` lists, once each, the commits reached through commits at which the
condition holds. -/
theorem getAncestorsWhile_spec (w : World) (cont : Nat → Bool)
    (hw : ∀ c, ∀ p ∈ w.parents c, p < w.length) (cs : List Nat) (hcs : ∀ c ∈ cs, c < w.length) :
    (getAncestorsWhile w cont cs).Nodup ∧
      ∀ x, x ∈ getAncestorsWhile w cont cs ↔ ∃ c ∈ cs, Via w cont c x := by
  obtain ⟨_, b, nd, d, e⟩ := from_spec w cont hw cs [] [] hcs (by simp) (by simp) (by simp)
  refine ⟨nd, fun x => ⟨?_, ?_⟩⟩
  · intro hx
    rcases e x hx with h | h
    · cases h
    · exact h
  · rintro ⟨c, hc, hv⟩
    induction hv with
    | refl => exact b c hc
    | tail _ h ih => exact d _ ih h.1 _ h.2

theorem via_true (w : World) (c a : Nat) : Via w (fun _ => true) c a ↔ Ancestor w c a := by
  unfold Via Ancestor
  simp

end Verif.Persistent
