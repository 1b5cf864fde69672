import Verif.Passes.RegionBlocks

/-!
# C38: the blocks of a region
-/
namespace Verif.Passes

/-! ## Specification -/

/-- `b` can be reached from the target of the entry edge without taking the exit edge. -/
def InRegion (succ : Nat → List Nat) (entry exit : Nat × Nat) (b : Nat) : Prop :=
  Relation.ReflTransGen (fun a b => b ∈ succ a ∧ (a, b) ≠ exit) entry.2 b

/-! ## Lemmas -/

theorem blocksLoop_spec {nodes : List Nat} {succ : Nat → List Nat} {entry exit : Nat × Nat}
    (hnodes : nodes.Nodup) (hentry : entry.2 ∈ nodes)
    (hsucc : ∀ n ∈ nodes, ∀ m ∈ succ n, m ∈ nodes) (fuel : Nat) (D Q : List Nat)
    (h1 : ∀ x ∈ D ++ Q, x ∈ nodes ∧ InRegion succ entry exit x)
    (h2 : entry.2 ∈ D ++ Q)
    (h3 : ∀ d ∈ D, ∀ x ∈ succ d, (d, x) ≠ exit → x ∈ D ++ Q)
    (h4 : exit.1 ∈ D → exit.2 ∈ succ exit.1)
    (hf : Q.length + ((nodes.filter fun x => x ∉ D).map fun n => (succ n).length).sum < fuel) :
    match blocksLoop succ exit fuel D Q with
    | none => InRegion succ entry exit exit.1 ∧ exit.2 ∉ succ exit.1
    | some blocks => (∀ b, b ∈ blocks ↔ InRegion succ entry exit b) ∧
        (InRegion succ entry exit exit.1 → exit.2 ∈ succ exit.1) := by
  induction fuel generalizing D Q with
  | zero => omega
  | succ fuel ih =>
    cases Q with
    | nil =>
      simp only [blocksLoop]
      simp only [List.append_nil] at h1 h2 h3
      have hmem : ∀ b, b ∈ D ↔ InRegion succ entry exit b := by
        intro b
        constructor
        · exact fun hb => (h1 b hb).2
        · intro hr
          clear ih
          unfold InRegion at hr
          induction hr with
          | refl => exact h2
          | tail _ hb ih' => exact h3 _ ih' _ hb.1 hb.2
      exact ⟨hmem, fun hr => h4 ((hmem _).2 hr)⟩
    | cons n Q =>
      unfold blocksLoop
      simp only [List.length_cons] at hf
      have hn := h1 n (by simp)
      by_cases hD : n ∈ D
      · rw [if_pos hD]
        have hsub : ∀ m, m ∈ D ++ n :: Q ↔ m ∈ D ++ Q := by
          intro m
          simp only [List.mem_append, List.mem_cons]
          constructor
          · rintro (h | rfl | h)
            · exact Or.inl h
            · exact Or.inl hD
            · exact Or.inr h
          · rintro (h | h)
            · exact Or.inl h
            · exact Or.inr (Or.inr h)
        simp only [hsub] at h1 h2 h3
        exact ih D Q h1 h2 h3 h4 (by omega)
      · rw [if_neg hD]
        -- the successors that are queued
        have hgo : ∀ new : List Nat, (∀ x ∈ new, x ∈ succ n ∧ (n, x) ≠ exit) →
            (∀ x ∈ succ n, (n, x) ≠ exit → x ∈ new) → new.length ≤ (succ n).length →
            (n = exit.1 → exit.2 ∈ succ exit.1) →
            match blocksLoop succ exit fuel (n :: D) (Q ++ new) with
            | none => InRegion succ entry exit exit.1 ∧ exit.2 ∉ succ exit.1
            | some blocks => (∀ b, b ∈ blocks ↔ InRegion succ entry exit b) ∧
              (InRegion succ entry exit exit.1 → exit.2 ∈ succ exit.1) := by
          intro new hn1 hn2 hn3 hn4
          have hmono : ∀ m, m ∈ D ++ n :: Q → m ∈ (n :: D) ++ (Q ++ new) := by
            intro m hm
            simp only [List.mem_append, List.mem_cons] at hm ⊢
            tauto
          apply ih
          · intro x hx
            simp only [List.mem_append, List.mem_cons] at hx
            rcases hx with (rfl | hx) | hx | hx
            · exact hn
            · exact h1 x (by simp [hx])
            · exact h1 x (by simp [hx])
            · exact ⟨hsucc n hn.1 x (hn1 x hx).1, hn.2.tail (hn1 x hx)⟩
          · exact hmono _ h2
          · intro d hd x hx hne
            rcases List.mem_cons.1 hd with rfl | hd
            · exact List.mem_append_right _ (List.mem_append_right _ (hn2 x hx hne))
            · exact hmono x (h3 d hd x hx hne)
          · intro hm
            rcases List.mem_cons.1 hm with hm | hm
            · exact hn4 hm.symm
            · exact h4 hm
          · have := sum_filter_cons' nodes hnodes (fun n => (succ n).length) D n hn.1 hD
            simp only [List.length_append]
            omega
        by_cases hx : n = exit.1
        · rw [if_pos hx]
          simp only []
          by_cases hlen : ((succ n).filter fun s => s != exit.2).length = (succ n).length
          · rw [if_pos hlen]
            refine ⟨hx ▸ hn.2, ?_⟩
            rw [← hx]
            intro hm
            have := List.length_filter_lt_length_iff_exists (p := fun s => s != exit.2).2
              ⟨exit.2, hm, (by simp : ¬ (exit.2 != exit.2) = true)⟩
            omega
          · rw [if_neg hlen]
            have hin : exit.2 ∈ succ n := by
              by_contra hnm
              apply hlen
              rw [List.filter_eq_self.2]
              intro s hs
              simp only [bne_iff_ne, ne_eq]
              rintro rfl; exact hnm hs
            apply hgo
            · intro x hxm
              rw [List.mem_filter, bne_iff_ne] at hxm
              exact ⟨hxm.1, fun he => hxm.2 (by rw [← he])⟩
            · intro x hxm hne
              rw [List.mem_filter, bne_iff_ne]
              exact ⟨hxm, fun he => hne (by rw [hx, he])⟩
            · exact List.length_filter_le _ _
            · intro _; rw [← hx]; exact hin
        · rw [if_neg hx]
          apply hgo
          · exact fun x hxm => ⟨hxm, fun he => hx (by rw [← he])⟩
          · exact fun x hxm _ => hxm
          · exact Nat.le_refl _
          · exact fun he => absurd he hx

theorem mem_unique (l : List Nat) (a : Nat) : a ∈ unique l ↔ a ∈ l := by
  induction l with
  | nil => simp [unique]
  | cons b l ih =>
    simp only [unique, List.mem_cons, List.mem_filter, ih, bne_iff_ne]
    by_cases h : a = b <;> simp [h]

theorem unique_nodup (l : List Nat) : (unique l).Nodup := by
  induction l with
  | nil => simp [unique]
  | cons b l ih =>
    simp only [unique, List.nodup_cons, List.mem_filter, bne_iff_ne]
    exact ⟨fun h => h.2 rfl, ih.filter _⟩

theorem filter_eq_single {l : List Nat} (hl : l.Nodup) (a : Nat) :
    l.filter (fun i => i == a) = [a] ↔ a ∈ l := by
  constructor
  · intro h
    have : a ∈ l.filter (fun i => i == a) := by rw [h]; simp
    exact (List.mem_filter.1 this).1
  · intro h
    induction l with
    | nil => cases h
    | cons b l ih =>
      rw [List.nodup_cons] at hl
      by_cases hb : b = a
      · subst hb
        rw [List.filter_cons_of_pos (by simp)]
        congr 1
        rw [List.filter_eq_nil_iff]
        intro x hx
        simp only [beq_iff_eq]
        rintro rfl
        exact hl.1 hx
      · rw [List.filter_cons_of_neg (by simpa using hb)]
        rcases List.mem_cons.1 h with h | h
        · exact absurd h.symm hb
        · exact ih hl.2 h

/-! ## Theorems -/

/-- **C38** The result in every case. The blocks returned are exactly those reachable from the target
of the entry edge without the exit edge; each error is reported exactly if the earlier ones do not
apply and the condition it stands for holds. -/
theorem C38_region_blocks (nodes : List Nat) (succ pred : Nat → List Nat) (entry exit : Nat × Nat)
    (hnodes : nodes.Nodup) (hentry : entry.2 ∈ nodes)
    (hsucc : ∀ n ∈ nodes, ∀ m ∈ succ n, m ∈ nodes) :
    match regionBlocks nodes succ pred entry exit with
    | .exitEdgeNotPresent a b => (a, b) = exit ∧ InRegion succ entry exit exit.1 ∧
        exit.2 ∉ succ exit.1
    | .entryEdgeSourceInRegion a => a = entry.1 ∧
        (InRegion succ entry exit exit.1 → exit.2 ∈ succ exit.1) ∧ InRegion succ entry exit entry.1
    | .entryEdgeNotPresent a b => (a, b) = entry ∧
        (InRegion succ entry exit exit.1 → exit.2 ∈ succ exit.1) ∧
        ¬ InRegion succ entry exit entry.1 ∧ entry.1 ∉ pred entry.2
    | .unexpectedEntryEdges l =>
        (InRegion succ entry exit exit.1 → exit.2 ∈ succ exit.1) ∧
        ¬ InRegion succ entry exit entry.1 ∧ entry.1 ∈ pred entry.2 ∧ l ≠ [] ∧
        ∀ p, p ∈ l ↔ p ∈ pred entry.2 ∧ p ≠ entry.1 ∧ ¬ InRegion succ entry exit p
    | .ok blocks => (∀ b, b ∈ blocks ↔ InRegion succ entry exit b) ∧
        (InRegion succ entry exit exit.1 → exit.2 ∈ succ exit.1) ∧
        entry.1 ∉ blocks ∧ entry.1 ∈ pred entry.2 ∧
        ∀ p ∈ pred entry.2, p = entry.1 ∨ p ∈ blocks := by
  have hloop := blocksLoop_spec (entry := entry) (exit := exit) hnodes hentry hsucc
    (dfsFuel succ nodes [entry.2]) [] [entry.2]
    (by
      intro x hx
      simp only [List.nil_append, List.mem_singleton] at hx
      subst hx
      exact ⟨hentry, .refl⟩)
    (by simp) (by simp) (by simp)
    (by
      have : (nodes.filter fun x => x ∉ ([] : List Nat)) = nodes := List.filter_eq_self.2 (by simp)
      rw [this]; unfold dfsFuel; omega)
  unfold regionBlocks
  generalize blocksLoop succ exit (dfsFuel succ nodes [entry.2]) [] [entry.2] = r at hloop
  cases r with
  | none => exact ⟨rfl, hloop⟩
  | some blocks =>
    obtain ⟨hb, hx⟩ := hloop
    simp only
    by_cases h1 : entry.1 ∈ blocks
    · rw [if_pos h1]
      exact ⟨rfl, hx, (hb _).1 h1⟩
    · rw [if_neg h1]
      have h1' : ¬ InRegion succ entry exit entry.1 := fun h => h1 ((hb _).2 h)
      have hnd : ((unique (pred entry.2)).filter fun p => p ∉ blocks).Nodup :=
        (unique_nodup _).filter _
      have hmem : ∀ p, p ∈ ((unique (pred entry.2)).filter fun p => p ∉ blocks) ↔
          p ∈ pred entry.2 ∧ p ∉ blocks := by
        intro p
        rw [List.mem_filter, mem_unique, decide_eq_true_eq]
      by_cases h2 : entry.1 ∈ pred entry.2
      · rw [if_neg (not_not.2 ((filter_eq_single hnd _).2 ((hmem _).2 ⟨h2, h1⟩)))]
        by_cases h3 : (!(((unique (pred entry.2)).filter fun p => p ∉ blocks).filter
            fun i => !(i == entry.1)).isEmpty) = true
        · rw [if_pos h3]
          refine ⟨hx, h1', h2, ?_, ?_⟩
          · intro he
            rw [he] at h3
            simp at h3
          · intro p
            rw [List.mem_filter, hmem, hb]
            simp only [Bool.not_eq_true', beq_eq_false_iff_ne]
            tauto
        · rw [if_neg h3]
          refine ⟨hb, hx, h1, h2, ?_⟩
          intro p hp
          by_contra hc
          rw [not_or] at hc
          apply h3
          have : p ∈ ((unique (pred entry.2)).filter fun p => p ∉ blocks).filter
              fun i => !(i == entry.1) := by
            rw [List.mem_filter, hmem]
            exact ⟨⟨hp, hc.2⟩, by simpa using hc.1⟩
          cases hl : ((unique (pred entry.2)).filter fun p => p ∉ blocks).filter
              fun i => !(i == entry.1) with
          | nil => rw [hl] at this; cases this
          | cons => rfl
      · rw [if_pos (fun h => h2 ((hmem _).1 ((filter_eq_single hnd _).1 h)).1)]
        exact ⟨rfl, hx, h1', h2⟩

/-- **C38** The way out: every successor of a block of the region is in the region, or it is reached
by the exit edge. -/
theorem C38_single_exit (nodes : List Nat) (succ pred : Nat → List Nat) (entry exit : Nat × Nat)
    (hnodes : nodes.Nodup) (hentry : entry.2 ∈ nodes)
    (hsucc : ∀ n ∈ nodes, ∀ m ∈ succ n, m ∈ nodes) (blocks : List Nat)
    (hr : regionBlocks nodes succ pred entry exit = .ok blocks) (b s : Nat) (hb : b ∈ blocks)
    (hs : s ∈ succ b) : s ∈ blocks ∨ (b, s) = exit := by
  have h := C38_region_blocks nodes succ pred entry exit hnodes hentry hsucc
  rw [hr] at h
  by_cases he : (b, s) = exit
  · exact Or.inr he
  · exact Or.inl ((h.1 s).2 (((h.1 b).1 hb).tail ⟨hs, he⟩))

/-! ## Examples -/

/-- A loop 1 → 2 → 3 → 1 entered from 0 and left from 3 to 4. -/
def loopSucc : Nat → List Nat
  | 0 => [1]
  | 1 => [2]
  | 2 => [3]
  | 3 => [1, 4]
  | _ => []

def loopPred : Nat → List Nat
  | 1 => [0, 3]
  | 2 => [1]
  | 3 => [2]
  | 4 => [3]
  | _ => []

example : regionBlocks [0, 1, 2, 3, 4] loopSucc loopPred (0, 1) (3, 4) = .ok [3, 2, 1] ∧
    regionBlocks [0, 1, 2, 3, 4] loopSucc loopPred (1, 2) (3, 4) = .entryEdgeSourceInRegion 1 ∧
    regionBlocks [0, 1, 2, 3, 4] loopSucc loopPred (1, 2) (3, 1) = .ok [4, 3, 2] ∧
    regionBlocks [0, 1, 2, 3, 4] loopSucc loopPred (0, 2) (3, 4) = .entryEdgeNotPresent 0 2 ∧
    regionBlocks [0, 1, 2, 3, 4] loopSucc loopPred (0, 1) (2, 4) = .exitEdgeNotPresent 2 4 ∧
    regionBlocks [0, 1, 2, 3, 4] loopSucc loopPred (0, 1) (1, 2) = .unexpectedEntryEdges [3] := by
  decide +kernel

/-- The example meets the hypotheses. -/
example : [0, 1, 2, 3, 4].Nodup ∧ ∀ n ∈ [0, 1, 2, 3, 4], ∀ m ∈ loopSucc n, m ∈ [0, 1, 2, 3, 4] := by
  decide +kernel

/-! ## Findings -/

/-- **C38** Finding: an exit edge that does not exist is not reported if its source is not in the
region: here 7 is not a block at all. -/
theorem C38_missing_exit_refuted :
    regionBlocks [0, 1, 2, 3, 4] loopSucc loopPred (0, 1) (7, 8) = .ok [4, 3, 2, 1] ∧
    8 ∉ loopSucc 7 := by decide +kernel

/-- A diamond: 1 → 2, 1 → 3, 2 → 3, entered from 0. -/
def diamondSucc : Nat → List Nat
  | 0 => [1]
  | 1 => [2, 3]
  | 2 => [3]
  | _ => []

def diamondPred : Nat → List Nat
  | 1 => [0]
  | 2 => [1]
  | 3 => [1, 2]
  | _ => []

/-- **C38** Finding: the target of the exit edge can be in the region, so that the edge does not
leave it. -/
theorem C38_exit_inside_refuted :
    regionBlocks [0, 1, 2, 3] diamondSucc diamondPred (0, 1) (2, 3) = .ok [3, 2, 1] := by
  decide +kernel

/-- **C38** Finding: a block other than the first can be entered from outside: here the edge from 1
to 3 leads into the region of 2. -/
theorem C38_side_entry_refuted :
    regionBlocks [0, 1, 2, 3] diamondSucc diamondPred (1, 2) (3, 9) = .exitEdgeNotPresent 3 9 ∧
    regionBlocks [0, 1, 2, 3] diamondSucc diamondPred (1, 2) (9, 9) = .ok [3, 2] ∧
    1 ∈ diamondPred 3 := by
  decide +kernel

end Verif.Passes
