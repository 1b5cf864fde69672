import Verif.Dataflow.MeetProps

/-!
# Comparison of abstract values (lemmas for C19)

Source: `/repo/hugr-passes/src/dataflow/partial_value.rs`.
-/
namespace Verif.Dataflow
namespace PV
variable {V N A : Type}

theorem lexCmp_refl (l : List Nat) : lexCmp l l = .eq := by
  induction l with
  | nil => rfl
  | cons a l ih => simp [lexCmp, ih]

theorem lexCmp_eq {l m : List Nat} (h : lexCmp l m = .eq) : l = m := by
  induction l generalizing m with
  | nil => cases m <;> simp [lexCmp] at h ⊢
  | cons a l ih =>
    cases m with
    | nil => simp [lexCmp] at h
    | cons b m =>
      simp only [lexCmp] at h
      split at h
      · simp at h
      · split at h
        · simp at h
        · rw [ih h, show a = b by omega]

theorem lexCmp_le {l m : List Nat} (h : List.Forall₂ (· ≤ ·) l m) :
    lexCmp l m = .lt ∨ lexCmp l m = .eq := by
  induction h with
  | nil => exact Or.inr rfl
  | cons h _ ih =>
    rename_i a b _ _ _
    simp only [lexCmp]
    split
    · exact Or.inl rfl
    · rw [if_neg (by omega)]; exact ih

theorem keyVector_le (n : Nat) {r s : List (Nat × List (PV V N A))}
    (h : ∀ k, (bmGet r k).isSome = true → (bmGet s k).isSome = true) :
    List.Forall₂ (· ≤ ·) (keyVector n r) (keyVector n s) := by
  unfold keyVector
  generalize List.range n = l
  induction l with
  | nil => simp
  | cons k l ih =>
    simp only [List.map_cons]
    refine .cons ?_ ih
    by_cases hk : (bmGet r k).isSome = true
    · simp [hk, h k hk]
    · rw [if_neg hk]; exact Nat.zero_le _

theorem keyVector_eq {n : Nat} {r s : List (Nat × List (PV V N A))}
    (h : keyVector n r = keyVector n s) {k : Nat} (hk : k < n) :
    (bmGet r k).isSome = (bmGet s k).isSome := by
  unfold keyVector at h
  have := List.map_inj_left.1 h k (List.mem_range.2 hk)
  cases h1 : (bmGet r k).isSome <;> cases h2 : (bmGet s k).isSome <;> simp_all

theorem keyBound_lt {r s : List (Nat × List (PV V N A))} {k : Nat} {row : List (PV V N A)}
    (h : (k, row) ∈ r ++ s) : k < keyBound r s := by
  unfold keyBound
  generalize r ++ s = l at h
  induction l with
  | nil => simp at h
  | cons e l ih =>
    simp only [List.map_cons, List.foldr_cons]
    rcases List.mem_cons.1 h with rfl | h
    · simp only; omega
    · have := ih h; omega

theorem firstDiff_le {l : List (Nat × Option Ordering)}
    (h : ∀ e ∈ l, e.2 = some .lt ∨ e.2 = some .eq) :
    firstDiff l = some .lt ∨ firstDiff l = some .eq := by
  induction l with
  | nil => exact Or.inr rfl
  | cons e l ih =>
    obtain ⟨k, c⟩ := e
    simp only [firstDiff]
    rcases h (k, c) (List.mem_cons_self ..) with h1 | h1
    · simp only at h1; subst h1; simp
    · simp only at h1; subst h1
      simpa using ih (fun e he => h e (List.mem_cons_of_mem _ he))

theorem firstDiff_eq {l : List (Nat × Option Ordering)} :
    firstDiff l = some .eq ↔ ∀ e ∈ l, e.2 = some .eq := by
  induction l with
  | nil => simp [firstDiff]
  | cons e l ih =>
    obtain ⟨k, c⟩ := e
    simp only [firstDiff]
    by_cases hc : c = some .eq
    · simp [hc, ih]
    · simp [hc]

variable [DecidableEq V] [DecidableEq N] [DecidableEq A]
variable (pick : List (Nat × Option Ordering) → List (Nat × Option Ordering))

theorem cmpRows_mem (r s : List (Nat × List (PV V N A))) (k : Nat) (c : Option Ordering) :
    (k, c) ∈ cmpRows pick r s ↔ ∃ v, (k, v) ∈ s ∧
      c = match bmGet r k with
        | some row => cmpRow pick row v
        | none => some .eq := by
  induction s with
  | nil => simp [cmpRows]
  | cons e s ih =>
    obtain ⟨k', v⟩ := e
    simp only [cmpRows, List.mem_cons, ih, Prod.mk.injEq]
    constructor
    · rintro (⟨rfl, rfl⟩ | ⟨w, hm, hc⟩)
      · exact ⟨v, Or.inl ⟨rfl, rfl⟩, rfl⟩
      · exact ⟨w, Or.inr hm, hc⟩
    · rintro ⟨w, ⟨rfl, rfl⟩ | hm, hc⟩
      · exact Or.inl ⟨rfl, hc⟩
      · exact Or.inr ⟨w, hm, hc⟩

variable {pick} (hp : ∀ l, (pick l).Perm l)
include hp

theorem cmp_of_le (a b : PV V N A) (ha : WF a) (hb : WF b) (h : Le (· = ·) a b) :
    partialCmp pick a b = some .lt ∨ partialCmp pick a b = some .eq := by
  induction b using induct generalizing a with
  | hbot => rw [le_bottom _ h]; simp [partialCmp]
  | htop => cases a <;> simp [partialCmp]
  | hval v =>
    cases a <;> simp [Le] at h <;> simp [partialCmp]
    exact h
  | hfunc n x =>
    cases a <;> simp [Le] at h <;> simp [partialCmp]
    exact ⟨h.1.symm, h.2.symm⟩
  | hsum s ih =>
    cases a with
    | bottom => simp [partialCmp]
    | top => simp [Le] at h
    | value => simp [Le] at h
    | func => simp [Le] at h
    | psum r =>
      rw [wf_psum_iff] at ha hb
      rw [le_psum_iff] at h
      simp only [partialCmp]
      have hk : ∀ k, (bmGet r k).isSome = true → (bmGet s k).isSome = true := by
        intro k hk
        obtain ⟨row, hrow⟩ := Option.isSome_iff_exists.1 hk
        obtain ⟨row', hg, _⟩ := h k row (bmGet_mem hrow)
        rw [hg]; rfl
      rcases lexCmp_le (keyVector_le (keyBound r s) hk) with he | he
      · rw [he]; exact Or.inl rfl
      · rw [he]
        simp only []
        apply firstDiff_le
        intro e hem
        obtain ⟨k, c⟩ := e
        rw [(hp _).mem_iff, cmpRows_mem] at hem
        obtain ⟨v, hv, hc⟩ := hem
        simp only
        cases hg : bmGet r k with
        | none => rw [hg] at hc; exact Or.inr hc
        | some row =>
          rw [hg] at hc
          simp only [] at hc
          rw [hc]
          obtain ⟨v', hv', hf⟩ := h k row (bmGet_mem hg)
          rw [bmGet_of_mem hb.2.1 hv] at hv'
          simp only [Option.some.injEq] at hv'; subst hv'
          have hx := ih k v hv
          have hw := ha.2.2 k row (bmGet_mem hg)
          have hw' := hb.2.2 k v hv
          clear ih hv hc hg he h
          induction hf with
          | nil => simp [cmpRow]
          | cons h1 _ ih2 =>
            simp only [cmpRow]
            rcases hx _ (List.mem_cons_self ..) _ (hw _ (List.mem_cons_self ..))
              (hw' _ (List.mem_cons_self ..)) h1 with h2 | h2
            · rw [h2]; exact Or.inl rfl
            · rw [h2]
              exact ih2 (fun x hm => hx x (List.mem_cons_of_mem _ hm))
                (fun x hm => hw x (List.mem_cons_of_mem _ hm))
                (fun x hm => hw' x (List.mem_cons_of_mem _ hm))

theorem cmp_eq_iff (a b : PV V N A) (ha : WF a) (hb : WF b) :
    partialCmp pick a b = some .eq ↔ a = b := by
  induction b using induct generalizing a with
  | hbot => cases a <;> simp [partialCmp]
  | htop => cases a <;> simp [partialCmp]
  | hval v => cases a <;> simp [partialCmp]
  | hfunc n x => cases a <;> simp [partialCmp]
  | hsum s ih =>
    cases a with
    | bottom => simp [partialCmp]
    | top => simp [partialCmp]
    | value => simp [partialCmp]
    | func => simp [partialCmp]
    | psum r =>
      rw [wf_psum_iff] at ha hb
      have hrow : ∀ k x y, (k, x) ∈ r → (k, y) ∈ s → (cmpRow pick x y = some .eq ↔ x = y) := by
        intro k x y hx hy
        have h1 := ih k y hy
        have hw := ha.2.2 k x hx
        have hw' := hb.2.2 k y hy
        clear ih hx hy
        induction y generalizing x with
        | nil => cases x <;> simp [cmpRow]
        | cons y ys ih2 =>
          cases x with
          | nil => simp [cmpRow]
          | cons x xs =>
            have he := h1 y (List.mem_cons_self ..) x (hw _ (List.mem_cons_self ..))
              (hw' _ (List.mem_cons_self ..))
            have ht := ih2 xs (fun x hm => h1 x (List.mem_cons_of_mem _ hm))
                (fun x hm => hw x (List.mem_cons_of_mem _ hm))
                (fun x hm => hw' x (List.mem_cons_of_mem _ hm))
            simp only [cmpRow, List.cons.injEq]
            by_cases hc : partialCmp pick x y = some .eq
            · rw [hc]; simp only []
              exact ⟨fun h => ⟨he.1 hc, ht.1 h⟩, fun h => ht.2 h.2⟩
            · have hne : x ≠ y := fun e => hc (he.2 e)
              simp only [hne, false_and, iff_false]
              exact hc
      simp only [partialCmp, psum.injEq]
      constructor
      · intro h
        cases hl : lexCmp (keyVector (keyBound r s) r) (keyVector (keyBound r s) s) with
        | lt => rw [hl] at h; simp at h
        | gt => rw [hl] at h; simp at h
        | eq =>
          rw [hl] at h
          simp only [] at h
          rw [firstDiff_eq] at h
          have hkv := lexCmp_eq hl
          refine bm_ext ha.2.1 hb.2.1 (fun k => ?_)
          cases h1 : bmGet r k with
          | none =>
            cases h2 : bmGet s k with
            | none => rfl
            | some y =>
              have := keyVector_eq hkv (keyBound_lt (List.mem_append_right _ (bmGet_mem h2)))
              rw [h1, h2] at this; simp at this
          | some x =>
            cases h2 : bmGet s k with
            | none =>
              have := keyVector_eq hkv (keyBound_lt (List.mem_append_left _ (bmGet_mem h1)))
              rw [h1, h2] at this; simp at this
            | some y =>
              have hm : (k, cmpRow pick x y) ∈ pick (cmpRows pick r s) := by
                rw [(hp _).mem_iff, cmpRows_mem]
                exact ⟨y, bmGet_mem h2, by rw [h1]⟩
              have := h _ hm
              rw [(hrow k x y (bmGet_mem h1) (bmGet_mem h2)).1 this]
      · rintro rfl
        rw [lexCmp_refl]
        simp only []
        rw [firstDiff_eq]
        intro e hem
        obtain ⟨k, c⟩ := e
        rw [(hp _).mem_iff, cmpRows_mem] at hem
        obtain ⟨v, hv, hc⟩ := hem
        rw [bmGet_of_mem hb.2.1 hv] at hc
        simp only [] at hc ⊢
        rw [hc]
        exact (hrow k v v hv hv).2 rfl

end PV
end Verif.Dataflow
