import Mathlib.Data.List.Count
import Mathlib.Data.Nat.Basic
import Mathlib.Data.List.Forall2
import Verif.SumLayout.Model

/-!
# C40: layout of sum types

Source: `/repo/hugr-llvm/src/sum/layout.rs`.
-/
namespace Verif.SumLayout

variable {T : Type} [LinearOrder T]

/-! ## Specification -/

/-- Number of fields of type `t` that a variant stores. -/
def stored (elide : T → Bool) (variant : List T) (t : T) : Nat :=
  if elide t then 0 else variant.count t

/-- The largest number of fields of type `t` that any one variant stores. -/
def needed (elide : T → Bool) (variants : List (List T)) (t : T) : Nat :=
  (variants.map fun v => stored elide v t).foldr max 0

/-- A correct layout of one variant among the slots: one entry per field, no slot for an elided
field, a slot of the same type for every other field, and no slot used twice. -/
structure VariantLayout (elide : T → Bool) (slots : List T) (variant : List T)
    (layout : List (Option Nat)) : Prop where
  length : layout.length = variant.length
  elided : ∀ (j : Nat) (t : T), variant[j]? = some t → elide t = true → layout[j]? = some none
  typed : ∀ (j : Nat) (t : T), variant[j]? = some t → elide t = false →
    ∃ k : Nat, layout[j]? = some (some k) ∧ slots[k]? = some t
  distinct : ∀ i j k : Nat, layout[i]? = some (some k) → layout[j]? = some (some k) → i = j

/-! ## Counting -/

/-- The value of a counter. -/
def cnt (m : List (T × Nat)) (t : T) : Nat := (bmGet m t).getD 0

theorem cnt_insert {m : List (T × Nat)} (h : BmSorted m) (t u : T) (c : Nat) :
    cnt (bmInsert m t c) u = if t = u then c else cnt m u := by
  unfold cnt
  rw [bmGet_insert h]
  split <;> simp

theorem countFields_spec (elide : T → Bool) (m : List (T × Nat)) (v : List T) (h : BmSorted m) :
    BmSorted (countFields elide m v) ∧
    ∀ t, cnt (countFields elide m v) t = cnt m t + stored elide v t := by
  induction v generalizing m with
  | nil => exact ⟨h, fun t => by simp [countFields, stored]⟩
  | cons x v ih =>
    simp only [countFields]
    by_cases he : elide x = true
    · rw [if_pos he]
      obtain ⟨h1, h2⟩ := ih m h
      refine ⟨h1, fun t => ?_⟩
      rw [h2]
      simp only [stored]
      by_cases ht : elide t = true
      · simp [ht]
      · have hne : x ≠ t := fun e => ht (e ▸ he)
        simp [ht, List.count_cons_of_ne hne]
    · rw [if_neg he]
      have key : ∀ c, c = cnt m x + 1 → (BmSorted (countFields elide (bmInsert m x c) v) ∧
          ∀ t, cnt (countFields elide (bmInsert m x c) v) t = cnt m t + stored elide (x :: v) t) := by
        intro c hc
        obtain ⟨h1, h2⟩ := ih (bmInsert m x c) (bmInsert_sorted h x c)
        refine ⟨h1, fun t => ?_⟩
        rw [h2, cnt_insert h]
        by_cases ht : x = t
        · subst ht
          simp only [if_true, stored, he, List.count_cons_self]
          simp [hc]; omega
        · rw [if_neg ht]
          simp only [stored, List.count_cons_of_ne ht]
      cases hg : bmGet m x with
      | none => exact key 1 (by simp [cnt, hg])
      | some c => exact key (c + 1) (by simp [cnt, hg])

theorem mergeCounts_spec (m n : List (T × Nat)) (h : BmSorted m) (hn : BmSorted n) :
    BmSorted (mergeCounts m n) ∧ ∀ t, cnt (mergeCounts m n) t = max (cnt m t) (cnt n t) := by
  induction n generalizing m with
  | nil => exact ⟨h, fun t => by simp [mergeCounts, cnt, bmGet]⟩
  | cons e n ih =>
    obtain ⟨x, c⟩ := e
    have key : ∀ d, d = max c (cnt m x) → (BmSorted (mergeCounts (bmInsert m x d) n) ∧
        ∀ t, cnt (mergeCounts (bmInsert m x d) n) t = max (cnt m t) (cnt ((x, c) :: n) t)) := by
      intro d hd
      obtain ⟨h1, h2⟩ := ih (bmInsert m x d) (bmInsert_sorted h x d) hn.tail
      refine ⟨h1, fun t => ?_⟩
      rw [h2, cnt_insert h]
      by_cases ht : x = t
      · subst ht
        have : cnt n x = 0 := by simp [cnt, bmGet_none_of_lt hn.head_lt]
        have h3 : cnt ((x, c) :: n) x = c := by simp [cnt, bmGet]
        rw [this, h3, if_pos rfl, hd]; omega
      · rw [if_neg ht]
        simp [cnt, bmGet, ht]
    simp only [mergeCounts]
    cases hg : bmGet m x with
    | none => exact key c (by simp [cnt, hg])
    | some d => exact key (max c d) (by simp [cnt, hg])

theorem typeCounts_spec (elide : T → Bool) (variants : List (List T)) :
    BmSorted (typeCounts elide variants) ∧
    ∀ t, cnt (typeCounts elide variants) t = needed elide variants t := by
  have key : ∀ (vs : List (List T)) (m : List (T × Nat)), BmSorted m →
      BmSorted (vs.foldl (fun m v => mergeCounts m (countFields elide [] v)) m) ∧
      ∀ t, cnt (vs.foldl (fun m v => mergeCounts m (countFields elide [] v)) m) t =
        max (cnt m t) (needed elide vs t) := by
    intro vs
    induction vs with
    | nil => intro m h; exact ⟨h, fun t => by simp [needed]⟩
    | cons v vs ih =>
      intro m h
      obtain ⟨c1, c2⟩ := countFields_spec elide [] v (by simp [BmSorted])
      obtain ⟨m1, m2⟩ := mergeCounts_spec m _ h c1
      obtain ⟨i1, i2⟩ := ih _ m1
      refine ⟨i1, fun t => ?_⟩
      have h0 : cnt ([] : List (T × Nat)) t = 0 := rfl
      rw [List.foldl_cons, i2, m2, c2, h0]
      simp only [needed, List.map_cons, List.foldr_cons]
      omega
  obtain ⟨h1, h2⟩ := key variants [] (by simp [BmSorted])
  exact ⟨h1, fun t => by rw [typeCounts, h2]; simp [cnt, bmGet]⟩

/-! ## Slots -/

theorem count_sortedFields (m : List (T × Nat)) (h : BmSorted m) (t : T) :
    (sortedFields m).count t = cnt m t := by
  induction m with
  | nil => simp [sortedFields, cnt, bmGet]
  | cons e m ih =>
    obtain ⟨x, c⟩ := e
    have : sortedFields ((x, c) :: m) = List.replicate c x ++ sortedFields m := by
      simp [sortedFields]
    rw [this, List.count_append, ih h.tail, List.count_replicate]
    by_cases hx : x = t
    · subst hx
      simp [cnt, bmGet, bmGet_none_of_lt h.head_lt]
    · simp [cnt, bmGet, hx]

theorem mem_sortedFields {m : List (T × Nat)} {t : T} (h : t ∈ sortedFields m) :
    ∃ c, (t, c) ∈ m := by
  simp only [sortedFields, List.mem_flatMap, List.mem_replicate] at h
  obtain ⟨⟨x, c⟩, hm, _, rfl⟩ := h
  exact ⟨c, hm⟩

theorem sortedFields_sorted (m : List (T × Nat)) (h : BmSorted m) :
    (sortedFields m).Pairwise (· ≤ ·) := by
  induction m with
  | nil => simp [sortedFields]
  | cons e m ih =>
    obtain ⟨x, c⟩ := e
    have : sortedFields ((x, c) :: m) = List.replicate c x ++ sortedFields m := by
      simp [sortedFields]
    rw [this, List.pairwise_append]
    refine ⟨?_, ih h.tail, ?_⟩
    · exact List.pairwise_replicate.2 (Or.inr (le_refl x))
    · intro a ha b hb
      rw [List.mem_replicate] at ha
      obtain ⟨c', hm⟩ := mem_sortedFields hb
      rw [ha.2]
      exact le_of_lt (h.head_lt _ hm)

theorem typeRanges_sorted (m : List (T × Nat)) (off : Nat) (h : BmSorted m) :
    BmSorted (typeRanges off m) := by
  have : ∀ off, (typeRanges off m).map Prod.fst = m.map Prod.fst := by
    intro off
    induction m generalizing off with
    | nil => rfl
    | cons e m ih => obtain ⟨x, c⟩ := e; simp [typeRanges, ih h.tail]
  unfold BmSorted
  rw [this]; exact h

theorem typeRanges_get (m : List (T × Nat)) (off : Nat) (t : T) :
    (bmGet (typeRanges off m) t).map (fun r => r.2 - r.1) = bmGet m t ∧
    ∀ s e, bmGet (typeRanges off m) t = some (s, e) →
      off ≤ s ∧ ∀ k : Nat, s ≤ k → k < e → (sortedFields m)[k - off]? = some t := by
  induction m generalizing off with
  | nil => simp [typeRanges, bmGet]
  | cons e m ih =>
    obtain ⟨x, c⟩ := e
    have hsf : sortedFields ((x, c) :: m) = List.replicate c x ++ sortedFields m := by
      simp [sortedFields]
    simp only [typeRanges, bmGet]
    by_cases hx : x = t
    · subst hx
      simp only [if_true, Option.map_some, Option.some.injEq, Prod.mk.injEq]
      refine ⟨by omega, ?_⟩
      rintro s e ⟨rfl, rfl⟩
      refine ⟨Nat.le_refl _, fun k h1 h2 => ?_⟩
      rw [hsf, List.getElem?_append_left (by simp; omega)]
      simp [List.getElem?_replicate]; omega
    · simp only [hx, if_false]
      obtain ⟨h1, h2⟩ := ih (off + c)
      refine ⟨h1, fun s e hg => ?_⟩
      obtain ⟨h3, h4⟩ := h2 s e hg
      refine ⟨by omega, fun k hk1 hk2 => ?_⟩
      rw [hsf, List.getElem?_append_right (by simp; omega)]
      have := h4 k hk1 hk2
      simp only [List.length_replicate]
      rw [show k - off - c = k - (off + c) by omega]
      exact this

/-! ## Assignment -/

theorem assignSlots_spec (elide : T → Bool) (slots : List T) (R : List (T × (Nat × Nat)))
    (v : List T) (hs : BmSorted R)
    (hF : ∀ (t : T) (s e : Nat), bmGet R t = some (s, e) → ∀ k : Nat, s ≤ k → k < e →
      slots[k]? = some t)
    (hc : ∀ t, elide t = false → ∃ s e, (v.count t = 0 ∨ bmGet R t = some (s, e)) ∧
      v.count t ≤ e - s) :
    ∃ out, assignSlots elide R v = some out ∧
      List.Forall₂ (fun t o => (elide t = true ∧ o = none) ∨
        (elide t = false ∧ ∃ k s e, o = some k ∧ bmGet R t = some (s, e) ∧ s ≤ k ∧ k < e)) v out ∧
      out.Pairwise (fun a b => ∀ k, a = some k → b ≠ some k) := by
  induction v generalizing R with
  | nil => exact ⟨[], rfl, .nil, .nil⟩
  | cons x v ih =>
    simp only [assignSlots]
    by_cases he : elide x = true
    · rw [if_pos he]
      obtain ⟨out, h1, h2, h3⟩ := ih R hs hF (by
        intro t ht
        have hne : x ≠ t := fun e => by rw [e, ht] at he; simp at he
        have := hc t ht
        rwa [List.count_cons_of_ne hne] at this)
      rw [h1]
      refine ⟨none :: out, rfl, .cons (Or.inl ⟨he, rfl⟩) h2, .cons ?_ h3⟩
      intro b _ k h; simp at h
    · rw [if_neg he]
      simp only [Bool.not_eq_true] at he
      obtain ⟨s, e, hg, hle⟩ := hc x he
      simp only [List.count_cons_self] at hg hle
      rcases hg with hg | hg
      · omega
      rw [hg]
      simp only []
      rw [if_pos (by omega)]
      have hs' := bmInsert_sorted hs x (s + 1, e)
      obtain ⟨out, h1, h2, h3⟩ := ih (bmInsert R x (s + 1, e)) hs' (by
          intro t s' e' hg' k hk1 hk2
          rw [bmGet_insert hs] at hg'
          by_cases hxt : x = t
          · subst hxt
            simp only [if_true, Option.some.injEq, Prod.mk.injEq] at hg'
            exact hF x s e hg k (by omega) (by omega)
          · rw [if_neg hxt] at hg'
            exact hF t s' e' hg' k hk1 hk2) (by
          intro t ht
          by_cases hxt : x = t
          · subst hxt
            exact ⟨s + 1, e, Or.inr (by rw [bmGet_insert hs, if_pos rfl]), by omega⟩
          · obtain ⟨s', e', hg', hle'⟩ := hc t ht
            rw [List.count_cons_of_ne hxt] at hg' hle'
            exact ⟨s', e', by rw [bmGet_insert hs, if_neg hxt]; exact hg', hle'⟩)
      rw [h1]
      refine ⟨some s :: out, rfl, .cons (Or.inr ⟨he, s, s, e, rfl, hg, Nat.le_refl _, by omega⟩) ?_,
        .cons ?_ h3⟩
      · refine List.Forall₂.imp ?_ h2
        rintro t o (h | ⟨ht, k, s', e', rfl, hg', hk1, hk2⟩)
        · exact Or.inl h
        · refine Or.inr ⟨ht, k, ?_⟩
          rw [bmGet_insert hs] at hg'
          by_cases hxt : x = t
          · subst hxt
            simp only [if_true, Option.some.injEq, Prod.mk.injEq] at hg'
            exact ⟨s, e, rfl, hg, by omega, by omega⟩
          · rw [if_neg hxt] at hg'
            exact ⟨s', e', rfl, hg', hk1, hk2⟩
      · intro b hb k hk
        simp only [Option.some.injEq] at hk
        subst hk
        rintro rfl
        -- a later field with slot s
        have : ∃ t, elide t = false ∧ ∃ s' e', bmGet (bmInsert R x (s + 1, e)) t = some (s', e') ∧
            s' ≤ s ∧ s < e' := by
          clear h1 h3 ih hc hle
          induction h2 with
          | nil => simp at hb
          | cons h _ ih2 =>
            rcases List.mem_cons.1 hb with hb | hb
            · rcases h with ⟨_, h⟩ | ⟨ht, k, s', e', h, hg', h1, h2⟩
              · rw [h] at hb; simp at hb
              · rw [h] at hb; simp only [Option.some.injEq] at hb; subst hb
                exact ⟨_, ht, s', e', hg', h1, h2⟩
            · exact ih2 hb
        obtain ⟨t, _, s', e', hg', hk1, hk2⟩ := this
        rw [bmGet_insert hs] at hg'
        by_cases hxt : x = t
        · subst hxt
          simp only [if_true, Option.some.injEq, Prod.mk.injEq] at hg'
          omega
        · rw [if_neg hxt] at hg'
          have e1 := hF t s' e' hg' s hk1 hk2
          have e2 := hF x s e hg s (Nat.le_refl _) (by omega)
          rw [e1] at e2
          simp only [Option.some.injEq] at e2
          exact hxt e2.symm

/-- **C40** The layout of a sum: it never panics; the slots are sorted, and of each type there are
as many as the neediest variant stores; and each variant is laid out correctly. -/
theorem C40_layout (elide : T → Bool) (variants : List (List T)) :
    ∃ slots layout, layoutVariants elide variants = some (slots, layout) ∧
      slots.Pairwise (· ≤ ·) ∧
      (∀ t, slots.count t = needed elide variants t) ∧
      List.Forall₂ (VariantLayout elide slots) variants layout := by
  obtain ⟨hs, hn⟩ := typeCounts_spec elide variants
  generalize hm : typeCounts elide variants = m at hs hn
  have hrs := typeRanges_sorted m 0 hs
  have hF : ∀ (t : T) (s e : Nat), bmGet (typeRanges 0 m) t = some (s, e) → ∀ k : Nat, s ≤ k → k < e →
      (sortedFields m)[k]? = some t := by
    intro t s e hg k h1 h2
    have := ((typeRanges_get m 0 t).2 s e hg).2 k h1 h2
    simpa using this
  have hv : ∀ vs : List (List T), (∀ v ∈ vs, v ∈ variants) → ∃ layout,
      assignAll elide (typeRanges 0 m) vs = some layout ∧
      List.Forall₂ (VariantLayout elide (sortedFields m)) vs layout := by
    intro vs hvs
    induction vs with
    | nil => exact ⟨[], rfl, .nil⟩
    | cons v vs ih =>
      obtain ⟨layout, h1, h2⟩ := ih (fun w hw => hvs w (by simp [hw]))
      have hcount : ∀ t, elide t = false → v.count t ≤ cnt m t := by
        intro t ht
        rw [hn]
        have hmem := hvs v (by simp)
        clear hm hs hn hrs hF hvs ih h1 h2
        unfold needed
        induction variants with
        | nil => simp at hmem
        | cons w ws ih =>
          simp only [List.map_cons, List.foldr_cons]
          rcases List.mem_cons.1 hmem with rfl | hmem
          · have : stored elide v t = v.count t := by simp [stored, ht]
            omega
          · have := ih hmem; omega
      obtain ⟨out, a1, a2, a3⟩ := assignSlots_spec elide (sortedFields m) (typeRanges 0 m) v hrs hF (by
        intro t ht
        have hle := hcount t ht
        have hr := (typeRanges_get m 0 t).1
        cases hg : bmGet (typeRanges 0 m) t with
        | none =>
          rw [hg] at hr
          simp only [Option.map_none] at hr
          have : v.count t = 0 := by simp [cnt, ← hr] at hle; simpa using hle
          exact ⟨0, 0, Or.inl this, by omega⟩
        | some r =>
          rw [hg] at hr
          simp only [Option.map_some] at hr
          refine ⟨r.1, r.2, Or.inr rfl, ?_⟩
          simpa [cnt, ← hr] using hle)
      refine ⟨out :: layout, by simp [assignAll, a1, h1], .cons ?_ h2⟩
      refine ⟨a2.length_eq.symm, ?_, ?_, ?_⟩
      · intro j t hj ht
        obtain ⟨hlt, rfl⟩ := List.getElem?_eq_some_iff.1 hj
        have hlo : j < out.length := a2.length_eq ▸ hlt
        have := (List.forall₂_iff_get.1 a2).2 j hlt hlo
        simp only [List.get_eq_getElem] at this
        rcases this with ⟨_, h⟩ | ⟨h, _⟩
        · rw [List.getElem?_eq_getElem hlo, h]
        · rw [ht] at h; simp at h
      · intro j t hj ht
        obtain ⟨hlt, rfl⟩ := List.getElem?_eq_some_iff.1 hj
        have hlo : j < out.length := a2.length_eq ▸ hlt
        have := (List.forall₂_iff_get.1 a2).2 j hlt hlo
        simp only [List.get_eq_getElem] at this
        rcases this with ⟨h, _⟩ | ⟨_, k, s, e, h, hg, hk1, hk2⟩
        · rw [ht] at h; simp at h
        · exact ⟨k, by rw [List.getElem?_eq_getElem hlo, h], hF _ s e hg k hk1 hk2⟩
      · intro i j k hi hj
        obtain ⟨hi1, hi2⟩ := List.getElem?_eq_some_iff.1 hi
        obtain ⟨hj1, hj2⟩ := List.getElem?_eq_some_iff.1 hj
        rw [List.pairwise_iff_getElem] at a3
        rcases Nat.lt_trichotomy i j with h | h | h
        · exact absurd hj2 (a3 i j hi1 hj1 h k hi2)
        · exact h
        · exact absurd hi2 (a3 j i hj1 hi1 h k hj2)
  obtain ⟨layout, h1, h2⟩ := hv variants (fun _ h => h)
  refine ⟨sortedFields m, layout, ?_, sortedFields_sorted m hs, fun t => ?_, h2⟩
  · simp only [layoutVariants, hm, h1]
  · rw [count_sortedFields m hs, hn]

/-- The test case with three variants and duplicates, computed by the model. -/
example : layoutVariants (fun x : Nat => x == 0) [[9, 10], [9, 0], [11, 10, 1, 10]] =
    some ([1, 9, 10, 10, 11],
      [[some 1, some 2], [some 1, none], [some 4, some 2, some 0, some 3]]) := by decide

end Verif.SumLayout
