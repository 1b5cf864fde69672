import Mathlib.Order.Defs.LinearOrder
/-!
# Model of `std::collections::BTreeMap`

A map is the list of its entries in ascending key order.
-/
namespace Verif

variable {K V : Type} [LinearOrder K]

/-- `BTreeMap::get`. -/
def bmGet : List (K × V) → K → Option V
  | [], _ => none
  | (k', v) :: m, k => if k' = k then some v else bmGet m k

/-- `BTreeMap::insert`. -/
def bmInsert : List (K × V) → K → V → List (K × V)
  | [], k, v => [(k, v)]
  | (k', v') :: m, k, v =>
    if k < k' then (k, v) :: (k', v') :: m
    else if k' = k then (k', v) :: m
    else (k', v') :: bmInsert m k v

/-- `BTreeMap::remove` (the map afterwards). -/
def bmRemove : List (K × V) → K → List (K × V)
  | [], _ => []
  | (k', v') :: m, k => if k' = k then m else (k', v') :: bmRemove m k

/-- Keys in strictly ascending order. -/
def BmSorted (m : List (K × V)) : Prop := (m.map Prod.fst).Pairwise (· < ·)

theorem bmGet_none_of_lt {m : List (K × V)} {k : K} (h : ∀ e ∈ m, k < e.1) : bmGet m k = none := by
  induction m with
  | nil => rfl
  | cons e m ih =>
    obtain ⟨a, b⟩ := e
    have ha : k < a := h (a, b) (List.mem_cons_self ..)
    simp only [bmGet, (ne_of_gt ha), if_false]
    exact ih (fun e he => h e (List.mem_cons_of_mem _ he))

theorem BmSorted.tail {e : K × V} {m : List (K × V)} (h : BmSorted (e :: m)) : BmSorted m := by
  simp only [BmSorted, List.map_cons, List.pairwise_cons] at h; exact h.2

theorem BmSorted.head_lt {e : K × V} {m : List (K × V)} (h : BmSorted (e :: m)) :
    ∀ x ∈ m, e.1 < x.1 := by
  simp only [BmSorted, List.map_cons, List.pairwise_cons] at h
  intro x hx
  exact h.1 x.1 (List.mem_map.2 ⟨x, hx, rfl⟩)

theorem bmGet_insert {m : List (K × V)} (h : BmSorted m) (k : K) (v : V) (k' : K) :
    bmGet (bmInsert m k v) k' = if k = k' then some v else bmGet m k' := by
  induction m with
  | nil => simp [bmInsert, bmGet]
  | cons e m ih =>
    obtain ⟨a, b⟩ := e
    simp only [bmInsert]
    by_cases h1 : k < a
    · simp only [h1, if_true, bmGet]
    · by_cases h2 : a = k
      · subst h2
        simp only [lt_irrefl, if_false, if_true, bmGet]
        by_cases h3 : a = k' <;> simp [h3]
      · simp only [h1, h2, if_false, bmGet, ih h.tail]
        by_cases h3 : a = k'
        · subst h3; simp [Ne.symm h2]
        · simp [h3]

theorem bmInsert_mem {m : List (K × V)} (k : K) (v : V) {x : K × V}
    (hx : x ∈ bmInsert m k v) : x = (k, v) ∨ x ∈ m := by
  induction m with
  | nil => simpa [bmInsert] using hx
  | cons e m ih =>
    obtain ⟨a, b⟩ := e
    simp only [bmInsert] at hx
    split at hx
    · rcases List.mem_cons.1 hx with h | h
      · exact Or.inl h
      · exact Or.inr h
    · split at hx
      · rename_i h
        rcases List.mem_cons.1 hx with h' | h'
        · left; rw [h', h]
        · exact Or.inr (List.mem_cons_of_mem _ h')
      · rcases List.mem_cons.1 hx with h' | h'
        · right; rw [h']; exact List.mem_cons_self ..
        · rcases ih h' with h'' | h''
          · exact Or.inl h''
          · exact Or.inr (List.mem_cons_of_mem _ h'')

theorem bmInsert_sorted {m : List (K × V)} (h : BmSorted m) (k : K) (v : V) :
    BmSorted (bmInsert m k v) := by
  induction m with
  | nil => simp [BmSorted, bmInsert]
  | cons e m ih =>
    obtain ⟨a, b⟩ := e
    simp only [bmInsert]
    by_cases h1 : k < a
    · simp only [h1, if_true]
      have hl := h.head_lt
      simp only [BmSorted, List.map_cons] at h ⊢
      refine List.pairwise_cons.2 ⟨?_, h⟩
      intro y hy
      rcases List.mem_cons.1 hy with rfl | hy
      · exact h1
      · exact lt_trans h1 ((List.pairwise_cons.1 h).1 y hy)
    · by_cases h2 : a = k
      · subst h2
        simp only [lt_irrefl, if_false, if_true]
        simpa [BmSorted] using h
      · simp only [h1, h2, if_false]
        have hka : a < k := lt_of_le_of_ne (not_lt.1 h1) h2
        refine List.pairwise_cons.2 ⟨?_, ih h.tail⟩
        intro y hy
        obtain ⟨x, hx, rfl⟩ := List.mem_map.1 hy
        rcases bmInsert_mem k v hx with rfl | hx
        · exact hka
        · exact h.head_lt x hx

theorem bmRemove_sublist (m : List (K × V)) (k : K) : (bmRemove m k).Sublist m := by
  induction m with
  | nil => simp [bmRemove]
  | cons e m ih =>
    obtain ⟨a, b⟩ := e
    simp only [bmRemove]
    split
    · exact List.sublist_cons_self ..
    · exact ih.cons_cons _

theorem bmRemove_sorted {m : List (K × V)} (h : BmSorted m) (k : K) : BmSorted (bmRemove m k) :=
  List.Pairwise.sublist ((bmRemove_sublist m k).map _) h

theorem bmGet_remove {m : List (K × V)} (h : BmSorted m) (k k' : K) :
    bmGet (bmRemove m k) k' = if k = k' then none else bmGet m k' := by
  induction m with
  | nil => simp [bmRemove, bmGet]
  | cons e m ih =>
    obtain ⟨a, b⟩ := e
    simp only [bmRemove]
    by_cases h1 : a = k
    · subst h1
      simp only [if_true, bmGet]
      by_cases h2 : a = k'
      · subst h2
        simp only [if_true]
        exact bmGet_none_of_lt h.head_lt
      · simp [h2]
    · simp only [h1, if_false, bmGet, ih h.tail]
      by_cases h2 : a = k'
      · subst h2; simp [Ne.symm h1]
      · simp [h2]

theorem bmGet_mem {m : List (K × V)} {k : K} {v : V} (h : bmGet m k = some v) : (k, v) ∈ m := by
  induction m with
  | nil => simp [bmGet] at h
  | cons e m ih =>
    obtain ⟨a, b⟩ := e
    simp only [bmGet] at h
    split at h
    · rename_i hk
      simp only [Option.some.injEq] at h
      rw [hk, h]; exact List.mem_cons_self ..
    · exact List.mem_cons_of_mem _ (ih h)

theorem bmGet_of_mem {m : List (K × V)} (hs : BmSorted m) {k : K} {v : V} (h : (k, v) ∈ m) :
    bmGet m k = some v := by
  induction m with
  | nil => simp at h
  | cons e m ih =>
    obtain ⟨a, b⟩ := e
    rcases List.mem_cons.1 h with h' | h'
    · simp only [Prod.mk.injEq] at h'
      simp [bmGet, h'.1, h'.2]
    · have := hs.head_lt _ h'
      simp only [bmGet, ne_of_lt this, if_false]
      exact ih hs.tail h'

end Verif
