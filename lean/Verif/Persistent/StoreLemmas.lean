import Verif.Persistent.AncestorLemmas

/-!
# Every store of commits is well formed
-/
namespace Verif.Persistent

theorem getElem?_append_one (w : World) (r : Rec) (c : Nat) :
    (w ++ [r])[c]? = if c < w.length then w[c]? else if c = w.length then some r else none := by
  by_cases h : c < w.length
  · rw [if_pos h, List.getElem?_append_left h]
  · rw [if_neg h, List.getElem?_append_right (by omega)]
    by_cases h2 : c = w.length
    · rw [if_pos h2, h2, Nat.sub_self]
      rfl
    · rw [if_neg h2]
      apply List.getElem?_eq_none
      simp only [List.length_cons, List.length_nil]
      omega

section append
variable (w : World) (r : Rec) (c : Nat)

theorem old_parents (h : c < w.length) : World.parents (w ++ [r]) c = w.parents c := by
  unfold World.parents; rw [getElem?_append_one, if_pos h]
theorem old_deletes (h : c < w.length) : World.deletes (w ++ [r]) c = w.deletes c := by
  unfold World.deletes; rw [getElem?_append_one, if_pos h]
theorem old_isBase (h : c < w.length) : World.isBase (w ++ [r]) c = w.isBase c := by
  unfold World.isBase; rw [getElem?_append_one, if_pos h]
theorem old_space (h : c < w.length) : World.space (w ++ [r]) c = w.space c := by
  unfold World.space; rw [getElem?_append_one, if_pos h]
theorem old_id (h : c < w.length) : World.id (w ++ [r]) c = w.id c := by
  unfold World.id; rw [getElem?_append_one, if_pos h]
theorem old_io (h : c < w.length) : World.io (w ++ [r]) c = w.io c := by
  unfold World.io; rw [getElem?_append_one, if_pos h]

theorem new_parents : World.parents (w ++ [r]) w.length = r.parents := by
  unfold World.parents; rw [getElem?_append_one, if_neg (by omega), if_pos rfl]; rfl
theorem new_deletes : World.deletes (w ++ [r]) w.length = r.deletes := by
  unfold World.deletes; rw [getElem?_append_one, if_neg (by omega), if_pos rfl]; rfl
theorem new_isBase : World.isBase (w ++ [r]) w.length = r.isBase := by
  unfold World.isBase; rw [getElem?_append_one, if_neg (by omega), if_pos rfl]; rfl
theorem new_space : World.space (w ++ [r]) w.length = r.space := by
  unfold World.space; rw [getElem?_append_one, if_neg (by omega), if_pos rfl]; rfl
theorem new_id : World.id (w ++ [r]) w.length = r.id := by
  unfold World.id; rw [getElem?_append_one, if_neg (by omega), if_pos rfl]; rfl

theorem mem_parents_lt {p : Nat} (h : p ∈ w.parents c) : c < w.length := by
  unfold World.parents at h
  by_contra hc
  rw [List.getElem?_eq_none (by omega)] at h
  cases h
theorem mem_deletes_lt {n : Nat × Nat} (h : n ∈ w.deletes c) : c < w.length := by
  unfold World.deletes at h
  by_contra hc
  rw [List.getElem?_eq_none (by omega)] at h
  cases h
theorem isBase_lt (h : w.isBase c = true) : c < w.length := by
  unfold World.isBase at h
  by_contra hc
  rw [List.getElem?_eq_none (by omega)] at h
  cases h

theorem lt_append {c : Nat} (h : c < (w ++ [r]).length) : c < w.length ∨ c = w.length := by
  simp only [List.length_append, List.length_cons, List.length_nil] at h
  omega

theorem count_append (s : Nat) :
    World.count (w ++ [r]) s = w.count s + if r.space = s then 1 else 0 := by
  unfold World.count
  rw [List.filter_append, List.length_append]
  congr 1
  by_cases h : r.space = s <;> simp [h]

end append

/-- The invariant of a store. -/
structure StoreInv (w : World) : Prop extends StoreOk w where
  ids_lt : ∀ c < w.length, w.id c < w.count (w.space c)

theorem StoreOk.parents_lt {w : World} (h : StoreOk w) (c p : Nat) (hp : p ∈ w.parents c) :
    p < w.length := Nat.lt_trans (h.older c p hp) (mem_parents_lt w c hp)

/-- Every commit has the base of its state space as an ancestor. -/
theorem StoreOk.base_ancestor {w : World} (h : StoreOk w) :
    ∀ c < w.length, ∃ b, Ancestor w c b ∧ w.isBase b = true ∧ w.space b = w.space c := by
  intro c
  induction c using Nat.strongRecOn with
  | ind c ih =>
    intro hc
    cases hp : w.parents c with
    | nil => exact ⟨c, .refl, (h.bases c hc).2 hp, rfl⟩
    | cons p ps =>
      have hmem : p ∈ w.parents c := by rw [hp]; exact List.mem_cons_self ..
      obtain ⟨b, hb1, hb2, hb3⟩ := ih p (h.older c p hmem) (h.parents_lt c p hmem)
      exact ⟨b, .head hmem hb1, hb2, hb3.trans (h.spaces c p hmem)⟩

theorem storeInv_nil : StoreInv [] := by
  refine ⟨⟨?_, ?_, ?_, ?_, ?_, ?_⟩, ?_⟩ <;> intro c <;> intros <;>
    simp_all [World.parents, World.deletes, World.isBase]

theorem storeInv_setBase (w w' : World) (s : Nat) (hw : StoreInv w)
    (h : trySetBase w s = some w') : StoreInv w' ∧ ∃ r, w' = w ++ [r] := by
  unfold trySetBase at h
  split at h
  case isFalse => cases h
  rename_i hcount
  injection h with h
  subst h
  refine ⟨?_, _, rfl⟩
  have hfree : ∀ c < w.length, w.space c ≠ s := by
    intro c hc hs
    have := hw.ids_lt c hc
    rw [hs] at this
    omega
  refine ⟨⟨?_, ?_, ?_, ?_, ?_, ?_⟩, ?_⟩
  · intro c p hp
    rcases lt_append _ _ (mem_parents_lt _ _ hp) with hc | rfl
    · rw [old_parents _ _ _ hc] at hp
      exact hw.older c p hp
    · rw [new_parents] at hp
      cases hp
  · intro c d hc hd hs hi
    rcases lt_append _ _ hc with hc | rfl <;> rcases lt_append _ _ hd with hd | rfl
    · rw [old_space _ _ _ hc, old_space _ _ _ hd] at hs
      rw [old_id _ _ _ hc, old_id _ _ _ hd] at hi
      exact hw.ids c d hc hd hs hi
    · rw [old_space _ _ _ hc, new_space] at hs
      exact absurd hs (hfree c hc)
    · rw [old_space _ _ _ hd, new_space] at hs
      exact absurd hs.symm (hfree d hd)
    · rfl
  · intro c n hn
    rcases lt_append _ _ (mem_deletes_lt _ _ hn) with hc | rfl
    · rw [old_deletes _ _ _ hc] at hn
      obtain ⟨p, hp, he⟩ := hw.owners c n hn
      rw [old_parents _ _ _ hc]
      exact ⟨p, hp, by rw [old_id _ _ _ (hw.toStoreOk.parents_lt c p hp)]; exact he⟩
    · rw [new_deletes] at hn
      cases hn
  · intro c p hp
    rcases lt_append _ _ (mem_parents_lt _ _ hp) with hc | rfl
    · rw [old_parents _ _ _ hc] at hp
      rw [old_space _ _ _ hc, old_space _ _ _ (hw.toStoreOk.parents_lt c p hp)]
      exact hw.spaces c p hp
    · rw [new_parents] at hp
      cases hp
  · intro c hc
    rcases lt_append _ _ hc with hc | rfl
    · rw [old_isBase _ _ _ hc, old_parents _ _ _ hc]
      exact hw.bases c hc
    · rw [new_isBase, new_parents]
      simp
  · intro c d hc hd hs
    rcases lt_append _ _ (isBase_lt _ _ hc) with hc' | rfl <;>
      rcases lt_append _ _ (isBase_lt _ _ hd) with hd' | rfl
    · rw [old_isBase _ _ _ hc'] at hc
      rw [old_isBase _ _ _ hd'] at hd
      rw [old_space _ _ _ hc', old_space _ _ _ hd'] at hs
      exact hw.one_base c d hc hd hs
    · rw [old_space _ _ _ hc', new_space] at hs
      exact absurd hs (hfree c hc')
    · rw [old_space _ _ _ hd', new_space] at hs
      exact absurd hs.symm (hfree d hd')
    · rfl
  · intro c hc
    rw [count_append]
    rcases lt_append _ _ hc with hc | rfl
    · rw [old_id _ _ _ hc, old_space _ _ _ hc]
      exact Nat.lt_of_lt_of_le (hw.ids_lt c hc) (Nat.le_add_right ..)
    · rw [new_id, new_space]
      simp

theorem upgrade_some {w : World} {s i c : Nat} (h : w.upgrade s i = some c) :
    c < w.length ∧ w.space c = s ∧ w.id c = i := by
  unfold World.upgrade at h
  have h1 := List.find?_some h
  have h2 := List.mem_of_find?_eq_some h
  simp only [Bool.and_eq_true, beq_iff_eq] at h1
  exact ⟨List.mem_range.1 h2, h1⟩

theorem upgrade_id {w : World} (hw : StoreOk w) {c : Nat} (hc : c < w.length) :
    w.upgrade (w.space c) (w.id c) = some c := by
  unfold World.upgrade
  cases hf : (List.range w.length).find? fun d => w.space d == w.space c && w.id d == w.id c with
  | none =>
    have := List.find?_eq_none.1 hf c (List.mem_range.2 hc)
    simp at this
  | some d =>
    have h1 := List.find?_some hf
    have h2 := List.mem_of_find?_eq_some hf
    simp only [Bool.and_eq_true, beq_iff_eq] at h1
    rw [hw.ids d c (List.mem_range.1 h2) hc h1.1 h1.2]

theorem getParentCommits_ok (w : World) (s : Nat) : ∀ (ids owners : List Nat),
    getParentCommits w s ids = .ok owners →
    (∀ i ∈ ids, ∃ c ∈ owners, w.upgrade s i = some c) ∧
    (∀ c ∈ owners, ∃ i ∈ ids, w.upgrade s i = some c) := by
  intro ids
  induction ids with
  | nil =>
    intro owners h
    unfold getParentCommits at h
    injection h with h
    subst h
    simp
  | cons i ids ih =>
    intro owners h
    unfold getParentCommits at h
    split at h
    · cases h
    · rename_i c hc
      split at h
      · cases h
      · rename_i cs hcs
        injection h with h
        subst h
        obtain ⟨a, b⟩ := ih cs hcs
        constructor
        · intro j hj
          rcases List.mem_cons.1 hj with rfl | hj
          · exact ⟨c, List.mem_cons_self .., hc⟩
          · obtain ⟨d, hd, he⟩ := a j hj
            exact ⟨d, List.mem_cons_of_mem _ hd, he⟩
        · intro d hd
          rcases List.mem_cons.1 hd with rfl | hd
          · exact ⟨i, List.mem_cons_self .., hc⟩
          · obtain ⟨j, hj, he⟩ := b d hd
            exact ⟨j, List.mem_cons_of_mem _ hj, he⟩

/-- A commit is made only if its parents are in its state space. -/
theorem storeInv_commit (w w' : World) (s : Nat) (deletes : List (Nat × Nat))
    (io explicit : List Nat) (hw : StoreInv w) (he : ∀ c ∈ explicit, c < w.length)
    (h : tryCommit w s deletes io explicit = .ok w') :
    StoreInv w' ∧ ∃ r : Rec, w' = w ++ [r] ∧ r.space = s ∧ r.deletes = deletes ∧ r.isBase = false ∧
      (∀ p ∈ explicit, p ∈ r.parents) ∧ r.io = io := by
  unfold tryCommit at h
  split at h
  case isTrue => cases h
  rename_i hne
  split at h
  case h_1 => cases h
  rename_i owners hown
  simp only [] at h
  split at h
  case isFalse => cases h
  rename_i hlen
  injection h with h
  subst h
  refine ⟨?_, _, rfl, rfl, rfl, rfl, ?_, rfl⟩
  swap
  · intro p hp
    exact (mem_unique _ _).2 (List.mem_append_left _ hp)
  obtain ⟨o1, o2⟩ := getParentCommits_ok w s _ _ hown
  have hpar : ∀ p, p ∈ allParents explicit owners ↔ p ∈ explicit ∨ p ∈ owners := by
    intro p
    unfold allParents
    rw [mem_unique, List.mem_append]
  have hlt : ∀ p ∈ allParents explicit owners, p < w.length := by
    intro p hp
    rcases (hpar p).1 hp with hp | hp
    · exact he p hp
    · obtain ⟨i, _, hu⟩ := o2 p hp
      exact (upgrade_some hu).1
  -- one of the deleted nodes
  obtain ⟨d0, ds, hd0⟩ : ∃ d0 ds, deletes = d0 :: ds := by
    cases deletes with
    | nil => exact absurd rfl hne
    | cons a l => exact ⟨a, l, rfl⟩
  obtain ⟨o, ho, hou⟩ := o1 d0.1 (by rw [mem_unique, hd0]; simp)
  obtain ⟨ho1, ho2, _⟩ := upgrade_some hou
  obtain ⟨gnd, gmem⟩ := getAncestorsWhile_spec w (fun _ => true)
    (fun c p hp => hw.toStoreOk.parents_lt c p hp) _ hlt
  have hbase : ∀ p ∈ allParents explicit owners, ∀ b, Ancestor w p b → w.isBase b = true →
      b ∈ baseAncestors w (allParents explicit owners) := by
    intro p hp b hb hbb
    unfold baseAncestors
    rw [List.mem_filter]
    exact ⟨(gmem b).2 ⟨p, hp, (via_true w p b).2 hb⟩, hbb⟩
  obtain ⟨bo, hbo1, hbo2, hbo3⟩ := hw.toStoreOk.base_ancestor o ho1
  have hspace : ∀ p ∈ allParents explicit owners, w.space p = s := by
    intro p hp
    obtain ⟨b, hb1, hb2, hb3⟩ := hw.toStoreOk.base_ancestor p (hlt p hp)
    have m1 := hbase p hp b hb1 hb2
    have m2 := hbase o ((hpar o).2 (Or.inr ho)) bo hbo1 hbo2
    obtain ⟨x, hx⟩ := List.length_eq_one_iff.1 hlen
    rw [hx, List.mem_singleton] at m1 m2
    rw [← hb3, m1, ← m2, hbo3, ho2]
  have hnil : allParents explicit owners ≠ [] := by
    intro hc
    have := (hpar o).2 (Or.inr ho)
    rw [hc] at this
    cases this
  refine ⟨⟨?_, ?_, ?_, ?_, ?_, ?_⟩, ?_⟩
  · intro c p hp
    rcases lt_append _ _ (mem_parents_lt _ _ hp) with hc | rfl
    · rw [old_parents _ _ _ hc] at hp
      exact hw.older c p hp
    · rw [new_parents] at hp
      exact hlt p hp
  · intro c d hc hd hs hi
    rcases lt_append _ _ hc with hc | rfl <;> rcases lt_append _ _ hd with hd | rfl
    · rw [old_space _ _ _ hc, old_space _ _ _ hd] at hs
      rw [old_id _ _ _ hc, old_id _ _ _ hd] at hi
      exact hw.ids c d hc hd hs hi
    · rw [old_space _ _ _ hc, new_space] at hs
      rw [old_id _ _ _ hc, new_id] at hi
      have := hw.ids_lt c hc
      simp only [] at hi hs
      rw [hs] at this
      omega
    · rw [old_space _ _ _ hd, new_space] at hs
      rw [old_id _ _ _ hd, new_id] at hi
      have := hw.ids_lt d hd
      simp only [] at hi hs
      rw [← hs] at this
      omega
    · rfl
  · intro c n hn
    rcases lt_append _ _ (mem_deletes_lt _ _ hn) with hc | rfl
    · rw [old_deletes _ _ _ hc] at hn
      obtain ⟨p, hp, he⟩ := hw.owners c n hn
      rw [old_parents _ _ _ hc]
      exact ⟨p, hp, by rw [old_id _ _ _ (hw.toStoreOk.parents_lt c p hp)]; exact he⟩
    · rw [new_deletes] at hn
      rw [new_parents]
      obtain ⟨p, hp, hu⟩ := o1 n.1 (by rw [mem_unique]; exact List.mem_map_of_mem hn)
      have hm := (hpar p).2 (Or.inr hp)
      exact ⟨p, hm, by rw [old_id _ _ _ (hlt p hm)]; exact (upgrade_some hu).2.2⟩
  · intro c p hp
    rcases lt_append _ _ (mem_parents_lt _ _ hp) with hc | rfl
    · rw [old_parents _ _ _ hc] at hp
      rw [old_space _ _ _ hc, old_space _ _ _ (hw.toStoreOk.parents_lt c p hp)]
      exact hw.spaces c p hp
    · rw [new_parents] at hp
      rw [new_space, old_space _ _ _ (hlt p hp)]
      exact hspace p hp
  · intro c hc
    rcases lt_append _ _ hc with hc | rfl
    · rw [old_isBase _ _ _ hc, old_parents _ _ _ hc]
      exact hw.bases c hc
    · rw [new_isBase, new_parents]
      simp [hnil]
  · intro c d hc hd hs
    rcases lt_append _ _ (isBase_lt _ _ hc) with hc' | rfl <;>
      rcases lt_append _ _ (isBase_lt _ _ hd) with hd' | rfl
    · rw [old_isBase _ _ _ hc'] at hc
      rw [old_isBase _ _ _ hd'] at hd
      rw [old_space _ _ _ hc', old_space _ _ _ hd'] at hs
      exact hw.one_base c d hc hd hs
    · rw [new_isBase] at hd
      cases hd
    · rw [new_isBase] at hc
      cases hc
    · rfl
  · intro c hc
    rw [count_append]
    rcases lt_append _ _ hc with hc | rfl
    · rw [old_id _ _ _ hc, old_space _ _ _ hc]
      exact Nat.lt_of_lt_of_le (hw.ids_lt c hc) (Nat.le_add_right ..)
    · rw [new_id, new_space]
      simp

end Verif.Persistent
