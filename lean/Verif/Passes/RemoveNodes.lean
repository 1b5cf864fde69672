import Verif.Passes.DeadCodeLemmas

/-!
# Removing nodes one by one
-/
namespace Verif.Passes

open Verif.Graph

variable {Meta : Type}

/-- `g` is `h` after removing the nodes of the list `R`. -/
structure Removed (h : Hugr Ops.Op Meta) (R : List Nat) (g : Hugr Ops.Op Meta) : Prop where
  live : ∀ m, g.live m = true ↔ h.live m = true ∧ m ∉ R
  parent : ∀ m p, g.hier.parent m = some p ↔ h.hier.parent m = some p ∧ m ∉ R ∧ p ∉ R
  children : ∀ m, g.hier.children m =
    if m ∈ R then [] else (h.hier.children m).filter fun c => c ∉ R
  ops : ∀ m, m ∉ R → g.ops m = h.ops m
  rest : g.cap = h.cap ∧ g.ins = h.ins ∧ g.outs = h.outs ∧ g.metadata = h.metadata ∧
    g.moduleRoot = h.moduleRoot ∧ g.entrypoint = h.entrypoint
  links : g.links = h.links.filter fun l => l.src ∉ R ∧ l.dst ∉ R

theorem hier_remove_parent {h : Hier} (hok : h.Ok) (n m p : Nat) :
    (h.remove n).parent m = some p ↔ h.parent m = some p ∧ m ≠ n ∧ p ≠ n := by
  have hd : ∀ q, (h.detach n).children q = (h.children q).erase n := detach_children hok n
  simp only [Hier.remove, hd, detach_parent]
  by_cases hmn : m = n
  · subst hmn
    simp [upd_same]
  · rw [upd_ne _ _ hmn]
    have hmem : m ∈ (h.children n).erase n ↔ h.parent m = some n := by
      rw [List.mem_erase_of_ne hmn, hok.1]
    by_cases hp : h.parent m = some n
    · rw [if_pos (hmem.2 hp)]
      simp only [reduceCtorEq, ne_eq, hmn, not_false_eq_true, true_and, false_iff, not_and, not_not]
      intro h1; rw [hp] at h1; exact (Option.some.inj h1).symm
    · rw [if_neg (fun hc => hp (hmem.1 hc))]
      constructor
      · intro h1; exact ⟨h1, hmn, fun he => hp (he ▸ h1)⟩
      · exact fun h1 => h1.1

theorem hier_remove_children {h : Hier} (hok : h.Ok) (n m : Nat) :
    (h.remove n).children m = if m = n then [] else (h.children m).filter fun c => c ≠ n := by
  have hd : ∀ q, (h.detach n).children q = (h.children q).erase n := detach_children hok n
  simp only [Hier.remove]
  by_cases hmn : m = n
  · subst hmn; rw [upd_same, if_pos rfl]
  · rw [upd_ne _ _ hmn, if_neg hmn, hd, (hok.2 m).erase_eq_filter]
    apply List.filter_congr
    intro x _
    by_cases hx : x = n <;> simp [hx]

theorem hier_remove_ok {h : Hier} (hok : h.Ok) (n : Nat) : (h.remove n).Ok := by
  constructor
  · intro p m
    rw [hier_remove_children hok, hier_remove_parent hok]
    by_cases hp : p = n
    · subst hp; simp
    · rw [if_neg hp, List.mem_filter, hok.1]
      simp [hp]
  · intro p
    rw [hier_remove_children hok]
    split
    · simp
    · exact (hok.2 p).filter _

theorem removeNodes_spec (R : List Nat) (h : Hugr Ops.Op Meta) (hok : h.hier.Ok) (hR : R.Nodup)
    (hlive : ∀ n ∈ R, h.live n = true) (he : h.entrypoint ∉ R) :
    ∃ g, removeNodes h R = some g ∧ Removed h R g := by
  induction R generalizing h with
  | nil => exact ⟨h, rfl, by constructor <;> simp⟩
  | cons n R ih =>
    rw [List.nodup_cons] at hR
    have hv : h.validNonEntrypoint n = true := by
      unfold Hugr.validNonEntrypoint
      rw [hlive n (by simp)]
      simp only [Bool.true_and, bne_iff_ne, ne_eq]
      intro heq; exact he (by simp [heq])
    unfold removeNodes Hugr.removeNode
    rw [if_pos hv]
    simp only
    obtain ⟨g, hg, hrem⟩ := ih
      { h with
        live := upd h.live n false
        links := h.links.filter fun l => l.src != n && l.dst != n
        hier := h.hier.remove n
        ops := upd h.ops n opsInfo.toOpInfo.default } (hier_remove_ok hok n) hR.2
      (by
        intro m hm
        have hne : m ≠ n := fun h1 => hR.1 (h1 ▸ hm)
        simp only [upd_ne _ _ hne]
        exact hlive m (by simp [hm]))
      (fun h1 => he (by simp [h1]))
    refine ⟨g, hg, ?_, ?_, ?_, ?_, ?_, ?_⟩
    · intro m
      rw [hrem.live]
      simp only [List.mem_cons, not_or]
      by_cases hmn : m = n
      · subst hmn; simp [upd_same]
      · simp [upd_ne _ _ hmn, hmn]
    · intro m p
      rw [hrem.parent]
      simp only [hier_remove_parent hok, List.mem_cons, not_or]
      tauto
    · intro m
      rw [hrem.children]
      simp only [hier_remove_children hok, List.mem_cons]
      by_cases hmn : m = n
      · subst hmn; simp
      · by_cases hmR : m ∈ R
        · simp [hmR]
        · simp only [hmn, hmR, if_false, or_self, List.filter_filter]
          apply List.filter_congr
          intro x _
          by_cases hx : x = n <;> simp [hx]
    · intro m hm
      simp only [List.mem_cons, not_or] at hm
      rw [hrem.ops m hm.2]
      simp only [upd_ne _ _ hm.1]
    · exact hrem.rest
    · rw [hrem.links]
      simp only [List.filter_filter]
      apply List.filter_congr
      intro l _
      by_cases h1 : l.src = n <;> by_cases h2 : l.dst = n <;> simp [h1, h2]

/-- If with every removed node its children are removed, what is left is a tree. -/
theorem removed_tree {h g : Hugr Ops.Op Meta} (ht : IsTree h) {R : List Nat} (hr : Removed h R g)
    (he : h.entrypoint ∉ R) (hm : h.moduleRoot ∉ R)
    (hclosed : ∀ c p, h.hier.parent c = some p → h.live c = true → p ∈ R → c ∈ R) : IsTree g := by
  obtain ⟨hcap, _, _, _, hroot, hentry⟩ := hr.rest
  have hup : ∀ m p, h.hier.parent m = some p → m ∉ R → g.hier.parent m = some p := by
    intro m p hp hmR
    refine (hr.parent m p).2 ⟨hp, hmR, fun hpR => hmR ?_⟩
    exact hclosed m p hp (ht.parent_live m p hp).1 hpR
  refine ⟨?_, ?_, ?_, ?_, ?_, ?_, ?_, ?_, ?_⟩
  · rw [hroot]; exact (hr.live _).2 ⟨ht.root_live, hm⟩
  · rw [hentry]; exact (hr.live _).2 ⟨ht.entry_live, he⟩
  · rw [hroot]
    cases hp : g.hier.parent h.moduleRoot with
    | none => rfl
    | some p => rw [hr.parent, ht.root_top] at hp; cases hp.1
  · intro n hn hne
    rw [hroot] at hne
    obtain ⟨h1, h2⟩ := (hr.live n).1 hn
    obtain ⟨p, hp⟩ := ht.has_parent n h1 hne
    exact ⟨p, hup n p hp h2⟩
  · intro n p hp
    obtain ⟨h1, h2, h3⟩ := (hr.parent n p).1 hp
    obtain ⟨h4, h5⟩ := ht.parent_live n p h1
    exact ⟨(hr.live n).2 ⟨h4, h2⟩, (hr.live p).2 ⟨h5, h3⟩⟩
  · intro p n
    rw [hr.children, hr.parent]
    split
    · rename_i hp; simp [hp]
    · rename_i hp; simp [List.mem_filter, ht.child_iff, hp]
  · intro p
    rw [hr.children]
    split
    · simp
    · exact (ht.child_once p).filter _
  · intro n hn
    rw [hroot]
    obtain ⟨h1, h2⟩ := (hr.live n).1 hn
    have key : ∀ a b, Above h.hier.parent a b → h.live a = true → a ∉ R →
        Above g.hier.parent a b := by
      intro a b hab
      induction hab with
      | refl => intros; exact .refl _
      | step hp _ ih =>
        intro ha haR
        refine .step (hup _ _ hp haR) (ih (ht.parent_live _ _ hp).2 ?_)
        exact ((hr.parent _ _).1 (hup _ _ hp haR)).2.2
    exact key n _ (ht.reaches_root n h1) h1 h2
  · intro n hn
    rw [hcap]; exact ht.in_range n ((hr.live n).1 hn).1

end Verif.Passes
